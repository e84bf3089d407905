import Verif.Model.Constraints

/-!
Specification vocabulary for C22-C24.
-/
namespace Cgpm.Props
open Cgpm

/-- SPEC. The constraint sets the documentation allows on columns `0, ..., N-1`: no block of
one column, columns in range, no column named twice in the blocks, pairs of two different
columns in range, no pair inside a block. -/
structure ValidConstraints (N : Nat) (Cd : Blocks) (Ci : Pairs) : Prop where
  size : ∀ b ∈ Cd, b.length ≠ 1
  range : ∀ b ∈ Cd, ∀ c ∈ b, c < N
  once : Cd.flatten.Nodup
  pairRange : ∀ p ∈ Ci, p.1 < N ∧ p.2 < N
  pairNe : ∀ p ∈ Ci, p.1 ≠ p.2
  noPairInBlock : ∀ p ∈ Ci, ∀ b ∈ Cd, ¬ (p.1 ∈ b ∧ p.2 ∈ b)

/-- SPEC. An assignment of tables to columns meets the constraints. -/
def Meets (Z : Nat → Nat) (Cd : Blocks) (Ci : Pairs) : Prop :=
  (∀ b ∈ Cd, ∀ x ∈ b, ∀ y ∈ b, Z x = Z y) ∧ ∀ p ∈ Ci, Z p.1 ≠ Z p.2

/-- SPEC. A seating in which every dependence block is one customer: the members of a block
other than its first are left out. -/
def collapse (Z : Dict Row Tab) (Cd : Blocks) : List (Row × Tab) :=
  Z.filter fun p => (∃ b ∈ Cd, b.head? = some p.1) ∨ p.1 ∉ Cd.flatten

end Cgpm.Props
