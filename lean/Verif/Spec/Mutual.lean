import Verif.Model.Mutual
import Verif.Spec.Network
import Mathlib.Logic.Relation

/-! Specification vocabulary for C47: the connected components of a network, and the blocks of a
query. -/
namespace Cgpm.Mutual
open Cgpm.Net
variable {R V Ω : Type}

/-- SPEC. The contract of `scipy.sparse.csgraph.connected_components(connection='weak')`: two nodes
get the same label exactly when they are linked by edges, whatever their direction. -/
def WeakLabels (scipy : Nat → (Nat → Nat → Bool) → List Nat) : Prop :=
  ∀ n A, (scipy n A).length = n ∧ ∀ i j, i < n → j < n →
    ((scipy n A)[i]? = (scipy n A)[j]? ↔
      Relation.EqvGen (fun i j => i < n ∧ j < n ∧ A i j = true) i j)

/-- SPEC. The components that produce the two variables are linked by a chain of components, each of
which reads a variable of the next, or is read by it. -/
def Connected (cgpms : List (NetCgpm R V Ω)) (u v : Nat) : Prop :=
  ∃ (i j : Nat) (a b : NetCgpm R V Ω), cgpms[i]? = some a ∧ u ∈ a.outputs ∧ cgpms[j]? = some b ∧
    v ∈ b.outputs ∧ Relation.EqvGen (Feeds cgpms) i j

/-- SPEC. The variable occurs in the block. -/
def Block.Has (b : Block V) (v : Nat) : Prop := v ∈ b.col0 ∨ v ∈ b.col1 ∨ v ∈ b.constraints.keys

open Classical in
/-- SPEC. The blocks are the connected classes of the variables of the query: a block is the part of
the query that is connected to one of its variables, each variable is in a block, and different
blocks are not connected. -/
structure Splits (cgpms : List (NetCgpm R V Ω)) (col0 col1 : List Nat)
    (constraints : Dict Nat (Option V)) (bs : List (Block V)) : Prop where
  block : ∀ b ∈ bs, ∃ v, b.Has v ∧
    b.col0 = col0.filter (fun u => decide (Connected cgpms v u)) ∧
    b.col1 = col1.filter (fun u => decide (Connected cgpms v u)) ∧
    b.constraints = constraints.filter fun p => decide (Connected cgpms v p.1)
  every : ∀ v, v ∈ col0 ∨ v ∈ col1 ∨ v ∈ constraints.keys → ∃ b ∈ bs, b.Has v
  apart : bs.Pairwise fun a b => ∀ u v, a.Has u → b.Has v → ¬ Connected cgpms u v

end Cgpm.Mutual
