import Mathlib.Algebra.BigOperators.Group.List.Basic
import Mathlib.Data.Real.Basic

/-! Specification of the seats in a Chinese restaurant (C90). -/
namespace Cgpm.Props

/-- SPEC. The probability with which a customer joins a table, when `n` other customers are seated,
`c` of them at the table. -/
noncomputable def joins (alpha : ℝ) (n c : Nat) : ℝ := c / (n + alpha)

/-- SPEC. The probability with which a customer opens a table, when `n` other customers are seated. -/
noncomputable def opens (alpha : ℝ) (n : Nat) : ℝ := alpha / (n + alpha)

/-- SPEC. `Nk` lists how many of the customers sit at each table, and no table is empty. -/
structure Tallies (Nk Z : List Nat) : Prop where
  seated : ∀ z ∈ Z, z < Nk.length
  counts : ∀ (t c : Nat), Nk[t]? = some c → c = Z.count t ∧ 0 < c

end Cgpm.Props
