import Mathlib.Data.Real.Basic
import Verif.Model.Py

/-!
Specification vocabulary for C38: what a row of covariates looks like, and its code.
`levels i = some k` says that covariate `i` is categorical with the `k` values 0, …, k-1.
-/
namespace Cgpm.Props

/-- SPEC. The value is a category of the covariate (anything, for a numeric covariate). -/
def ValidCell (levels : Nat → Option Nat) (i : Nat) (v : Option ℝ) : Prop :=
  match levels i with
  | none => True
  | some k => ∃ n : ℕ, n < k ∧ v = some (n : ℝ)

/-- SPEC. All values of the row are categories of their covariates. -/
def ValidRow (levels : Nat → Option Nat) (x : List (Option ℝ)) : Prop :=
  ∀ (i : Nat) v, x[i]? = some v → ValidCell levels i v

/-- SPEC. The number of entries of the code of a covariate: one less than its categories. -/
def cellWidth (levels : Nat → Option Nat) (i : Nat) : Nat :=
  match levels i with
  | none => 1
  | some k => k - 1

/-- SPEC. The number of entries of the code of a row with `n` covariates. -/
def rowWidth (levels : Nat → Option Nat) (n : Nat) : Nat :=
  ((List.range n).map (cellWidth levels)).sum

open Classical in
/-- SPEC. The code of a value: a numeric value itself, for a category the indicators of
the categories 0, …, k-2. -/
noncomputable def codeOf (levels : Nat → Option Nat) (i : Nat) (v : Option ℝ) : List (Option ℝ) :=
  match levels i with
  | none => [v]
  | some k => (List.range (k - 1)).map fun j : ℕ => some (if v = some (j : ℝ) then 1 else 0)

end Cgpm.Props
