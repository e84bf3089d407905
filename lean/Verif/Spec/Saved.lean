import Verif.Model.Saved

/-
Specification vocabulary for C86: what it means that two regressions hold the same rows, and that a
regressor does not depend on the order of its training rows.
-/
namespace Cgpm.Spec

/-- SPEC. The two objects hold the same number of rows and the same rows (number, value, covariates),
perhaps in another order; each pairs the value of a row with the covariates of the same row. -/
def SameRows {X : Type} (s t : RegRows X) : Prop :=
  s.N = t.N ∧ ∃ l l' : List (Row × X × List (Option ℝ)), l.Perm l' ∧
    s.x = l.map (fun e => (e.1, e.2.1)) ∧ s.Y = l.map (fun e => (e.1, e.2.2)) ∧
    t.x = l'.map (fun e => (e.1, e.2.1)) ∧ t.Y = l'.map (fun e => (e.1, e.2.2))

/-- SPEC. What `fit` learns from rows does not depend on their order. -/
def OrderFree (fit : List (List ℝ) → List ℝ → (List ℝ → ℝ)) : Prop :=
  ∀ l l' : List (ℝ × List ℝ), l.Perm l' →
    fit (l.map Prod.snd) (l.map Prod.fst) = fit (l'.map Prod.snd) (l'.map Prod.fst)

/-- SPEC. An order of iteration: every key once. -/
def IsOrder (ord : List Row → List Row) : Prop := ∀ l, (ord l).Perm l

end Cgpm.Spec
