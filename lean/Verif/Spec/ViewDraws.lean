import Verif.Model.ViewDraws
import Verif.Spec.NetDraws
import Verif.Spec.StateDraws

/-!
Specification vocabulary for C73: the joint law of the cluster and the values of a new row of a view.
A point `x : Nat → ℝ` gives a value to every variable; `z` is the cluster variable.
-/
namespace Cgpm.Props
open Cgpm MeasureTheory
open scoped ENNReal
variable {P : Prim → Prop}

/-- SPEC. What the density of the cluster variable is a density of: the clusters in use and one new
cluster count one each. -/
noncomputable def clusterBase (v : View (catOf P)) : Measure ℝ :=
  ∑ k ∈ insert (freshTab v) (occupied v), Measure.dirac (k : ℝ)

open Classical in
/-- SPEC. The cluster with label `x`; a number that is no label stands for a new cluster. -/
noncomputable def clusterAt (v : View (catOf P)) (x : ℝ) : Tab :=
  if x = (⌊x⌋₊ : ℝ) then ⌊x⌋₊ else freshTab v

/-- SPEC. The joint density of the cluster and the values of a new row: the prior probability of the
cluster times the density of the values in the cluster. -/
noncomputable def clusterRowDensity (v : View (catOf P)) (z : Nat) (x : Nat → ℝ) : ℝ≥0∞ :=
  prior v (clusterAt v (x z)) *
    rowDensity v (clusterAt v (x z)) (valuesAt v.dims.keys x : Dict Col (catOf P).Cell).get?

/-- SPEC. A view that can be simulated: some row is in it, the name of the cluster variable is not that
of a column, and its columns have no inputs, and hyperparameters for which their types are defined;
`μ` is what the densities of its variables are densities of. -/
structure SimView (μ : Nat → Measure ℝ) (v : View (catOf P)) (z : Nat) : Prop where
  rows : ∃ r, v.seat r ≠ none
  token : z ∉ v.dims.keys
  plain : ∀ c d, v.dims.get? c = some d → d.inputs = []
  proper : ∀ c d, v.dims.get? c = some d → d.hyp.1.Proper d.hyp.2
  cluster : μ z = clusterBase v
  base : ∀ c d, v.dims.get? c = some d → μ c = d.kind.1.base

/-- SPEC. The row is new: it is not in the view, and its number, if it has one, is not smaller than the
number of rows. -/
def FreshRow (v : View (catOf P)) (rowid : Option Row) : Prop :=
  ∀ r, rowid = some r → v.seat r = none ∧ {r | v.seat r ≠ none}.ncard ≤ r

end Cgpm.Props
