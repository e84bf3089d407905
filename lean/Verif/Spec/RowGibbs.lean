import Verif.Spec.View
import Mathlib.Data.Setoid.Basic
import Mathlib.Data.Fintype.BigOperators
import Mathlib.Data.Real.Basic
import Mathlib.Analysis.SpecialFunctions.Exp

/-!
Specification vocabulary for C58, C59: partitions of the rows of a view, the views that share data,
columns and hyperparameters, and sampling from a conditional distribution.
-/
namespace Cgpm.Spec
open Cgpm Cgpm.Props

/-- SPEC. A partition of a set of rows, as an equivalence relation. -/
abbrev RowPartition (rows : Finset Row) := Setoid {r // r ∈ rows}

instance {rows : Finset Row} : Finite (RowPartition rows) :=
  Finite.of_injective (fun q : RowPartition rows => fun a b => q.r a b)
    (fun q q' h => Setoid.ext fun a b => by rw [show q.r a b = q'.r a b from congrFun₂ h a b])

noncomputable instance {rows : Finset Row} : Fintype (RowPartition rows) := Fintype.ofFinite _

/-- SPEC. The partition of the rows by the clusters of a view: the labels of the clusters do not
matter. -/
def partitionOf {C : Cat} (rows : Finset Row) (v : View C) : RowPartition rows :=
  Setoid.ker fun r => v.seat r.1

/-- SPEC. Two partitions agree on all rows but `r`: `r` may have moved to another block, or to a
block of its own. -/
def AgreeOff {rows : Finset Row} (r : Row) (q q' : RowPartition rows) : Prop :=
  ∀ a b : {r // r ∈ rows}, a.1 ≠ r → b.1 ≠ r → (q.r a b ↔ q'.r a b)

open Classical in
/-- SPEC. The expected value of `f` when, starting from `q`, a partition that agrees with `q` off the
row `r` is drawn with probability proportional to `W`. -/
noncomputable def redraw {rows : Finset Row} (W : RowPartition rows → ℝ) (r : Row)
    (f : RowPartition rows → ℝ) (q : RowPartition rows) : ℝ :=
  ∑ q' with AgreeOff r q q', (W q' / ∑ q'' with AgreeOff r q q'', W q'') * f q'

/-- SPEC. The expected value of `f` when a partition is drawn with probability proportional to `W`. -/
noncomputable def expectation {rows : Finset Row} (W f : RowPartition rows → ℝ) : ℝ :=
  (∑ q, W q * f q) / ∑ q, W q

/-- SPEC. The views that share the data set, the rows, the concentration and the columns (with their
types, inputs and hyperparameters) of `v`: they differ in the assignment of rows to clusters only. -/
structure SameModel {C : Cat} (X : C.Tbl) (v u : View C) : Prop where
  reachable : Reachable X u
  rows : ∀ r, u.seat r ≠ none ↔ v.seat r ≠ none
  alpha : u.crp.alpha = v.crp.alpha
  columns : ∀ c, (u.dims.get? c = none ↔ v.dims.get? c = none) ∧
    ∀ d d', v.dims.get? c = some d → u.dims.get? c = some d' →
      d'.index = d.index ∧ d'.inputs = d.inputs ∧ d'.kind = d.kind ∧ d'.hyp = d.hyp

/-- SPEC. The rows of a view. -/
def IsRows {C : Cat} (rows : Finset Row) (v : View C) : Prop := ∀ r, r ∈ rows ↔ v.seat r ≠ none

/-- SPEC. `W` is the posterior weight of each partition of the rows, up to a constant factor: the
exponential of the score (prior plus likelihood) of every view of the model with that partition. -/
def IsPosterior {C : Cat} (X : C.Tbl) (v : View C) {rows : Finset Row} (W : RowPartition rows → ℝ) :
    Prop := ∀ u, SameModel X v u → W (partitionOf rows u) = Real.exp u.score

end Cgpm.Spec
