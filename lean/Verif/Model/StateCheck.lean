import Verif.Model.State

/-
Model of the debug checks: `View._check_partitions` and `State._check_partitions`, as the
conjunction of their assertions.
-/
namespace Cgpm
variable {C : Cat}

/-- src/mixtures/view.py:540-560: the assertions made about one column.  The test on
`dim.inputs[0]` is about the name of the cluster variable, which is not modelled; `N` is the
number of rows a component holds; the regressors `dim.inputs[1:]` are `d.inputs`. -/
structure View.DimCheck (X : Dict Col (List C.Cell)) (n : Nat) (v : View C) (i : Col) (d : Dim C) :
    Prop where
  length : ∃ l, X.get? i = some l ∧ l.length = n
  assignments : ∀ r, (d.Zr.update d.Zi).get? r = v.crp.data.get? r
  values : ∀ k, k ∈ (d.Zr.update d.Zi).vals ↔ k ∈ v.crp.counts.keys
  clusters : ∀ k, k ∈ d.clusters.keys ++ d.Zi.vals ↔ k ∈ v.crp.counts.keys
  conserved : ∀ k c, d.clusters.get? k = some c → v.crp.counts.get? k =
    some ((c.data.length +
      ((List.range n).filter fun r => decide (v.crp.data.get? r = some k) &&
        (d.index :: d.inputs).any fun j => (State.tblOf X j r).isNone).length : Nat) : Int)

/-- src/mixtures/view.py:528-560 `_check_partitions`. -/
structure View.Check (X : Dict Col (List C.Cell)) (n : Nat) (v : View C) : Prop where
  alpha : 0 < v.crp.alpha
  rows : ∀ r, r ∈ v.crp.data.keys ↔ r ∈ List.range n
  values : ∀ k, k ∈ v.crp.data.vals ↔ k ∈ v.crp.counts.keys
  dims : ∀ i d, v.dims.get? i = some d → View.DimCheck X n v i d

/-- src/crosscat/state.py:1162-1180 `_check_partitions`, without the last assertion (the
constraints on the columns: see C21). -/
structure State.Check (s : State C) : Prop where
  alpha : 0 < s.crp.alpha
  counts : ∀ v view, s.views.get? v = some view →
    s.crp.counts.get? v = some (view.dims.length : Int)
  data : ∀ c ∈ s.outputs, c ∈ s.X.keys
  columns : pySorted s.crp.data.keys = pySorted s.outputs
  number : s.crp.data.length = s.outputs.length
  dims : ∀ c ∈ s.outputs, ∃ d, s.dimFor c = .ok d
  total : s.crp.counts.vals.sum = (s.outputs.length : Int)
  views : ∀ v view, s.views.get? v = some view → View.Check s.X s.nRows view

end Cgpm
