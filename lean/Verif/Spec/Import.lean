import Verif.Model.Import

/-! Specification of the exchange of partitions with Lovecat and Loom (C40, C41). -/
namespace Cgpm.Props
open Cgpm
variable {C : Cat}

/-- SPEC. The data, the columns, their types, inputs and hyperparameters, and the constraints are
those of `s`. -/
structure Kept (s s' : State C) : Prop where
  data : s'.X = s.X
  outputs : s'.outputs = s.outputs
  dependent : s'.Cd = s.Cd
  independent : s'.Ci = s.Ci
  columns : ∀ c d, s.dimFor c = .ok d → ∃ d', s'.dimFor c = .ok d' ∧ d'.kind = d.kind ∧
    d'.hyp = d.hyp ∧ d'.inputs = d.inputs

/-- SPEC. What the import of a Loom sample expects: Loom's features are the columns of the State, in
any order; each feature is in one kind; no kind is empty; the stream has each row once, in any order,
with a group for each kind. -/
structure LoomFits (x : LoomSample) (s : State C) : Prop where
  features : x.features.Perm (s.outputs.map columnName)
  kinds : x.kinds.flatten.Perm (List.range s.outputs.length)
  nonempty : ∀ l ∈ x.kinds, l ≠ []
  rows : (x.rows.map Prod.fst).Perm (List.range s.nRows)
  groups : ∀ p ∈ x.rows, x.kinds.length ≤ p.2.length

/-- SPEC. What the import of X_L and X_D expects: one assignment per column, every view used, one
label per row, positive concentrations. -/
structure LovecatFits (x : Lovecat) (s : State C) : Prop where
  alpha : 0 < x.alpha
  columns : x.assignments.length = s.outputs.length
  views : x.viewAlphas.length = x.rows.length
  pos : ∀ a ∈ x.viewAlphas, 0 < a
  rows : ∀ zs ∈ x.rows, zs.length = s.nRows
  used : ∀ k, k ∈ x.assignments ↔ k < x.rows.length

/-- SPEC. The order in which `view.Zr()` lists the rows. -/
def rowsListed (v : View C) : List Row := v.crp.data.keys

/-- SPEC. Every view lists the rows in their order in the data. -/
def RowsInOrder (s : State C) : Prop :=
  ∀ n v, s.views.get? n = some v → rowsListed v = List.range s.nRows

end Cgpm.Props
