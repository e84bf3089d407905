import Verif.Spec.State

/-! Specification vocabulary for C91: tables of rows and sets of cells. -/
namespace Cgpm.Props
open Cgpm

variable {C : Cat}

/-- SPEC. The data set after the rows `obs` have been appended, in this order. -/
def rowsAdded (s : State C) (obs : List (Dict Col C.Cell)) : C.Tbl := fun c r =>
  if r < s.nRows then s.tbl c r
  else match obs[r - s.nRows]? with
    | none => none
    | some o => if c ∈ s.outputs then (o.get? c).getD none else none

/-- SPEC. Rows that can be appended to the State: they name only views and columns of the State,
hold no missing values, and their values are acceptable for the columns. -/
structure RowsFit (s : State C) (rows : List (Dict Col C.Cell × Dict Nat Tab)) : Prop where
  views : ∀ p ∈ rows, ∀ v ∈ p.2.keys, v ∈ s.views.keys
  columns : ∀ p ∈ rows, ∀ c ∈ p.1.keys, c ∈ s.outputs
  values : ∀ p ∈ rows, ∀ q ∈ p.1, q.2 ≠ none
  accepted : ∀ k < rows.length, ∀ c d, s.dimFor c = .ok d →
    admissible (rowsAdded s (rows.map Prod.fst)) d (s.nRows + k)

/-- SPEC. Cells that can be filled in: they are cells of the table that are missing, no cell is named
twice, no column named is an input of a column, and the values are acceptable. -/
structure CellsFit (s : State C) (cells : List (Row × Dict Col C.Cell)) : Prop where
  rows : ∀ p ∈ cells, p.1 < s.nRows
  nodup : ∀ p ∈ cells, p.2.keys.Nodup
  missing : ∀ p ∈ cells, ∀ c ∈ p.2.keys, c ∈ s.outputs ∧ s.tbl c p.1 = none
  once : cells.Pairwise fun p q => p.1 = q.1 → ∀ c ∈ p.2.keys, c ∉ q.2.keys
  inputs : ∀ c d, s.dimFor c = .ok d → ∀ i ∈ d.inputs, ∀ p ∈ cells, i ∉ p.2.keys
  accepted : ∀ p ∈ cells, ∀ c ∈ p.2.keys, ∀ d, s.dimFor c = .ok d →
    admissible (cellsForced s p.1 p.2) d p.1

/-- SPEC. `t` is `s` with the rows `rows` appended: the columns, their types and the column partition
are those of `s`, old rows keep their clusters, and a new row is in the cluster that it names, or
else in the one sampled for it. -/
structure RowsIn (s t : State C) (rows : List (Dict Col C.Cell × Dict Nat Tab))
    (z : Row → Nat → Tab) : Prop where
  nRows : t.nRows = s.nRows + rows.length
  outputs : t.outputs = s.outputs
  partition : t.Zv = s.Zv
  data : t.tbl = rowsAdded s (rows.map Prod.fst)
  views : t.views.keys = s.views.keys
  old : ∀ i v v', s.views.get? i = some v → t.views.get? i = some v' →
    ∀ r < s.nRows, v'.seat r = v.seat r
  seats : ∀ i v', t.views.get? i = some v' → ∀ k (h : k < rows.length),
    v'.seat (s.nRows + k) = some ((rows[k].2.get? i).getD (z (s.nRows + k) i))

/-- SPEC. `t` is `s` with the cells `cells` filled in and nothing else changed in the data, the
columns or the column partition. -/
structure CellsIn (s t : State C) (cells : List (Row × Dict Col C.Cell)) : Prop where
  nRows : t.nRows = s.nRows
  outputs : t.outputs = s.outputs
  partition : t.Zv = s.Zv
  filled : ∀ p ∈ cells, ∀ c x, p.2.get? c = some x → t.tbl c p.1 = x
  others : ∀ c r, (∀ p ∈ cells, p.1 = r → c ∉ p.2.keys) → t.tbl c r = s.tbl c r

end Cgpm.Props
