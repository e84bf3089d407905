import Verif.Model.StateLogpdf
import Verif.Spec.ViewQuery
import Verif.Spec.State

/-!
Specification vocabulary for the density queries on a State (C16, C17, C45).
-/
namespace Cgpm.Props
open Cgpm

variable {C : Cat}

/-- SPEC. Mixture density, in one view, of a new row with the values `D`. -/
noncomputable def viewDensity (v : View C) (D : Col → Option C.Cell) : ENNReal :=
  mixture v fun k => rowDensity v k D

/-- SPEC. Density of a new row with the values `D`: the product over the views. -/
noncomputable def stateDensity (s : State C) (D : Col → Option C.Cell) : ENNReal :=
  (s.views.map fun p => viewDensity p.2 D).prod

/-- SPEC. Some column of `T` belongs to view `v`. -/
def Asked (s : State C) (T : Dict Col C.Cell) (v : Nat) : Prop := ∃ c ∈ T.keys, s.Zv c = some v

/-- SPEC. Values are asked for some columns, and given for others; these columns exist and have no
inputs. -/
structure StateQueryOn (s : State C) (T E : Dict Col C.Cell) : Prop where
  targets : T.keys.Nodup
  evidence : E.keys.Nodup
  columns : ∀ c ∈ T.keys ++ E.keys, c ∈ s.outputs ∧ ∀ d, s.dimFor c = .ok d → d.inputs = []

/-- SPEC. The row identifier is `none` (or, in the code, a negative number), or not that of a row. -/
def NewRowId (s : State C) (rowid : Option Row) : Prop := ∀ r, rowid = some r → s.nRows ≤ r

/-- SPEC. The constraint `E` agrees (up to the tolerance `close`) with the observed cells of row
`r`. -/
def StateAgrees (close : C.V → C.V → Bool) (s : State C) (r : Row) (E : Dict Col C.Cell) : Prop :=
  ∀ c x, E.get? c = some x → c ∈ s.outputs → ∀ y, s.tbl c r = some y → ∃ w, x = some w ∧ close y w

open Classical in
/-- SPEC. What is known about row `r` in a query for the variables of `T` given `E`: the constraints
and the observed cells of the row that are neither targets nor constraints. -/
noncomputable def stateKnown (s : State C) (r : Row) (T : List Col) (E : Dict Col C.Cell) :
    Col → Option C.Cell :=
  fun c => if c ∈ s.outputs ∧ c ∉ T ∧ c ∉ E.keys ∧ s.tbl c r ≠ none then some (s.tbl c r)
    else E.get? c

end Cgpm.Props
