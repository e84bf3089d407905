import Verif.Model.ViewDraws
import Verif.Model.StateLogpdf

/-
`State.simulate` and `State.logpdf` of a composite State (src/crosscat/state.py:392-427) as programs
that draw: the network of the views and the composed models.

Simplifications, global to this file (see also ViewDraws.lean and NetDraws.lean):
* Columns have types of src/primitives and no inputs; one sample (`N=None`).
* Values are real numbers, no value of a query is NaN.
* A composed model is a component with a program of draws.
-/
namespace Cgpm
variable {P : Prim → Prop}

/-- A composed model (src/crosscat/state.py:340-350): the component, and the draws it makes in one call
of `simulate`. -/
structure Composed where
  cgpm : NetCgpm (Option Row) ℝ (Nat → ℝ)
  draw : Option Row → List Nat → Look ℝ → Look ℝ → Draws (Nat → ℝ)

namespace State

/-- src/crosscat/state.py:426-427 `build_cgpms`: the views, then the composed models. -/
noncomputable def netCgpms (close : ℝ → ℝ → Bool) (ord : PyOrder) (s : State (catOf P))
    (hooked : List Composed) : List (NetCgpm (Option Row) ℝ (Nat → ℝ)) :=
  s.views.map (fun e => viewNet close s.tbl ord (token e.1) e.2) ++ hooked.map Composed.cgpm

/-- What the components of src/crosscat/state.py:426-427 draw. -/
noncomputable def netDraws (close : ℝ → ℝ → Bool) (ord : PyOrder) (s : State (catOf P))
    (hooked : List Composed) : NetDraws (Option Row) ℝ (Nat → ℝ) := fun l r ts constr ins =>
  match s.views[l]? with
  | some e => viewDraws close s.tbl ord (token e.1) e.2 r ts constr ins
  | none =>
    match hooked[l - s.views.length]? with
    | some h => h.draw r ts constr ins
    | none => .raise .indexError

/-- Values as cells of the data set. -/
def cellsFrom (D : Dict Nat ℝ) : Dict Col (catOf P).Cell := D.map fun q => (q.1, some q.2)

/-- Cells that are not NaN, as values. -/
def valuesFrom (D : Dict Col (catOf P).Cell) : Dict Nat ℝ :=
  D.filterMap fun q => q.2.map fun x => (q.1, x)

/-- src/crosscat/state.py:407-417 `simulate` of a composite State. -/
noncomputable def sampleComposite (close : ℝ → ℝ → Bool) (ord : PyOrder) (s : State (catOf P))
    (hooked : List Composed) (rowid : Option Row) (targets : List Nat)
    (constraints inputs : Dict Nat ℝ) (accuracy : Option Nat) : Draws (Dict Nat ℝ) :=
  match s.validateQuery close rowid true targets (cellsFrom constraints) with
  | .error e => .raise e
  | .ok () =>
    match Net.build ord (s.netCgpms close ord hooked) (some (accuracy.getD 1)) with
    | .error e => .raise e
    | .ok net => Net.simulateDraws ord (s.netDraws close ord hooked) rowid net targets
        (valuesFrom (s.populateConstraints rowid targets (cellsFrom constraints))) inputs

/-- src/crosscat/state.py:392-402 `logpdf` of a composite State. -/
noncomputable def densityComposite (close : ℝ → ℝ → Bool) (ord : PyOrder) (s : State (catOf P))
    (hooked : List Composed) (rowid : Option Row) (targets constraints inputs : Dict Nat ℝ)
    (accuracy : Option Nat) : Draws Fl :=
  match s.validateQuery close rowid false targets.keys (cellsFrom constraints) with
  | .error e => .raise e
  | .ok () =>
    match Net.build ord (s.netCgpms close ord hooked) (some (accuracy.getD 1)) with
    | .error e => .raise e
    | .ok net => Net.logpdfDraws ord (s.netDraws close ord hooked) rowid net targets
        (valuesFrom (s.populateConstraints rowid targets.keys (cellsFrom constraints))) inputs

end State
end Cgpm
