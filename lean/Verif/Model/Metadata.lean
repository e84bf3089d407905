import Verif.Model.Composite
import Verif.Model.Engine

/-
Model of serialization: src/crosscat/state.py:1189-1275, src/mixtures/view.py:565-606 and
src/crosscat/engine.py:394-422.

Simplifications, global to this file:
* The entries `suffstats` and `factory` are not kept: `from_metadata` does not read the former, and
  the latter names the class. Diagnostics and the Loom path are not part of the model of a State.
* The conversions between lists and numpy arrays keep the values.
* `distargs` is part of the type of a column, except for the inputs, see `ColSpec`.
* A Python 2 dict or set lists its elements in an arbitrary order: it is a parameter of each function
  that builds one.
* A foreign model is restored as itself: its own `to_metadata` is not modelled.
-/
namespace Cgpm

/-- The metadata of a State. `specs` stands for the lists `cctypes`, `hypers` and `distargs`. -/
structure StateMeta (C : Cat) where
  X : List (List C.Cell)
  outputs : List Col
  alpha : ℝ
  Zv : List (Col × Nat)
  specs : List (State.ColSpec C)
  Cd : Blocks
  Ci : Pairs
  Zrv : List (Nat × List Tab)
  viewAlphas : List (Nat × ℝ)

/-- The metadata of a View. Its `X` is the State's own object and is an argument, as in the model of
the View. -/
structure ViewMeta (C : Cat) where
  outputs : List Col
  Zr : List Tab
  alpha : ℝ
  specs : List (State.ColSpec C)

/-- The arbitrary orders: that of `dict(metadata['Zv'])`, that of `set(self.Zv().values())` and that
of a dict of models; and the concentrations drawn for the views that have none in the metadata. -/
structure Restoring where
  zv : Dict Col Nat → Dict Col Nat
  views : List Nat → List Nat
  alphas : Nat → ℝ

namespace View
variable {C : Cat}

/-- src/mixtures/view.py:573-574 and src/crosscat/state.py:1222-1223:
`[view.Zr(i) for i in sorted(view.Zr())]`. -/
def rowLabels (v : View C) : List Tab :=
  (pySorted v.crp.data.keys).map fun r => (v.seat r).getD 0

/-- What the metadata keeps of a column: src/mixtures/view.py:583-585. -/
def specOf (d : Dim C) : State.ColSpec C := ⟨d.inputs, d.kind, d.hyp⟩

/-- src/mixtures/view.py:565-591 `to_metadata`. `self.outputs[1:]` is `self.dims.keys()` (L140). -/
def toMetadata (v : View C) : ViewMeta C :=
  { outputs := v.dims.keys, Zr := v.rowLabels, alpha := v.crp.alpha
    specs := v.dims.vals.map specOf }

end View

namespace State
variable {C : Cat}

/-- `cctypes[outputs.index(c)]` and so on; `none` where Python raises. -/
def specAt (outputs : List Col) (specs : List (ColSpec C)) (c : Col) : Option (ColSpec C) :=
  specs[outputs.idxOf c]?

/-- The schema that the constructor of the State or the View reads from lists with one entry per
output; IndexError (in the View: AssertionError) when the lists are too short. -/
def withSchema {α : Type} (outputs : List Col) (specs : List (ColSpec C))
    (k : (Col → ColSpec C) → Except Exn α) : Except Exn α :=
  match specs with
  | [] => .error .indexError
  | d :: t =>
    if (d :: t).length < outputs.length then .error .indexError
    else k fun c => (specAt outputs (d :: t) c).getD d

/-- src/crosscat/state.py:923-925 `data_array`: one list per row. (For columns of equal length.) -/
def dataArray (s : State C) : List (List C.Cell) :=
  (List.range s.nRows).map fun r => s.X.vals.map fun l => (l[r]?).getD none

/-- src/crosscat/state.py:1205-1213: one entry per dim. -/
def specsOf (s : State C) : List Col → Except Exn (List (ColSpec C))
  | [] => .ok []
  | c :: cs =>
    match s.dimFor c with
    | .error e => .error e
    | .ok d => (specsOf s cs).map (View.specOf d :: ·)

/-- src/crosscat/state.py:1189-1240 `to_metadata`. -/
def toMetadata (s : State C) : Except Exn (StateMeta C) :=
  match s.specsOf s.outputs with
  | .error e => .error e
  | .ok specs => .ok
      { X := s.dataArray, outputs := s.outputs, alpha := s.crp.alpha, Zv := s.crp.data, specs
        Cd := s.Cd, Ci := s.Ci
        Zrv := s.views.map fun p => (p.1, p.2.rowLabels)
        viewAlphas := s.views.map fun p => (p.1, p.2.crp.alpha) }

/-- src/crosscat/state.py:61-70: the outputs (by default numbered from 0) and the columns of the
data. An array without rows has no `shape[1]`. -/
def columnsOf (rows : List (List C.Cell)) (outputs : List Col) :
    Except Exn (Dict Col (List C.Cell)) :=
  match rows with
  | [] => .error .indexError
  | row :: rest =>
    let outs := if outputs = [] then List.range row.length else outputs
    if outs.length ≠ row.length then .error .assertion
    else .ok (Dict.update [] (outs.zipIdx.map fun p =>
      (p.1, (row :: rest).map fun row => (row[p.2]?).getD none)))

/-- src/crosscat/state.py:1246-1263 `from_metadata`, up to the composed models. The assertion of
L128 is checked before the State is built. -/
def fromMetadata (ρ : Restoring) (m : StateMeta C) : Except Exn (State C) :=
  match columnsOf m.X m.outputs with
  | .error e => .error e
  | .ok X =>
    let zv := ρ.zv (Dict.update [] m.Zv)
    let zrv : Dict Nat (List Tab) := Dict.update [] m.Zrv
    let alphas : Dict Nat ℝ := Dict.update [] m.viewAlphas
    if zrv.keys.all (zv.vals.contains ·) && zv.vals.all (zrv.keys.contains ·) then
      withSchema X.keys m.specs fun schema =>
        init X schema m.alpha zv (ρ.views zv.vals)
          (fun v => ((alphas.get? v).getD (ρ.alphas v), (zrv.get? v).getD [])) m.Cd m.Ci
    else .error .assertion

end State

namespace View
variable {C : Cat}

/-- src/mixtures/view.py:594-606 `from_metadata`. -/
def fromMetadata (X : C.Tbl) (m : ViewMeta C) : Except Exn (View C) :=
  match State.newView (C := C) m.alpha m.Zr with
  | .err e _ => .error e
  | .ok v =>
    if m.outputs = [] then .ok v
    else State.withSchema m.outputs m.specs fun schema =>
      match State.addDims X schema m.outputs v with
      | .err e _ => .error e
      | .ok v' => .ok v'

end View

namespace Composite
variable {C : Cat} {Ω : Type}

/-- src/crosscat/state.py:1229-1231: with the composed models. -/
def toMetadata (x : Composite C Ω) :
    Except Exn (StateMeta C × Dict Nat (NetCgpm (Option Row) (Val C) Ω)) :=
  match x.st.toMetadata with
  | .error e => .error e
  | .ok m => .ok (m, x.hooked)

/-- src/crosscat/state.py:1264-1270: the models are composed one after the other. -/
def composeList (cfg : Cfg C) (ord : PyOrder) (beh : ViewBehaviour C Ω) :
    List (NetCgpm (Option Row) (Val C) Ω) → Composite C Ω → Except Exn (Composite C Ω)
  | [], x => .ok x
  | c :: cs, x =>
    match x.compose cfg ord beh c with
    | .err e _ => .error e
    | .ok _ x' => composeList cfg ord beh cs x'

/-- src/crosscat/state.py:1246-1270 `from_metadata`; `hookOrder` is the order of `iteritems`. -/
def fromMetadata (cfg : Cfg C) (ord : PyOrder) (beh : ViewBehaviour C Ω) (ρ : Restoring)
    (hookOrder : Dict Nat (NetCgpm (Option Row) (Val C) Ω) →
      Dict Nat (NetCgpm (Option Row) (Val C) Ω))
    (m : StateMeta C × Dict Nat (NetCgpm (Option Row) (Val C) Ω)) : Except Exn (Composite C Ω) :=
  match State.fromMetadata ρ m.1 with
  | .error e => .error e
  | .ok s => composeList cfg ord beh (hookOrder m.2).vals (.new s)

end Composite

namespace Engine
variable {C : Cat}

/-- The metadata of the states, one after the other; the first exception stops the loop. -/
def metas : List (State C) → Except Exn (List (StateMeta C))
  | [] => .ok []
  | s :: t =>
    match s.toMetadata with
    | .error e => .error e
    | .ok m => (metas t).map (m :: ·)

/-- src/crosscat/engine.py:394-401 `to_metadata`: the data of the first state, and the metadata of
all states without the data. -/
def toMetadata (e : Engine (State C)) : Except Exn (List (List C.Cell) × List (StateMeta C)) :=
  match e.states with
  | [] => .error .indexError
  | s :: t =>
    match metas (s :: t) with
    | .error e => .error e
    | .ok ms => .ok (s.dataArray, ms.map fun m => { m with X := [] })

/-- src/crosscat/engine.py:404-422 `from_metadata`; `ρ i` are the orders met by the `i`-th state. (An
exception in another process is a RuntimeError.) -/
def fromMetadata (multi : Bool) (ρ : Nat → Restoring)
    (m : List (List C.Cell) × List (StateMeta C)) : Except Exn (Engine (State C)) :=
  (go 0 m.2).map Engine.mk
where
  /-- The loop of the mapper. -/
  go (i : Nat) : List (StateMeta C) → Except Exn (List (State C))
    | [] => .ok []
    | x :: t =>
      match State.fromMetadata (ρ i) { x with X := m.1 }, go (i + 1) t with
      | .ok s, .ok ss => .ok (s :: ss)
      | .error e, _ => .error (if multi then .runtime else e)
      | _, .error e => .error e

end Engine
end Cgpm
