import Verif.Model.StateQuery
import Verif.Model.Partition

/-
Model of the density queries on a State: State.logpdf (src/crosscat/state.py:392-476) and
state_logpdf (src/crosscat/sampling.py:37-49).

Simplifications, global to this file:
* `composite` is the flag `self._composite`, `hooked` is `self.hooked_cgpms` (the State structure
  does not store them).
* A rowid is `some r` with `r : Nat`, or `none`, which stands for `None` and for the negative
  integers: both are hypothetical rows.
* The views answer the network of a composite State as given by a `ViewBehaviour`.
* `constraints=None` and `inputs=None` are the empty dict.
-/
namespace Cgpm
namespace State
variable {C : Cat} {Ω : Type}

/-- src/crosscat/state.py:1156-1157 `hypothetical`. -/
def hypothetical (s : State C) (rowid : Option Row) : Bool :=
  match rowid with
  | none => true
  | some r => !decide (r < s.nRows)

/-- src/crosscat/state.py:460: `any(not np.isnan(self.X[q][rowid]) for q in targets)`. -/
def anyObserved (s : State C) (r : Row) : List Col → Except Exn Bool
  | [] => .ok false
  | q :: t =>
    match s.X.get? q with
    | none => .error .keyError
    | some l =>
      match l[r]? with
      | none => .error .indexError
      | some none => anyObserved s r t
      | some (some _) => .ok true

/-- src/crosscat/state.py:468-472 `good_constraint` (an output always has a column in `self.X`,
long enough for the row: C18).  `close` is `np.allclose`, false when the constraint is NaN. -/
def goodConstraint (close : C.V → C.V → Bool) (s : State C) (r : Row) (e : Col) (x : C.Cell) :
    Bool :=
  if s.outputs.contains e then
    match s.tbl e r, x with
    | none, _ => true
    | some y, some w => close y w
    | some _, none => false
  else true

/-- src/crosscat/state.py:463-476: the checks of the constraints.  (With no constraint they do
nothing, as L463 says.) -/
def validateConstraints (close : C.V → C.V → Bool) (s : State C) (rowid : Option Row)
    (targets : List Col) (constraints : Dict Col C.Cell) : Except Exn Unit :=
  if targets.any fun t => constraints.has t then .error .valueError
  else
    match s.hypothetical rowid, rowid with
    | false, some r =>
      if constraints.any fun p => !goodConstraint close s r p.1 p.2 then .error .valueError
      else .ok ()
    | _, _ => .ok ()

/-- src/crosscat/state.py:447-476 `_validate_cgpm_query`; `sim` says that the query is a
simulation. -/
def validateQuery (close : C.V → C.V → Bool) (s : State C) (rowid : Option Row) (sim : Bool)
    (targets : List Col) (constraints : Dict Col C.Cell) : Except Exn Unit :=
  if sim && !decide targets.Nodup then .error .valueError
  else
    match sim, s.hypothetical rowid, rowid with
    | false, false, some r =>
      match s.anyObserved r targets with
      | .error e => .error e
      | .ok true => .error .valueError
      | .ok false => s.validateConstraints close rowid targets constraints
    | _, _, _ => s.validateConstraints close rowid targets constraints

/-- src/crosscat/state.py:429-445 `_populate_constraints`: the loop of L438 runs over
`self.outputs[1:]`. -/
def populateConstraints (s : State C) (rowid : Option Row) (targets : List Col)
    (constraints : Dict Col C.Cell) : Dict Col C.Cell :=
  match s.hypothetical rowid, rowid with
  | false, some r =>
    let data : Dict Col C.Cell := (s.outputs.tail.filter fun c =>
      !targets.contains c && !constraints.has c && (s.tbl c r).isSome).map fun c => (c, s.tbl c r)
    constraints.update data
  | _, _ => constraints

/-- src/crosscat/sampling.py:40-49: the sum of the densities of the views that have targets
(`sum` starts from 0). -/
noncomputable def sumViews (s : State C) (rowid : Option Row)
    (constraints : Dict Nat (Dict Col C.Cell)) : Dict Nat (Dict Col C.Cell) → Fl → Except Exn Fl
  | [], acc => .ok acc
  | (v, T) :: t, acc =>
    match s.views.get? v with
    | none => .error .keyError
    | some view =>
      match view.fastLogpdf rowid T ((constraints.get? v).getD []) with
      | .error e => .error e
      | .ok lp => sumViews s rowid constraints t (acc.add lp)

/-- src/crosscat/sampling.py:37-49 `state_logpdf`. -/
noncomputable def stateLogpdf (s : State C) (rowid : Option Row)
    (targets constraints : Dict Col C.Cell) : Except Exn Fl :=
  match partitionQueryEvidenceDict s.crp.data targets (some constraints) with
  | .error e => .error e
  | .ok (T, E) => s.sumViews rowid E T (.fin 0)

/-- The values of a query as values of the variables of the network. -/
def toVals (D : Dict Col C.Cell) : Dict Nat (Val C) := D.map fun p => (p.1, .cell p.2)

/-- src/crosscat/state.py:392-402 `logpdf`; `build_network` is L422-424. -/
noncomputable def logpdf (close : C.V → C.V → Bool) (ord : PyOrder) (beh : ViewBehaviour C Ω)
    (ωj ωm : Nat → Nat → Ω) (s : State C) (composite : Bool)
    (hooked : Dict Nat (NetCgpm (Option Row) (Val C) Ω)) (rowid : Option Row)
    (targets constraints inputs : Dict Col C.Cell) (accuracy : Option Nat) : Except Exn Fl :=
  match s.validateQuery close rowid false targets.keys constraints with
  | .error e => .error e
  | .ok () =>
    if composite then
      match Net.build ord (s.buildCgpms beh hooked) (some (accuracy.getD 1)) with
      | .error e => .error e
      | .ok net => Net.logpdf ord ωj ωm rowid net (toVals targets)
          (toVals (s.populateConstraints rowid targets.keys constraints)) (toVals inputs)
    else if !inputs.isEmpty then .error .assertion
    else s.stateLogpdf rowid targets constraints

end State
end Cgpm
