import Verif.Model.StateLogpdf

/-
Model of the simulation of rows of a State: State.simulate (src/crosscat/state.py:407-417) and
state_simulate (src/crosscat/sampling.py:52-67, 85-99, 110-116).

Simplifications, global to this file (see also StateLogpdf.lean):
* `draw c k i` is the `i`-th value that the component of column `c` draws for cluster `k`.
* `us v` are the uniform draws of the choice of the clusters of view `v`, one for each sample; so
  their number is `N`.
* The keys of a dict of clusters are iterated in the order given by `PyOrder.set`, applied to them
  in increasing order.
-/
namespace Cgpm

namespace View
variable {C : Cat}

/-- src/crosscat/sampling.py:110-116 `_simulate_row`.  (`zip()` of no lists is empty.) -/
def simulateRow (v : View C) (draw : Col → Tab → Nat → C.V) (targets : List Col) (k : Tab)
    (N : Nat) : Except Exn (List (Dict Col C.Cell)) :=
  if targets.all fun c => v.dims.has c then
    .ok (if targets.isEmpty then []
      else (List.range N).map fun i => targets.map fun c => (c, some (draw c k i)))
  else .error .keyError

/-- `np.bincount`, as the dict of src/crosscat/sampling.py:97: the clusters drawn, in increasing
order. -/
def drawnTabs (ks : List Tab) : List Tab := ks.dedup.mergeSort (· ≤ ·)

/-- src/crosscat/sampling.py:98-99: the samples of each cluster, one cluster after the other. -/
def simulateRows (v : View C) (draw : Col → Tab → Nat → C.V) (targets : List Col)
    (ks : List Tab) : List Tab → Except Exn (List (Dict Col C.Cell))
  | [] => .ok []
  | k :: t =>
    match v.simulateRow draw targets k (ks.count k) with
    | .error e => .error e
    | .ok l => (simulateRows v draw targets ks t).map (l ++ ·)

/-- src/crosscat/sampling.py:85-99 `view_simulate`. -/
noncomputable def fastSimulate (ord : PyOrder) (v : View C) (rowid : Option Row)
    (targets : List Col) (constraints : Dict Col C.Cell) (us : List ℝ)
    (draw : Col → Tab → Nat → C.V) : Except Exn (List (Dict Col C.Cell)) :=
  match v.hypothetical rowid, rowid with
  | false, some r =>
    match v.seat r with
    | none => .error .keyError
    | some k => v.simulateRow draw targets k us.length
  | _, _ =>
    match v.crp.gibbsTables none 1 with
    | .error e => .error e
    | .ok K =>
      let lpCrp := K.map fun k =>
        Crp.calcPredictiveLogp k v.crp.data.length v.crp.counts v.crp.alpha
      match Net.collect (v.logpdfRow constraints) K with
      | .error e => .error e
      | .ok lpConstr =>
        if lpConstr.all fun w => w == (⊥ : LogP) then .error .valueError
        else
          match logPflipMany
              (List.zipWith Fl.add (lpCrp.map Fl.fin) (lpConstr.map Fl.ofLogP)) K us with
          | .error e => .error e
          | .ok ks => v.simulateRows draw targets ks (ord.set (drawnTabs ks))

end View

namespace State
variable {C : Cat} {Ω : Type}

/-- src/crosscat/sampling.py:66: `[merged(*l) for l in zip(*draws)]`. -/
def zipMerged : List (List (Dict Col C.Cell)) → List (Dict Col C.Cell)
  | [] => []
  | [l] => l
  | l :: t => List.zipWith Dict.update l (zipMerged t)

/-- src/crosscat/sampling.py:56-65: the samples of each view that has targets. -/
noncomputable def drawViews (ord : PyOrder) (s : State C) (rowid : Option Row)
    (us : Nat → List ℝ) (draw : Col → Tab → Nat → C.V)
    (constraints : Dict Nat (Dict Col C.Cell)) :
    Dict Nat (List Col) → Except Exn (List (List (Dict Col C.Cell)))
  | [] => .ok []
  | (v, T) :: t =>
    match s.views.get? v with
    | none => .error .keyError
    | some view =>
      match view.fastSimulate ord rowid T ((constraints.get? v).getD []) (us v) draw with
      | .error e => .error e
      | .ok l => (drawViews ord s rowid us draw constraints t).map (l :: ·)

/-- src/crosscat/sampling.py:52-67 `state_simulate` with `N` samples (without `N` the code makes one
sample and returns its first element). -/
noncomputable def stateSimulate (ord : PyOrder) (s : State C) (rowid : Option Row)
    (targets : List Col) (constraints : Dict Col C.Cell) (us : Nat → List ℝ)
    (draw : Col → Tab → Nat → C.V) : Except Exn (List (Dict Col C.Cell)) :=
  match partitionQueryEvidence s.crp.data targets (some constraints) with
  | .error e => .error e
  | .ok (T, E) => (s.drawViews ord rowid us draw E T).map zipMerged

/-- src/crosscat/state.py:407-417 `simulate`, for a State that is not composite. -/
noncomputable def simulate (close : C.V → C.V → Bool) (ord : PyOrder) (s : State C)
    (rowid : Option Row) (targets : List Col) (constraints : Dict Col C.Cell)
    (us : Nat → List ℝ) (draw : Col → Tab → Nat → C.V) :
    Except Exn (List (Dict Col C.Cell)) :=
  match s.validateQuery close rowid true targets constraints with
  | .error e => .error e
  | .ok () => s.stateSimulate ord rowid targets constraints us draw

/-- src/crosscat/state.py:407-417 `simulate` with `N=None`, for a State that is not composite:
src/crosscat/sampling.py:67 takes the first of the samples. -/
noncomputable def simulateOne (close : C.V → C.V → Bool) (ord : PyOrder) (s : State C)
    (rowid : Option Row) (targets : List Col) (constraints : Dict Col C.Cell)
    (u : Nat → ℝ) (draw : Col → Tab → C.V) : Except Exn (Dict Col C.Cell) :=
  match s.simulate close ord rowid targets constraints (fun v => [u v]) (fun c k _ => draw c k) with
  | .error e => .error e
  | .ok [] => .error .indexError
  | .ok (x :: _) => .ok x

/-- src/crosscat/state.py:407-417 `simulate` for a composite State: one sample of the network
(`N` samples are `N` calls, src/utils/general.py:403-413). -/
noncomputable def simulateComposite (close : C.V → C.V → Bool) (ord : PyOrder)
    (beh : ViewBehaviour C Ω) (ω : Nat → Nat → Ω) (u : ℝ) (s : State C)
    (hooked : Dict Nat (NetCgpm (Option Row) (Val C) Ω)) (rowid : Option Row)
    (targets : List Col) (constraints inputs : Dict Col C.Cell) (accuracy : Option Nat) :
    Except Exn (Dict Nat (Val C)) :=
  match s.validateQuery close rowid true targets constraints with
  | .error e => .error e
  | .ok () =>
    match Net.build ord (s.buildCgpms beh hooked) (some (accuracy.getD 1)) with
    | .error e => .error e
    | .ok net => Net.simulate ord ω u rowid net targets
        (toVals (s.populateConstraints rowid targets constraints)) (toVals inputs)

end State
end Cgpm
