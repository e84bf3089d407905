import Verif.Model.NetDraws
import Verif.Model.StateDraws
import Verif.Model.ViewQuery

/-
`View.simulate` (src/mixtures/view.py:334-371) as a program that draws, and a View as a component of
the network of a State.

Simplifications, global to this file (see also ViewQuery.lean, NetDraws.lean and PrimSimulate.lean):
* Columns have types of src/primitives and no inputs; one sample (`N=None`).
* Values are real numbers, also those of the cluster variable `z`; no value is NaN.  A number that is
  not a natural number is no label of a cluster; `Crp.logpdf` and `Dim.logpdf` treat all such labels
  alike (src/primitives/crp.py:179-182, src/mixtures/dim.py:130), and `labelOf` gives one of them.
* `network.logpdf` in `View.simulate` is asked for densities given the cluster, which needs no draws:
  it is that of Model/ViewQuery.lean.
* A Dim is asked to simulate rows it does not hold (`row` below is `None` for those of the view), so
  its answer is that for `rowid=None`, `Dim.sampleIn`.
-/
namespace Cgpm
variable {P : Prim → Prop}

namespace View

open Classical in
/-- The label of a cluster that a value of the cluster variable stands for. -/
noncomputable def labelOf (v : View (catOf P)) (x : ℝ) : Tab :=
  if x = (⌊x⌋₊ : ℝ) then ⌊x⌋₊ else pyMax v.crp.counts.keys + 1

/-- Values as Model/ViewQuery.lean takes them. -/
noncomputable def valsOf (v : View (catOf P)) (z : Nat) (D : Dict Nat ℝ) : Dict Nat (Val (catOf P)) :=
  D.map fun q => (q.1, if q.1 = z then .tab (v.labelOf q.2) else .cell (some q.2))

/-- The Crp of the view as a component (src/mixtures/view.py:386, src/primitives/crp.py:61-81). -/
noncomputable def crpNet (z : Nat) (v : View (catOf P)) : NetCgpm (Option Row) ℝ (Nat → ℝ) where
  outputs := [z]
  inputs := []
  logpdf := fun r T _ => match T z with
    | some x => .ok (v.crp.logpdf r (v.labelOf x))
    | none => .error .assertion
  simulate := fun ω _ ts _ _ => .ok (ts.map fun t => (t, ω t))

/-- A Dim as a component: src/mixtures/dim.py:127-141, with `preprocess` (L239-255) taking the cluster
out of the inputs. -/
noncomputable def dimNet (z : Nat) (v : View (catOf P)) (d : Dim (catOf P)) :
    NetCgpm (Option Row) ℝ (Nat → ℝ) where
  outputs := [d.index]
  inputs := [z]
  logpdf := fun r T ins => match ins z, T d.index with
    | some k, some x => d.logpdf r (v.labelOf k) (some x) []
    | none, _ => .error .valueError
    | _, none => .error .keyError
  simulate := fun ω _ ts _ _ => .ok (ts.map fun t => (t, ω t))

/-- The components of src/mixtures/view.py:386. -/
noncomputable def netCgpms (z : Nat) (v : View (catOf P)) : List (NetCgpm (Option Row) ℝ (Nat → ℝ)) :=
  crpNet z v :: v.dims.vals.map (dimNet z v)

/-- What the components draw: src/primitives/crp.py:72-81, src/mixtures/dim.py:137-141. -/
noncomputable def netDraws (z : Nat) (v : View (catOf P)) : NetDraws (Option Row) ℝ (Nat → ℝ)
  | 0, r, _, _, _ => (Draws.ofRand (v.crp.draw r)).bind fun k => .pure fun _ => (k : ℝ)
  | l + 1, _, _, _, ins =>
    match v.dims.vals[l]?, ins z with
    | some d, some k => (d.sampleIn (v.labelOf k)).bind fun x => .pure fun _ => x
    | _, _ => .raise .valueError

/-- A simulator for Model/ViewQuery.lean; densities do not depend on it (C15). -/
def noSim : Simulator (catOf P) Unit := ⟨fun _ _ => 0, fun _ _ _ _ => (0 : ℝ)⟩

/-- src/mixtures/view.py:455-475 `_populate_constraints`, with `_validate_cgpm_query` (L496-518). -/
noncomputable def populateReal (close : ℝ → ℝ → Bool) (X : (catOf P).Tbl) (v : View (catOf P))
    (z : Nat) (rowid : Option Row) (targets : List Nat) (constraints : Dict Nat ℝ) :
    Except Exn (Dict Nat ℝ) :=
  open Classical in
  if ¬ targets.Nodup then .error .valueError
  else
    match validateQuery close X v z rowid targets (v.valsOf z constraints) with
    | .error e => .error e
    | .ok () =>
      match v.hypothetical rowid, rowid with
      | false, some r =>
        let data : Dict Nat ℝ := (v.dims.keys.filter fun c =>
          !targets.contains c && !constraints.has c).filterMap fun c => (X c r).map fun x => (c, x)
        match v.seat r with
        | none => .error .keyError
        | some k => .ok (Dict.update constraints (data ++ [(z, (k : ℝ))]))
      | _, _ => .ok constraints

/-- src/mixtures/view.py:334-371 `simulate`. -/
noncomputable def simulateReal (close : ℝ → ℝ → Bool) (X : (catOf P).Tbl) (ord : PyOrder)
    (v : View (catOf P)) (z : Nat) (rowid : Option Row) (targets : List Nat)
    (constraints : Dict Nat ℝ) : Cgpm.Draws (Dict Nat ℝ) :=
  match v.populateReal close X z rowid targets constraints with
  | .error e => .raise e
  | .ok cs =>
    let row := if v.hypothetical rowid then rowid else none
    match Net.build ord (netCgpms z v) (some 1), v.buildNetwork ord noSim z with
    | .error e, _ => .raise e
    | _, .error e => .raise e
    | .ok net, .ok dens =>
      if cs.has z then Net.simulateDraws ord (netDraws z v) row net targets cs []
      else
        let rest := targets.filter fun q => !(q == z)
        match v.crp.gibbsTables none 1 with
        | .error e => .raise e
        | .ok K =>
          match Net.collect (fun k : Tab => netLogpdf ord (fun _ _ _ => ()) 0 row dens
              ((v.valsOf z cs).update [(z, .tab k)]) [] []) K with
          | .error e => .raise e
          | .ok lps =>
            (Draws.ofRand (Rand.logPflip lps K)).bind fun k =>
              (Net.simulateDraws ord (netDraws z v) row net rest (cs.update [(z, (k : ℝ))]) []).bind
                fun s => .pure (if targets.contains z then s.update [(z, (k : ℝ))] else s)

end View

/-- The values of the variables `outs` that are given, as a dict. -/
def dictOf (outs : List Nat) (T : Look ℝ) : Dict Nat ℝ :=
  outs.filterMap fun c => (T c).map fun x => (c, x)

/-- A log density that is a number or `-inf`. -/
def Fl.logp : Fl → Except Exn LogP
  | .ninf => .ok ⊥
  | .fin x => .ok (x : ℝ)
  | _ => .error .valueError

namespace State

/-- A View as a component of the network of a State: outputs `[token] + dims`
(src/mixtures/view.py:134-147), no inputs (src/crosscat/state.py:150), `logpdf` of
src/mixtures/view.py:275-329.  A log density of `+inf` or NaN, which does not occur for new rows, is
modelled as an exception. -/
noncomputable def viewNet (close : ℝ → ℝ → Bool) (X : (catOf P).Tbl) (ord : PyOrder) (z : Nat)
    (v : View (catOf P)) : NetCgpm (Option Row) ℝ (Nat → ℝ) where
  outputs := z :: v.dims.keys
  inputs := []
  logpdf := fun r T _ =>
    match v.logpdf close X ord View.noSim (fun _ _ _ => ()) z r
        (v.valsOf z (dictOf (z :: v.dims.keys) T)) [] [] with
    | .error e => .error e
    | .ok w => w.logp
  simulate := fun ω _ ts _ _ => .ok (ts.map fun t => (t, ω t))

/-- What a View draws as a component. -/
noncomputable def viewDraws (close : ℝ → ℝ → Bool) (X : (catOf P).Tbl) (ord : PyOrder) (z : Nat)
    (v : View (catOf P)) (r : Option Row) (ts : List Nat) (constr _ : Look ℝ) : Draws (Nat → ℝ) :=
  (v.simulateReal close X ord z r ts (dictOf (z :: v.dims.keys) constr)).bind fun d =>
    .pure fun t => (d.get? t).getD 0

end State
end Cgpm
