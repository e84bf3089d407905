import Verif.Model.PrimSimulate
import Verif.Model.StateSimulate
import Verif.Model.LibCat

/-
`State.simulate` as a program that draws: the choice of the clusters and the values of the components
are calls of the random number generator (in Model/StateSimulate.lean they are arguments).

Simplifications, global to this file (see also StateLogpdf.lean and PrimSimulate.lean):
* One sample (`N=None`), for States whose columns have types of src/primitives.
* The views are simulated one after the other.  (The code chooses the clusters of all views before it
  draws values, its generator expressions being lazy; the draws are the same.)
-/
namespace Cgpm
variable {P : Prim → Prop}

/-- src/mixtures/dim.py:137-141 `simulate` with `rowid=None`: the component of the cluster, or the
spare one, draws a value (`Prim.sample`). -/
noncomputable def Dim.sampleIn (d : Dim (catOf P)) (k : Tab) : Draws ℝ :=
  open Classical in
  let c := d.clusterOr k
  if e : c.hyp.1 = d.kind.1 ∧ c.stat.1 = d.kind.1 then
    d.kind.1.sample (e.1 ▸ c.hyp.2) (e.2 ▸ c.stat.2)
  else .raise .typeError

namespace View

/-- src/crosscat/sampling.py:110-116 `_simulate_row` with `N=1`. -/
noncomputable def sampleRow (v : View (catOf P)) (k : Tab) :
    List Col → Cgpm.Draws (Dict Col (catOf P).Cell)
  | [] => .pure []
  | c :: t =>
    match v.dims.get? c with
    | none => .raise .keyError
    | some d => (d.sampleIn k).bind fun x => (v.sampleRow k t).bind fun row =>
        .pure ((c, some x) :: row)

/-- src/crosscat/sampling.py:85-99 `view_simulate` with `N=1`. -/
noncomputable def sample (v : View (catOf P)) (rowid : Option Row) (targets : List Col)
    (constraints : Dict Col (catOf P).Cell) : Cgpm.Draws (Dict Col (catOf P).Cell) :=
  match v.hypothetical rowid, rowid with
  | false, some r =>
    match v.seat r with
    | none => .raise .keyError
    | some k => v.sampleRow k targets
  | _, _ =>
    match v.crp.gibbsTables none 1 with
    | .error e => .raise e
    | .ok K =>
      let lpCrp := K.map fun k =>
        Crp.calcPredictiveLogp k v.crp.data.length v.crp.counts v.crp.alpha
      match Net.collect (v.logpdfRow constraints) K with
      | .error e => .raise e
      | .ok lpConstr =>
        if lpConstr.all fun w => w == (⊥ : LogP) then .raise .valueError
        else
          (Draws.ofRand (Rand.logPflip
            (List.zipWith Fl.add (lpCrp.map Fl.fin) (lpConstr.map Fl.ofLogP)) K)).bind fun k =>
          v.sampleRow k targets

end View

namespace State

/-- src/crosscat/sampling.py:56-66: the samples of the views that have targets, merged. -/
noncomputable def sampleViews (s : State (catOf P)) (rowid : Option Row)
    (constraints : Dict Nat (Dict Col (catOf P).Cell)) :
    Dict Nat (List Col) → Draws (Dict Col (catOf P).Cell)
  | [] => .pure []
  | (v, T) :: t =>
    match s.views.get? v with
    | none => .raise .keyError
    | some view =>
      (view.sample rowid T ((constraints.get? v).getD [])).bind fun row =>
        (s.sampleViews rowid constraints t).bind fun rest => .pure (row.update rest)

/-- src/crosscat/state.py:407-417 `simulate` with src/crosscat/sampling.py:52-67, `N=None`, for a
State that is not composite.  Without targets there is no sample to return. -/
noncomputable def sample (close : ℝ → ℝ → Bool) (s : State (catOf P)) (rowid : Option Row)
    (targets : List Col) (constraints : Dict Col (catOf P).Cell) :
    Draws (Dict Col (catOf P).Cell) :=
  match s.validateQuery close rowid true targets constraints with
  | .error e => .raise e
  | .ok () =>
    match partitionQueryEvidence s.crp.data targets (some constraints) with
    | .error e => .raise e
    | .ok (T, E) => if T.isEmpty then .raise .indexError else s.sampleViews rowid E T

end State
end Cgpm
