import Verif.Model.StateDraws
import Verif.Model.Engine
import Verif.Model.NetDraws

/-
Batches of simulated rows as programs that draw: `State.simulate` with `N` samples, and the samples that
an Engine draws from its states and resamples.

Simplifications, global to this file (see also StateDraws.lean, StateSimulate.lean and Engine.lean):
* `rng.choice(array, size=N, p=p)` makes `N` independent draws.
* The views are simulated one after the other.  (The code chooses the clusters of all views before it
  draws values, its generator expressions being lazy; the draws are the same.)
* The random number generators of the states and of the Engine are independent.
-/
namespace Cgpm
variable {P : Prim → Prop}

namespace View

/-- src/crosscat/sampling.py:110-116 `_simulate_row`: each column draws `N` values (`simulate_many`,
src/utils/general.py:403-413), then the columns are put side by side.  Here `zip()` of no columns has
`N` rows; see `sampleRowsOf`. -/
noncomputable def sampleRowMany (v : View (catOf P)) (k : Tab) (N : Nat) :
    List Col → Cgpm.Draws (List (Dict Col (catOf P).Cell))
  | [] => .pure (List.replicate N [])
  | c :: t =>
    match v.dims.get? c with
    | none => .raise .keyError
    | some d => ((d.sampleIn k).many N).bind fun xs => (v.sampleRowMany k N t).bind fun rows =>
        .pure (List.zipWith (fun x row => (c, some x) :: row) xs rows)

/-- src/crosscat/sampling.py:110-116 `_simulate_row`: without targets `zip()` has no rows. -/
noncomputable def sampleRowsOf (v : View (catOf P)) (targets : List Col) (k : Tab) (N : Nat) :
    Cgpm.Draws (List (Dict Col (catOf P).Cell)) :=
  if targets.isEmpty then .pure [] else v.sampleRowMany k N targets

/-- src/crosscat/sampling.py:98-99: the samples of each cluster, one cluster after the other. -/
noncomputable def sampleGroups (v : View (catOf P)) (targets : List Col) (ks : List Tab) :
    List Tab → Cgpm.Draws (List (Dict Col (catOf P).Cell))
  | [] => .pure []
  | k :: t => (v.sampleRowsOf targets k (ks.count k)).bind fun l =>
      (v.sampleGroups targets ks t).bind fun l' => .pure (l ++ l')

/-- src/crosscat/sampling.py:85-99 `view_simulate`. -/
noncomputable def sampleMany (ord : PyOrder) (v : View (catOf P)) (rowid : Option Row)
    (targets : List Col) (constraints : Dict Col (catOf P).Cell) (N : Nat) :
    Cgpm.Draws (List (Dict Col (catOf P).Cell)) :=
  match v.hypothetical rowid, rowid with
  | false, some r =>
    match v.seat r with
    | none => .raise .keyError
    | some k => v.sampleRowsOf targets k N
  | _, _ =>
    match v.crp.gibbsTables none 1 with
    | .error e => .raise e
    | .ok K =>
      let lpCrp := K.map fun k =>
        Crp.calcPredictiveLogp k v.crp.data.length v.crp.counts v.crp.alpha
      match Net.collect (v.logpdfRow constraints) K with
      | .error e => .raise e
      | .ok lpConstr =>
        if lpConstr.all fun w => w == (⊥ : LogP) then .raise .valueError
        else
          ((Draws.ofRand (Rand.logPflip
            (List.zipWith Fl.add (lpCrp.map Fl.fin) (lpConstr.map Fl.ofLogP)) K)).many N).bind
            fun ks => v.sampleGroups targets ks (ord.set (drawnTabs ks))

end View

namespace State

/-- src/crosscat/sampling.py:56-65: the samples of each view that has targets. -/
noncomputable def batchViews (ord : PyOrder) (s : State (catOf P)) (rowid : Option Row)
    (constraints : Dict Nat (Dict Col (catOf P).Cell)) (N : Nat) :
    Dict Nat (List Col) → Draws (List (List (Dict Col (catOf P).Cell)))
  | [] => .pure []
  | (v, T) :: t =>
    match s.views.get? v with
    | none => .raise .keyError
    | some view =>
      (view.sampleMany ord rowid T ((constraints.get? v).getD []) N).bind fun rows =>
        (s.batchViews ord rowid constraints N t).bind fun rest => .pure (rows :: rest)

/-- src/crosscat/state.py:407-417 `simulate` with src/crosscat/sampling.py:52-67 and `N` samples, for a
State that is not composite. -/
noncomputable def sampleMany (close : ℝ → ℝ → Bool) (ord : PyOrder) (s : State (catOf P))
    (rowid : Option Row) (targets : List Col) (constraints : Dict Col (catOf P).Cell) (N : Nat) :
    Draws (List (Dict Col (catOf P).Cell)) :=
  match s.validateQuery close rowid true targets constraints with
  | .error e => .raise e
  | .ok () =>
    match partitionQueryEvidence s.crp.data targets (some constraints) with
    | .error e => .raise e
    | .ok (T, E) => (s.batchViews ord rowid E N T).bind fun l => .pure (zipMerged l)

end State

namespace Engine
variable {β : Type}

/-- src/crosscat/engine.py:230-239 `simulate`: a batch from each state. -/
def sampleAll : List (Draws (List β)) → Draws (List (List β))
  | [] => .pure []
  | m :: t => m.bind fun l => (sampleAll t).bind fun ls => .pure (l :: ls)

/-- src/crosscat/engine.py:383: `[rng.choice(N, size=n, replace=False) for n in n_model]`; ValueError
for `n > N`. -/
noncomputable def chooseIndexes (N : Nat) : List Nat → Draws (List (List Nat))
  | [] => .pure []
  | n :: t =>
    if N < n then .raise .valueError
    else (Draws.ofRand (Rand.sample n (List.range N))).bind fun index =>
      (chooseIndexes N t).bind fun rest => .pure (index :: rest)

/-- src/crosscat/engine.py:378, 382-389: `N` is the number of samples of the first state, `w` the
weights. -/
noncomputable def resampleDraws (w : List Fl) (samples : List (List β)) : Draws (List β) :=
  match samples with
  | [] => .raise .indexError
  | s0 :: rest =>
    if rest.any fun s => s.length != s0.length then .raise .assertion
    else
      ((Draws.ofRand (Rand.logPflip w (List.range w.length))).many s0.length).bind fun ks =>
        (chooseIndexes s0.length (bincount ks)).bind fun indexes =>
          Draws.ofExcept (gather (s0 :: rest) indexes)

/-- src/crosscat/engine.py:230-239 and 373-389: rows are simulated from every state and then resampled,
as the callers of the Engine do for a query that asks all states. -/
noncomputable def simulateResample (w : List Fl) (batches : List (Draws (List β))) : Draws (List β) :=
  (sampleAll batches).bind (resampleDraws w)

/-- src/crosscat/engine.py:379-381: the weights of the states, `logpdf` being the answer of a state to
`logpdf(rowid, constraints)`. -/
def stateWeights {σ V : Type} (logpdf : σ → Dict Col V → Except Exn Fl) (ss : List σ)
    (constraints : Dict Col V) : Except Exn (List Fl) :=
  if constraints.isEmpty then .ok (List.replicate ss.length (.fin 0))
  else Net.collect (fun s => logpdf s constraints) ss

/-- src/crosscat/engine.py:230-239 and 373-389 for all states of the Engine and no inputs: rows are
simulated from every state, weighted by the density of the constraints, and resampled. -/
noncomputable def simulateStates (close : ℝ → ℝ → Bool) (ord : PyOrder)
    (logpdf : State (catOf P) → Dict Col (catOf P).Cell → Except Exn Fl)
    (ss : List (State (catOf P))) (rowid : Option Row) (targets : List Col)
    (constraints : Dict Col (catOf P).Cell) (N : Nat) :
    Draws (List (Dict Col (catOf P).Cell)) :=
  (sampleAll (ss.map fun s => s.sampleMany close ord rowid targets constraints N)).bind fun samples =>
    (Draws.ofExcept (stateWeights logpdf ss constraints)).bind fun w => resampleDraws w samples

end Engine
end Cgpm
