import Verif.Model.Py
import Verif.Model.LogSpace

/-
Model of Engine, an ensemble of States: src/crosscat/engine.py:36-389.

Simplifications, global to this file:
* The states are values of a type `σ`, and are distinct objects; a method is a function on `σ` that
  says what it returns or raises and in which condition it leaves the object.
* With `multiprocess=0` the mapper is `map`: methods act on the Engine's own objects, one after the
  other, until one raises. With `multiprocess=1` it is `parallel_map`: methods act on copies in other
  processes, the results come back in order, and RuntimeError is raised if one of them raised
  (C31_parallel_map says so of the processes; methods that exit their process are not modelled). A
  copy is taken to be fresh for each task: when the same state is requested twice, and one process
  happens to take both tasks, the second call would see the effects of the first.
* The random draws of the methods are part of them. Seeding (`_seed_states`, L232, 244, 256) is not
  modelled: it affects only these draws.
-/
namespace Cgpm

/-- src/crosscat/engine.py:61-69: an Engine is its list of states. -/
structure Engine (σ : Type) where
  states : List σ

namespace Engine
variable {σ α β : Type}

/-- `l[i]` on a list of length `n`: negative indices count from the end. -/
def pyIndex (n : Nat) (i : Int) : Except Exn Nat :=
  if 0 ≤ i ∧ i < n then .ok i.toNat
  else if -(n : Int) ≤ i ∧ i < 0 then .ok (n + i).toNat
  else .error .indexError

/-- `statenos or xrange(self.num_states())`, e.g. src/crosscat/engine.py:79. -/
def selection (e : Engine σ) : Option (List Int) → List Int
  | some (s :: t) => s :: t
  | _ => (List.range e.states.length).map Int.ofNat

/-- The positions that a list of indices denotes; the comprehensions of e.g.
src/crosscat/engine.py:80-82 raise IndexError for one out of range. -/
def resolve (n : Nat) : List Int → Except Exn (List Nat)
  | [] => .ok []
  | i :: t =>
    match pyIndex n i with
    | .error e => .error e
    | .ok k => (resolve n t).map (k :: ·)

/-- `parallel_map`: each call acts on a copy of its state. A call is the position of the state and
the method. -/
def forked (L : List σ) : List (Nat × (σ → Res σ α)) → Except Exn (List α)
  | [] => .ok []
  | (i, f) :: t =>
    match L[i]?.map f, forked L t with
    | some (.ok a _), .ok as => .ok (a :: as)
    | _, _ => .error .runtime

/-- `map`: each call acts on the Engine's own state, until one raises. -/
def inPlace : List (Nat × (σ → Res σ α)) → List σ → Res (List σ) (List α)
  | [], L => .ok [] L
  | (i, f) :: t, L =>
    match L[i]?.map f with
    | none => .err .indexError L
    | some (.err e x) => .err e (L.set i x)
    | some (.ok a x) =>
      match inPlace t (L.set i x) with
      | .ok as L' => .ok (a :: as) L'
      | .err e L' => .err e L'

/-- `mapper(f, args)` with the mapper of e.g. src/crosscat/engine.py:78. -/
def runCalls (multi : Bool) (calls : List (Nat × (σ → Res σ α))) (L : List σ) :
    Res (List σ) (List α) :=
  if multi then
    match forked L calls with
    | .error er => .err er L
    | .ok as => .ok as L
  else inPlace calls L

/-- src/crosscat/engine.py:57-58 `_evaluate` through the mapper. This is `logpdf` (L192-200),
`logpdf_bulk` (202-210), `logpdf_score` (212-219), `logpdf_likelihood` (221-228), `simulate`
(230-239), `simulate_bulk` (241-251), `mutual_information` (253-263),
`dependence_probability_pairwise` (272-281), `row_similarity_pairwise` (291-299),
`relevance_probability` (301-311), and with `multi = false` also `dependence_probability` (265-270)
and `row_similarity` (283-289). -/
def evaluate (multi : Bool) (f : σ → Res σ α) (statenos : Option (List Int)) (e : Engine σ) :
    Res (Engine σ) (List α) :=
  match resolve e.states.length (e.selection statenos) with
  | .error er => .err er e
  | .ok idx =>
    match runCalls multi (idx.map fun i => (i, f)) e.states with
    | .ok as L => .ok as ⟨L⟩
    | .err er L => .err er ⟨L⟩

/-- src/crosscat/engine.py:84-85: `for s, state in zip(statenos, states): self.states[s] = state`. -/
def assign : List Nat → List σ → List σ → List σ
  | i :: t, x :: xs, L => assign t xs (L.set i x)
  | _, _, L => L

/-- src/crosscat/engine.py:40-42 `_modify`: call the method, return the object. -/
def modified (f : σ → Out σ) (x : σ) : Res σ σ :=
  match f x with
  | .ok x' => .ok x' x'
  | .err e x' => .err e x'

/-- src/crosscat/engine.py:74-85 `transition`, 87-98 `transition_lovecat`, 108-117
`transition_foreign`: update the requested states. -/
def modify (multi : Bool) (f : σ → Out σ) (statenos : Option (List Int)) (e : Engine σ) :
    Out (Engine σ) :=
  match resolve e.states.length (e.selection statenos) with
  | .error er => .err er e
  | .ok idx =>
    match runCalls multi (idx.map fun i => (i, modified f)) e.states with
    | .ok xs L => .ok ⟨assign idx xs L⟩
    | .err er L => .err er ⟨L⟩

/-- src/crosscat/engine.py:119-182: `incorporate_dim`, `unincorporate_dim`, `incorporate`,
`incorporate_bulk`, `unincorporate`, `force_cell`, `force_cell_bulk`, `update_cctype`: update all
states. -/
def modifyAll (multi : Bool) (f : σ → Out σ) (e : Engine σ) : Out (Engine σ) :=
  match runCalls multi ((List.range e.states.length).map fun i => (i, modified f)) e.states with
  | .ok xs _ => .ok ⟨xs⟩
  | .err er L => .err er ⟨L⟩

/-- src/crosscat/engine.py:184-190 `compose_cgpm` and 49-55 `_compose`: the `i`-th state is composed
with the `i`-th model (rebuilt from its metadata); `compose c` is the method of the state. A list of
models that is too short raises IndexError at L187. -/
def composeAll (multi : Bool) (compose : β → σ → Out σ) (cgpms : List β) (e : Engine σ) :
    Out (Engine σ) :=
  if cgpms.length < e.states.length then .err .indexError e
  else
    match runCalls multi (((List.range e.states.length).zip cgpms).map
      fun p => (p.1, modified (compose p.2))) e.states with
    | .ok xs _ => .ok ⟨xs⟩
    | .err er L => .err er ⟨L⟩

/-- src/crosscat/engine.py:44-47 `_alter`. The functions return a state, and are taken not to change
their argument. -/
def alterOne : List (σ → Except Exn σ) → σ → Except Exn σ
  | [], x => .ok x
  | g :: t, x =>
    match g x with
    | .error e => .error e
    | .ok x' => alterOne t x'

/-- `_alter` as a method. -/
def altered (funcs : List (σ → Except Exn σ)) (x : σ) : Res σ σ :=
  match alterOne funcs x with
  | .ok x' => .ok x' x
  | .error e => .err e x

/-- src/crosscat/engine.py:313-320 `alter`. -/
def alter (multi : Bool) (funcs : List (σ → Except Exn σ)) (statenos : Option (List Int))
    (e : Engine σ) : Out (Engine σ) :=
  match resolve e.states.length (e.selection statenos) with
  | .error er => .err er e
  | .ok idx =>
    match runCalls multi (idx.map fun i => (i, altered funcs)) e.states with
    | .ok xs L => .ok ⟨assign idx xs L⟩
    | .err er L => .err er ⟨L⟩

/-- src/crosscat/engine.py:322-323 `get_state`. -/
def getState (e : Engine σ) (i : Int) : Except Exn σ :=
  match pyIndex e.states.length i with
  | .error er => .error er
  | .ok k =>
    match e.states[k]? with
    | some x => .ok x
    | none => .error .indexError

/-- src/crosscat/engine.py:325-326 `drop_state`. -/
def dropState (e : Engine σ) (i : Int) : Out (Engine σ) :=
  match pyIndex e.states.length i with
  | .error er => .err er e
  | .ok k => .ok ⟨e.states.eraseIdx k⟩

/-- src/crosscat/engine.py:36-38 `_intialize` through the mapper, one state per seed. -/
def construct (multi : Bool) (make : Nat → Except Exn σ) : List Nat → Except Exn (List σ)
  | [] => .ok []
  | seed :: t =>
    match make seed, construct multi make t with
    | .ok x, .ok xs => .ok (x :: xs)
    | .error e, _ => .error (if multi then .runtime else e)
    | _, .error e => .error e

/-- src/crosscat/engine.py:64-69 `__init__`: `make seed` constructs a State on the data. -/
def init (multi : Bool) (make : Nat → Except Exn σ) (seeds : List Nat) : Except Exn (Engine σ) :=
  (construct multi make seeds).map Engine.mk

/-- src/crosscat/engine.py:331-346 `add_state`: `composite` is `is_composite`, `forbidden` says that
one of the arguments of L337 is given, `make x seed` constructs a State with the data and the
schema of `x` (L340-343). -/
def addState (composite : σ → Bool) (forbidden : Bool) (make : σ → Nat → Except Exn σ)
    (multi : Bool) (seeds : List Nat) (e : Engine σ) : Out (Engine σ) :=
  match e.states with
  | [] => .err .indexError e
  | x :: _ =>
    if composite x then .err .valueError e
    else if forbidden then .err .valueError e
    else
      match construct multi (make x) seeds with
      | .error er => .err er e
      | .ok new => .ok ⟨e.states ++ new⟩

/-! ### Likelihood weighting -/

/-- The assertion of src/crosscat/engine.py:364-365 and 375-376. It is parsed as
`(len(l) == len(self.states)) if statenos is None else len(statenos)`. -/
def lengthAssertion (n : Nat) (e : Engine σ) : Option (List Int) → Bool
  | none => n == e.states.length
  | some l => l.length != 0

/-- A method of the states `logpdf(rowid, targets, constraints, inputs)`, for a fixed row. -/
abbrev LogpdfMethod (σ V : Type) :=
  Dict Nat V → Option (Dict Nat V) → Option (Dict Nat V) → σ → Res σ Fl

/-- `if constraints:`. -/
def given {V : Type} : Option (Dict Nat V) → Option (Dict Nat V)
  | some (p :: t) => some (p :: t)
  | _ => none

/-- src/crosscat/engine.py:367-368 and 380-381: `self.logpdf(rowid, constraints, inputs, …)`. By its
position, `inputs` is the parameter `constraints` of L192. -/
def weights {V : Type} (logpdf : LogpdfMethod σ V) (multi : Bool) (constraints : Dict Nat V)
    (inputs : Option (Dict Nat V)) (statenos : Option (List Int)) (e : Engine σ) :
    Res (Engine σ) (List Fl) :=
  e.evaluate multi (logpdf constraints inputs none) statenos

/-- src/crosscat/engine.py:361-371 `_likelihood_weighted_integrate`. -/
noncomputable def integrate {V : Type} (logpdf : LogpdfMethod σ V) (multi : Bool)
    (logpdfs : List Fl) (constraints inputs : Option (Dict Nat V)) (statenos : Option (List Int))
    (e : Engine σ) : Res (Engine σ) Fl :=
  if lengthAssertion logpdfs.length e statenos = false then .err .assertion e
  else
    match given constraints with
    | some c =>
      match e.weights logpdf multi c inputs statenos with
      | .err er e' => .err er e'
      | .ok w e' =>
        match logmeanexpWeighted logpdfs w with
        | .ok r => .ok r e'
        | .error er => .err er e'
    | none =>
      match logmeanexp logpdfs with
      | .ok r => .ok r e
      | .error er => .err er e

/-- `np.bincount`: how often each number up to the largest occurs. -/
def bincount (ks : List Nat) : List Nat :=
  (List.range (ks.foldr (fun k m => max (k + 1) m) 0)).map fun k => ks.count k

/-- `rng.choice(N, size=n, replace=False)` for the `k`-th model, `choose k` being the result: ValueError
for `n > N`. -/
def drawIndexes (N : Nat) (choose : Nat → List Nat) : Nat → List Nat → Except Exn (List (List Nat))
  | _, [] => .ok []
  | k, n :: t => if N < n then .error .valueError else (drawIndexes N choose (k + 1) t).map (choose k :: ·)

/-- `[s[i] for i in index]`. -/
def pick (s : List β) : List Nat → Except Exn (List β)
  | [] => .ok []
  | i :: t =>
    match s[i]? with
    | none => .error .indexError
    | some x => (pick s t).map (x :: ·)

/-- src/crosscat/engine.py:384-389: the chosen samples, chained. -/
def gather : List (List β) → List (List Nat) → Except Exn (List β)
  | s :: ss, index :: is =>
    match pick s index, gather ss is with
    | .ok l, .ok m => .ok (l ++ m)
    | .error er, _ => .error er
    | _, .error er => .error er
  | _, _ => .ok []

/-- src/crosscat/engine.py:382-389, for `N` samples per model: `u i` are the uniform draws of
`log_pflip`, `choose k` the draws of L383. (For `N = 0`, which `np.bincount` may refuse, the
result is empty.) -/
noncomputable def redraw (samples : List (List β)) (w : List Fl) (N : Nat) (u : Nat → ℝ)
    (choose : Nat → List Nat) : Except Exn (List β) :=
  match logPflipMany w (List.range w.length) ((List.range N).map u) with
  | .error er => .error er
  | .ok ks =>
    match drawIndexes N choose 0 (bincount ks) with
    | .error er => .error er
    | .ok indexes => gather samples indexes

/-- src/crosscat/engine.py:379-381: the weights. -/
noncomputable def resampleWeights {V : Type} (logpdf : LogpdfMethod σ V) (multi : Bool) (n : Nat)
    (constraints inputs : Option (Dict Nat V)) (statenos : Option (List Int)) (e : Engine σ) :
    Res (Engine σ) (List Fl) :=
  match given constraints with
  | some c => e.weights logpdf multi c inputs statenos
  | none => .ok (List.replicate n (.fin 0)) e

/-- src/crosscat/engine.py:373-389 `_likelihood_weighted_resample`. -/
noncomputable def resample {V : Type} (logpdf : LogpdfMethod σ V) (multi : Bool)
    (samples : List (List β)) (constraints inputs : Option (Dict Nat V))
    (statenos : Option (List Int)) (u : Nat → ℝ) (choose : Nat → List Nat) (e : Engine σ) :
    Res (Engine σ) (List β) :=
  if lengthAssertion samples.length e statenos = false then .err .assertion e
  else
    match samples with
    | [] => .err .indexError e
    | s0 :: rest =>
      if rest.any fun s => s.length != s0.length then .err .assertion e
      else
        match e.resampleWeights logpdf multi (rest.length + 1) constraints inputs statenos with
        | .err er e' => .err er e'
        | .ok w e' =>
          match redraw (s0 :: rest) w s0.length u choose with
          | .error er => .err er e'
          | .ok l => .ok l e'

end Engine
end Cgpm
