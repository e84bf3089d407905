import Verif.Model.Topo
import Verif.Model.LogSpace

/-
Model of src/network/helpers.py and src/network/importance.py (class ImportanceNetwork): a
composite of components, each of which produces some variables from others.

Simplifications, global to this file:
* A component is what the network can see of it: its `outputs`, its `inputs`, its `logpdf` and
  its `simulate`.  Either may raise.  The network always calls `logpdf` with `constraints=None`.
* A Python 2 dict has no order of its own, so a component that is handed a dict sees its lookup
  function only.
* A log weight is a real or minus infinity; sums of log weights are exact.
* Python sets and dicts are iterated in an arbitrary order, given by `PyOrder`.
* The outcome of the random draws made by component number `l` is an element `ω l` of a type
  `Ω`.
-/
namespace Cgpm
open Classical

/-- What a component sees of a dict: its lookup function. -/
abbrev Look (V : Type) := Nat → Option V

/-- What the network sees of a component (src/cgpm.py:43-177); `R` is the type of rowids, `V`
of values, `Ω` of the outcomes of the draws of one `simulate`. -/
structure NetCgpm (R V Ω : Type) where
  outputs : List Nat
  inputs : List Nat
  logpdf : R → Look V → Look V → Except Exn LogP
  simulate : Ω → R → List Nat → Look V → Look V → Except Exn (Dict Nat V)

/-- The orders in which the interpreter iterates over dicts and sets. -/
structure PyOrder where
  items : Nat → Graph → List (Nat × List Nat)
  set : List Nat → List Nat

namespace Net
variable {R V Ω : Type}

/-- src/network/helpers.py:23-29 `validate_cgpms`. -/
def validateCgpms (cgpms : List (NetCgpm R V Ω)) : Except Exn Unit :=
  if ¬ ∀ c ∈ cgpms, c.outputs ≠ [] then .error .valueError
  else if ¬ cgpms.Pairwise fun a b => ∀ v ∈ a.outputs, v ∉ b.outputs then .error .valueError
  else .ok ()

/-- src/network/helpers.py:32-34 `retrieve_variable_to_cgpm`: a later binding wins. -/
def variableToCgpm (cgpms : List (NetCgpm R V Ω)) : Dict Nat Nat :=
  Dict.update [] (cgpms.zipIdx.flatMap fun p => p.1.outputs.map fun v => (v, p.2))

/-- src/network/helpers.py:37-42 `retrieve_adjacency_list` (the order of the parents, that of a
set, is not significant: it is only searched). -/
def adjacencyList (cgpms : List (NetCgpm R V Ω)) (vToC : Dict Nat Nat) : Graph :=
  cgpms.zipIdx.map fun p => (p.2, (p.1.inputs.filterMap fun q => vToC.get? q).dedup)

/-- src/network/helpers.py:52-55 `retrieve_extraneous_inputs`. -/
def extraneousInputs (cgpms : List (NetCgpm R V Ω)) (vToC : Dict Nat Nat) : List Nat :=
  cgpms.flatMap fun c => c.inputs.filter fun i => !vToC.has i

/-- The attributes of an ImportanceNetwork (src/network/importance.py:28-37; `rng` is
dropped). -/
structure Network (R V Ω : Type) where
  cgpms : List (NetCgpm R V Ω)
  accuracy : Nat
  vToC : Dict Nat Nat
  adjacency : Graph
  extraneous : List Nat
  topo : List Nat

/-- src/network/importance.py:28-37 `__init__`.  `topologicalSort` always stops (C25); its cut
off is mapped to RuntimeError. -/
def build (ord : PyOrder) (cgpms : List (NetCgpm R V Ω)) (accuracy : Option Nat) :
    Except Exn (Network R V Ω) :=
  match validateCgpms cgpms with
  | .error e => .error e
  | .ok () =>
    let vToC := variableToCgpm cgpms
    let adjacency := adjacencyList cgpms vToC
    match topologicalSort ord.items adjacency with
    | none => .error .runtime
    | some (.error e) => .error e
    | some (.ok topo) =>
      .ok { cgpms, accuracy := accuracy.getD 1, vToC, adjacency,
            extraneous := extraneousInputs cgpms vToC, topo }

/-- `set.update`: adds the new elements. -/
def setUpdate (s : List Nat) (l : List Nat) : List Nat :=
  l.foldl (fun s x => if x ∈ s then s else s ++ [x]) s

/-- src/network/importance.py:119-127 (and src/network/helpers.py:121-128): the loop over
`reversed(topo)`. -/
def requiredLoop (cgpms : List (NetCgpm R V Ω)) (isConstr : Nat → Bool) :
    List Nat → List Nat → Except Exn (List Nat)
  | [], req => .ok req
  | l :: t, req =>
    match cgpms[l]? with
    | none => .error .indexError
    | some c =>
      if c.outputs.any fun i => req.contains i || isConstr i then
        requiredLoop cgpms isConstr t (setUpdate req c.inputs)
      else requiredLoop cgpms isConstr t req

/-- src/network/importance.py:119-129 `retrieve_required_inputs` (the helper
src/network/helpers.py:121-132 of the same name is the same function). -/
def requiredInputs (ord : PyOrder) (net : Network R V Ω) (targets : List Nat)
    (isConstr : Nat → Bool) : Except Exn (List Nat) :=
  (requiredLoop net.cgpms isConstr net.topo.reverse (setUpdate [] targets)).map fun req =>
    (ord.set req).filter fun c =>
      !targets.contains c && !isConstr c && !net.extraneous.contains c

/-- src/network/importance.py:93-97: the inputs handed to a component; a value in the sample
so far wins over one given in `inputs`. -/
def cgpmInputs (c : NetCgpm R V Ω) (sample inputs : Dict Nat V) : Dict Nat V :=
  Dict.update [] ((inputs ++ sample).filter fun p => c.inputs.contains p.1)

/-- src/network/importance.py:98-101: the constraints handed to a component. -/
def cgpmConstraints (c : NetCgpm R V Ω) (sample : Dict Nat V) : Dict Nat V :=
  sample.filter fun p => c.outputs.contains p.1

/-- src/network/importance.py:92-117 `invoke_cgpm`. -/
def invokeCgpm (ω : Ω) (rowid : R) (c : NetCgpm R V Ω) (targets : List Nat)
    (sample inputs : Dict Nat V) : Except Exn (Dict Nat V × LogP) :=
  let ins := cgpmInputs c sample inputs
  let constr := cgpmConstraints c sample
  let tars := targets.filter fun q => c.outputs.contains q
  if (!constr.isEmpty || !tars.isEmpty) && !(c.inputs.all fun i => ins.has i) then
    .error .assertion
  else
    match if constr.isEmpty then .ok (0 : LogP) else c.logpdf rowid constr.get? ins.get? with
    | .error e => .error e
    | .ok weight =>
      match if tars.isEmpty then .ok [] else c.simulate ω rowid tars constr.get? ins.get? with
      | .error e => .error e
      | .ok s => .ok (s, weight)

/-- src/network/importance.py:84-88: the loop of `weighted_sample`. -/
def sampleLoop (ω : Nat → Ω) (rowid : R) (cgpms : List (NetCgpm R V Ω)) (targetsAll : List Nat)
    (inputs : Dict Nat V) :
    List Nat → Dict Nat V → LogP → Except Exn (Dict Nat V × LogP)
  | [], sample, weight => .ok (sample, weight)
  | l :: t, sample, weight =>
    match cgpms[l]? with
    | none => .error .indexError
    | some c =>
      match invokeCgpm (ω l) rowid c targetsAll sample inputs with
      | .error e => .error e
      | .ok (sl, wl) =>
        sampleLoop ω rowid cgpms targetsAll inputs t (sample.update sl) (weight + wl)

/-- src/network/importance.py:79-90 `weighted_sample`. -/
noncomputable def weightedSample (ord : PyOrder) (ω : Nat → Ω) (rowid : R) (net : Network R V Ω)
    (targets : List Nat) (constraints inputs : Dict Nat V) : Except Exn (Dict Nat V × LogP) :=
  match requiredInputs ord net targets constraints.has with
  | .error e => .error e
  | .ok required =>
    let targetsAll := targets ++ required
    match sampleLoop ω rowid net.cgpms targetsAll inputs net.topo constraints 0 with
    | .error e => .error e
    | .ok (sample, weight) =>
      if ∀ k, k ∈ sample.keys ↔ k ∈ constraints.keys ∨ k ∈ targetsAll then .ok (sample, weight)
      else .error .assertion

/-- A list comprehension whose body may raise. -/
def collect {α β : Type} (f : α → Except Exn β) : List α → Except Exn (List β)
  | [] => .ok []
  | a :: t =>
    match f a with
    | .error e => .error e
    | .ok b => (collect f t).map (b :: ·)

/-- src/network/importance.py:39-54 `simulate` for one sample; `ω i` are the draws made by the
components for the `i`-th weighted sample, `u` the draw of `log_pflip`.  With accuracy 0 the
unpacking of L46 raises ValueError. -/
noncomputable def simulate (ord : PyOrder) (ω : Nat → Nat → Ω) (u : ℝ) (rowid : R)
    (net : Network R V Ω) (targets : List Nat) (constraints inputs : Dict Nat V) :
    Except Exn (Dict Nat V) :=
  if net.accuracy = 0 then .error .valueError
  else
    match collect (fun i => weightedSample ord (ω i) rowid net targets constraints inputs)
        (List.range net.accuracy) with
    | .error e => .error e
    | .ok sw =>
      if ∀ p ∈ sw, p.2 = ⊥ then .error .valueError
      else
        match if net.accuracy = 1 then .ok 0
              else logPflip (sw.map fun p => Fl.ofLogP p.2) (List.range sw.length) u with
        | .error e => .error e
        | .ok index =>
          match sw[index]? with
          | none => .error .indexError
          | some p =>
            collect (fun q => match p.1.get? q with
              | none => .error .keyError
              | some v => .ok (q, v)) targets

/-- src/network/importance.py:56-77 `logpdf`; `ωj i` and `ωm i` are the draws made by the
components for the `i`-th joint and marginal weighted sample. -/
noncomputable def logpdf (ord : PyOrder) (ωj ωm : Nat → Nat → Ω) (rowid : R)
    (net : Network R V Ω) (targets constraints inputs : Dict Nat V) : Except Exn Fl :=
  if net.accuracy = 0 then .error .valueError
  else
    match collect (fun i => weightedSample ord (ωj i) rowid net [] (targets.update constraints)
        inputs) (List.range net.accuracy) with
    | .error e => .error e
    | .ok joint =>
      match logmeanexp (joint.map fun p => Fl.ofLogP p.2) with
      | .error e => .error e
      | .ok lpJoint =>
        match if constraints.isEmpty then .ok [(0 : LogP)]
              else (collect (fun i => weightedSample ord (ωm i) rowid net [] constraints inputs)
                (List.range net.accuracy)).map fun l => l.map Prod.snd with
        | .error e => .error e
        | .ok marg =>
          if ∀ w ∈ marg, w = (⊥ : LogP) then .error .valueError
          else
            match logmeanexp (marg.map Fl.ofLogP) with
            | .error e => .error e
            | .ok lpMarg => .ok (lpJoint.sub lpMarg)

end Net
end Cgpm
