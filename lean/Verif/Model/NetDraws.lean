import Verif.Model.Network
import Verif.Model.PrimSimulate

/-
The queries of src/network/importance.py as programs that draw: what a component draws, and the draw
of `log_pflip`, are calls of the random number generator (in Model/Network.lean their outcomes are
arguments).

Simplifications, global to this file (see also Network.lean and PrimSimulate.lean):
* The draws a component makes in one call of `simulate` are a program `draw l` whose answer is the
  outcome `ω` of Model/Network.lean; `l` is the number of the component.
-/
namespace Cgpm
open Classical

/-- A computation that makes no draws.  (Nothing in /repo: Python's exceptions.) -/
def Draws.ofExcept {α : Type} : Except Exn α → Draws α
  | .ok a => .pure a
  | .error e => .raise e

/-- The draws of one call of `simulate` of each component: component number, rowid, targets,
constraints, inputs. -/
abbrev NetDraws (R V Ω : Type) := Nat → R → List Nat → Look V → Look V → Draws Ω

namespace Net
variable {R V Ω : Type}

/-- src/network/importance.py:92-117 `invoke_cgpm` of component number `l`. -/
def invokeDraws (draw : NetDraws R V Ω) (l : Nat) (rowid : R) (c : NetCgpm R V Ω)
    (targets : List Nat) (sample inputs : Dict Nat V) : Draws (Dict Nat V × LogP) :=
  let ins := cgpmInputs c sample inputs
  let constr := cgpmConstraints c sample
  let tars := targets.filter fun q => c.outputs.contains q
  if (!constr.isEmpty || !tars.isEmpty) && !(c.inputs.all fun i => ins.has i) then
    .raise .assertion
  else
    (Draws.ofExcept (if constr.isEmpty then .ok (0 : LogP)
      else c.logpdf rowid constr.get? ins.get?)).bind fun weight =>
    (if tars.isEmpty then .pure [] else
      (draw l rowid tars constr.get? ins.get?).bind fun ω =>
        Draws.ofExcept (c.simulate ω rowid tars constr.get? ins.get?)).bind fun s =>
    .pure (s, weight)

/-- src/network/importance.py:84-88: the loop of `weighted_sample`. -/
def loopDraws (draw : NetDraws R V Ω) (rowid : R) (cgpms : List (NetCgpm R V Ω))
    (targetsAll : List Nat) (inputs : Dict Nat V) :
    List Nat → Dict Nat V → LogP → Draws (Dict Nat V × LogP)
  | [], sample, weight => .pure (sample, weight)
  | l :: t, sample, weight =>
    match cgpms[l]? with
    | none => .raise .indexError
    | some c =>
      (invokeDraws draw l rowid c targetsAll sample inputs).bind fun r =>
        loopDraws draw rowid cgpms targetsAll inputs t (sample.update r.1) (weight + r.2)

/-- src/network/importance.py:79-90 `weighted_sample`. -/
noncomputable def weightedDraws (ord : PyOrder) (draw : NetDraws R V Ω) (rowid : R)
    (net : Network R V Ω) (targets : List Nat) (constraints inputs : Dict Nat V) :
    Draws (Dict Nat V × LogP) :=
  (Draws.ofExcept (requiredInputs ord net targets constraints.has)).bind fun required =>
    let targetsAll := targets ++ required
    (loopDraws draw rowid net.cgpms targetsAll inputs net.topo constraints 0).bind fun r =>
      if ∀ k, k ∈ r.1.keys ↔ k ∈ constraints.keys ∨ k ∈ targetsAll then .pure r
      else .raise .assertion

/-- src/network/importance.py:39-54 `simulate` for one sample.  With accuracy 0 the unpacking of L46
raises ValueError. -/
noncomputable def simulateDraws (ord : PyOrder) (draw : NetDraws R V Ω) (rowid : R)
    (net : Network R V Ω) (targets : List Nat) (constraints inputs : Dict Nat V) :
    Draws (Dict Nat V) :=
  if net.accuracy = 0 then .raise .valueError
  else
    ((weightedDraws ord draw rowid net targets constraints inputs).many net.accuracy).bind fun sw =>
    if ∀ p ∈ sw, p.2 = ⊥ then .raise .valueError
    else
      (if net.accuracy = 1 then .pure 0
        else Draws.ofRand (Rand.logPflip (sw.map fun p => Fl.ofLogP p.2)
          (List.range sw.length))).bind fun index =>
      match sw[index]? with
      | none => .raise .indexError
      | some p =>
        Draws.ofExcept (collect (fun q => match p.1.get? q with
          | none => .error .keyError
          | some v => .ok (q, v)) targets)

/-- src/network/importance.py:56-77 `logpdf`. -/
noncomputable def logpdfDraws (ord : PyOrder) (draw : NetDraws R V Ω) (rowid : R)
    (net : Network R V Ω) (targets constraints inputs : Dict Nat V) : Draws Fl :=
  if net.accuracy = 0 then .raise .valueError
  else
    ((weightedDraws ord draw rowid net [] (targets.update constraints) inputs).many
      net.accuracy).bind fun joint =>
    (Draws.ofExcept (logmeanexp (joint.map fun p => Fl.ofLogP p.2))).bind fun lpJoint =>
    (if constraints.isEmpty then .pure [(0 : LogP)]
      else ((weightedDraws ord draw rowid net [] constraints inputs).many net.accuracy).bind
        fun l => .pure (l.map Prod.snd)).bind fun marg =>
    if ∀ w ∈ marg, w = (⊥ : LogP) then .raise .valueError
    else
      (Draws.ofExcept (logmeanexp (marg.map Fl.ofLogP))).bind fun lpMarg =>
      .pure (lpJoint.sub lpMarg)

/-- A component of src/primitives with output `out` as the network sees it
(src/primitives/distribution.py:55-64): queries about other variables are not put to it.  An outcome is
a value for each variable. -/
noncomputable def primNet (p : Prim) (c : Comp ℝ p.S p.H) (out : Col) :
    NetCgpm (Option Row) ℝ (Nat → ℝ) where
  outputs := [out]
  inputs := []
  logpdf := fun r T _ => match T out with
    | some x => c.logpdf p.fam r x
    | none => .error .assertion
  simulate := fun ω _ ts _ _ => .ok (ts.map fun t => (t, ω t))

/-- The draws of `primNet`: those of `Prim.simulate`. -/
noncomputable def primDraws (p : Prim) (c : Comp ℝ p.S p.H) (out : Col) (r : Option Row)
    (ts : List Nat) (_ _ : Look ℝ) : Draws (Nat → ℝ) :=
  (p.simulate c out r ts [] []).bind fun d => .pure fun v => (d.get? v).getD 0

end Net
end Cgpm
