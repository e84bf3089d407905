import Verif.Model.StateSimulate

/-
Model of the composition of a State with foreign models: src/crosscat/state.py:340-365.

Simplifications, global to this file:
* `hooked_cgpms` is iterated in insertion order (a Python 2 dict has an arbitrary order; whether a
  network is accepted does not depend on it, C26).
* What the views answer as components of the network is given by a `ViewBehaviour`.
-/
namespace Cgpm

/-- A State with the attributes that concern composition: `hooked_cgpms`, the next value of
`token_generator` and `_composite`. -/
structure Composite (C : Cat) (Ω : Type) where
  st : State C
  hooked : Dict Nat (NetCgpm (Option Row) (Val C) Ω)
  next : Nat
  composite : Bool

namespace Composite
variable {C : Cat} {Ω : Type}

/-- src/crosscat/state.py:162-163, 182: the attributes set by the constructor. -/
def new (s : State C) : Composite C Ω := ⟨s, [], 57481, false⟩

/-- src/crosscat/state.py:358-362 `_update_is_composite`. -/
def updateIsComposite (cfg : Cfg C) (x : Composite C Ω) : Composite C Ω :=
  { x with composite := !x.hooked.isEmpty || x.st.anyConditional cfg }

/-- src/crosscat/state.py:364-365 `is_composite`. -/
def isComposite (x : Composite C Ω) : Bool := x.composite

/-- src/crosscat/state.py:422-427 `build_network`, without accuracy. -/
def buildNetwork (ord : PyOrder) (beh : ViewBehaviour C Ω) (x : Composite C Ω) :
    Except Exn (Net.Network (Option Row) (Val C) Ω) :=
  Net.build ord (x.st.buildCgpms beh x.hooked) (some 1)

/-- src/crosscat/state.py:340-350 `compose_cgpm`. -/
def compose (cfg : Cfg C) (ord : PyOrder) (beh : ViewBehaviour C Ω) (x : Composite C Ω)
    (cgpm : NetCgpm (Option Row) (Val C) Ω) : Res (Composite C Ω) Nat :=
  let token := x.next
  let x1 : Composite C Ω := { x with next := x.next + 1, hooked := x.hooked.set token cgpm }
  match x1.buildNetwork ord beh with
  | .error .valueError => .err .valueError { x1 with hooked := x1.hooked.erase token }
  | .error e => .err e x1
  | .ok _ => .ok token (x1.updateIsComposite cfg)

/-- src/crosscat/state.py:352-356 `decompose_cgpm`. -/
def decompose (cfg : Cfg C) (ord : PyOrder) (beh : ViewBehaviour C Ω) (x : Composite C Ω)
    (token : Nat) : Out (Composite C Ω) :=
  if x.hooked.has token then
    let x1 := Composite.updateIsComposite cfg { x with hooked := x.hooked.erase token }
    match x1.buildNetwork ord beh with
    | .error e => .err e x1
    | .ok _ => .ok x1
  else .err .keyError x

/-- Does the call end with `_update_is_composite` (src/crosscat/state.py:235, 258, 333)? -/
def refreshes : State.Op C → Bool
  | .incDim .. => true
  | .uncDim .. => true
  | .cctype .. => true
  | _ => false

/-- A call on the underlying State. -/
noncomputable def onState (cfg : Cfg C) (x : Composite C Ω) (op : State.Op C) :
    Out (Composite C Ω) :=
  match x.st.apply cfg op with
  | .err e s => .err e { x with st := s }
  | .ok s =>
    let x1 := { x with st := s }
    .ok (if refreshes op then x1.updateIsComposite cfg else x1)

/-- The calls. -/
inductive Op (C : Cat) (Ω : Type)
  | compose (cgpm : NetCgpm (Option Row) (Val C) Ω)
  | decompose (token : Nat)
  | state (op : State.Op C)

/-- One call. -/
noncomputable def apply (cfg : Cfg C) (ord : PyOrder) (beh : ViewBehaviour C Ω)
    (x : Composite C Ω) : Op C Ω → Composite C Ω
  | .compose c => (x.compose cfg ord beh c).state
  | .decompose t => (x.decompose cfg ord beh t).state
  | .state op => (x.onState cfg op).state

/-- A history of calls; the client carries on after an exception. -/
noncomputable def run (cfg : Cfg C) (ord : PyOrder) (beh : ViewBehaviour C Ω)
    (x : Composite C Ω) (ops : List (Op C Ω)) : Composite C Ω :=
  ops.foldl (fun x op => x.apply cfg ord beh op) x

/-- The tokens returned by `compose_cgpm` in a history. -/
noncomputable def tokens (cfg : Cfg C) (ord : PyOrder) (beh : ViewBehaviour C Ω)
    (x : Composite C Ω) : List (Op C Ω) → List Nat
  | [] => []
  | op :: ops =>
    let rest := tokens cfg ord beh (x.apply cfg ord beh op) ops
    match op with
    | .compose c =>
      match x.compose cfg ord beh c with
      | .ok t _ => t :: rest
      | .err _ _ => rest
    | _ => rest

/-- src/crosscat/state.py:392-402 `logpdf` of the composition. -/
noncomputable def logpdf (close : C.V → C.V → Bool) (ord : PyOrder) (beh : ViewBehaviour C Ω)
    (ωj ωm : Nat → Nat → Ω) (x : Composite C Ω) (rowid : Option Row)
    (targets constraints inputs : Dict Col C.Cell) (accuracy : Option Nat) : Except Exn Fl :=
  x.st.logpdf close ord beh ωj ωm x.composite x.hooked rowid targets constraints inputs accuracy

end Composite
end Cgpm
