import Verif.Model.Py

/-
Model of the row bookkeeping of src/venturescript/vscgpm.py: `VsCGpm`, the generative population models
that are given by a Venture program.

Simplifications, global to this file:
* The Venture interpreter (`ripl`) is modelled by its labelled directives: what is observed or predicted
  under which label. `observe` and `predict` with a label in use raise, and so does `forget` of a label
  that is not in use. Inference does not change the directives (L105, L124-129); which values it gives the
  unobserved variables is not modelled: the values of `predict` are parameters of `simulate`.
* An observer of the program may refuse a value (`accepts`); simulators do not fail.
* Row identifiers are integers `≥ 0` (`'(atom %i)' % rowid` requires integers).
* Errors of the interpreter are `Exn.runtime`.
-/
namespace Cgpm.Vs

/-- What the interpreter holds under a label: the value of an output of a row, for arguments of the
program, is observed (`some v`) or predicted (`none`). -/
structure Fact (V : Type) where
  row : Nat
  col : Nat
  args : List V
  value : Option V
  deriving DecidableEq

/-- src/venturescript/vscgpm.py:78: an entry `obs[rowid]`, a `defaultdict(dict)` with the keys
`'inputs'` and `'labels'`. Missing labels are no labels; whether the key `'inputs'` exists is observed
(L253). -/
structure Entry (V : Type) where
  inputs : Option (Dict Nat V)
  labels : Dict Nat Nat

/-- What does not change: `isnan`, which values the observers of the program accept (row, output,
arguments, value), and the labels that `_gen_label` gives (src/venturescript/vscgpm.py:191-194: a random
number and the time). -/
structure Program (V : Type) where
  nan : V → Bool
  accepts : Nat → Nat → List V → V → Bool
  label : Nat → Nat

/-- src/venturescript/vscgpm.py:34-78: the object. `clock` counts the labels generated so far. -/
structure VsCgpm (V : Type) where
  outputs : List Nat
  inputs : List Nat
  obs : Dict Nat (Entry V)
  ripl : Dict Nat (Fact V)
  clock : Nat

variable {V : Type} [DecidableEq V]

/-- `set(a) != set(b)`, negated. -/
def sameSet (a b : List Nat) : Bool := a.all (b.contains ·) && b.all (a.contains ·)

/-- src/venturescript/vscgpm.py:34-78 `__init__`: the checks of the names, and the empty bookkeeping. The
numbers of simulators and observers are taken to agree (L65-75). -/
def construct (outputs inputs : List Nat) : Except Exn (VsCgpm V) :=
  if ¬ outputs.Nodup then .error .valueError
  else if ¬ inputs.Nodup then .error .valueError
  else if outputs.any (inputs.contains ·) then .error .valueError
  else .ok ⟨outputs, inputs, [], [], 0⟩

/-- `self.obs[rowid]` of a defaultdict. -/
def entry (s : VsCgpm V) (row : Nat) : Entry V := (s.obs.get? row).getD ⟨none, []⟩

/-- `[inputs[i] for i in self.inputs]` (src/venturescript/vscgpm.py:170, 177). -/
def args (inputs : Dict Nat V) : List Nat → Except Exn (List V)
  | [] => .ok []
  | i :: t =>
    match inputs.get? i with
    | none => .error .keyError
    | some v => (args inputs t).map (v :: ·)

/-- src/venturescript/vscgpm.py:176-182 `_observe_cell`. -/
def observeCell (P : Program V) (s : VsCgpm V) (row col : Nat) (value : V) (inputs : Dict Nat V) :
    Out (VsCgpm V) :=
  match args inputs s.inputs with
  | .error e => .err e s
  | .ok a =>
    let s1 := { s with clock := s.clock + 1 }
    if !s.outputs.contains col then .err .valueError s1
    else if s.ripl.has (P.label s.clock) || !P.accepts row col a value then .err .runtime s1
    else .ok { s1 with
      ripl := s.ripl.set (P.label s.clock) ⟨row, col, a, some value⟩
      obs := s.obs.set row
        { entry s row with labels := (entry s row).labels.set col (P.label s.clock) } }

/-- src/venturescript/vscgpm.py:82-83, 102-103: the cells one after the other. -/
def observeAll (P : Program V) (row : Nat) (inputs : Dict Nat V) :
    Dict Nat V → VsCgpm V → Out (VsCgpm V)
  | [], s => .ok s
  | (q, v) :: t, s => (observeCell P s row q v inputs).bind (observeAll P row inputs t)

/-- src/venturescript/vscgpm.py:184-189 `_forget_cell`. (The defaultdict gets an entry for the row.) -/
def forgetCell (s : VsCgpm V) (row col : Nat) : Out (VsCgpm V) :=
  let s1 := { s with obs := s.obs.set row (entry s row) }
  match (entry s row).labels.get? col with
  | none => .ok s1
  | some l =>
    if !s.ripl.has l then .err .runtime s1
    else .ok { s with
      ripl := s.ripl.erase l
      obs := s.obs.set row { entry s row with labels := (entry s row).labels.erase col } }

/-- src/venturescript/vscgpm.py:88-89, 117-118: the cells one after the other. -/
def forgetAll (row : Nat) : List Nat → VsCgpm V → Out (VsCgpm V)
  | [], s => .ok s
  | q :: t, s => (forgetCell s row q).bind (forgetAll row t)

/-- `inputs != self.obs[rowid]['inputs']`, negated: equality of dictionaries. -/
def sameDict (a b : Dict Nat V) : Bool := (a.keys ++ b.keys).all fun k => a.get? k == b.get? k

/-- src/venturescript/vscgpm.py:251-256 `_check_matched_inputs`. -/
def matched (s : VsCgpm V) (row : Nat) (inputs : Dict Nat V) : Bool :=
  match (s.obs.get? row).bind Entry.inputs with
  | none => true
  | some known => sameDict inputs known

/-- src/venturescript/vscgpm.py:196-220 `_validate_incorporate`: the inputs of the row; the object is
changed only if nothing is raised. -/
def validateIncorporate (P : Program V) (s : VsCgpm V) (row : Nat) (observation inputs : Dict Nat V) :
    Res (VsCgpm V) (Dict Nat V) :=
  if observation.isEmpty then .err .valueError s
  else if !s.obs.has row && !sameSet inputs.keys s.inputs then .err .valueError s
  else if !observation.keys.all (s.outputs.contains ·) then .err .valueError s
  else if inputs.vals.any P.nan then .err .valueError s
  else if observation.vals.any P.nan then .err .valueError s
  else if s.obs.has row then
    if observation.keys.any ((entry s row).labels.has ·) then .err .valueError s
    else if !inputs.isEmpty && !matched s row inputs then .err .valueError s
    else
      let known := (entry s row).inputs.getD []
      .ok known { s with obs := s.obs.set row { entry s row with inputs := some known } }
  else .ok inputs { s with obs := s.obs.set row { entry s row with inputs := some inputs } }

/-- src/venturescript/vscgpm.py:80-83 `incorporate`. -/
def incorporate (P : Program V) (s : VsCgpm V) (row : Nat) (observation inputs : Dict Nat V) :
    Out (VsCgpm V) :=
  match validateIncorporate P s row observation inputs with
  | .err e s => .err e s
  | .ok known s => observeAll P row known observation s

/-- src/venturescript/vscgpm.py:85-91 `unincorporate`. -/
def unincorporate (s : VsCgpm V) (row : Nat) : Out (VsCgpm V) :=
  if !s.obs.has row then .err .valueError s
  else (forgetAll row s.outputs s).bind fun s =>
    if (entry s row).labels.isEmpty then .ok { s with obs := s.obs.erase row } else .err .assertion s

/-- src/venturescript/vscgpm.py:93-94 `logpdf`. -/
def logpdf (_ : VsCgpm V) : Nat := 0

/-- src/venturescript/vscgpm.py:222-249 `_validate_simulate`: the inputs. -/
def validateSimulate (P : Program V) (s : VsCgpm V) (row : Nat) (targets : List Nat)
    (constraints inputs : Dict Nat V) : Res (VsCgpm V) (Dict Nat V) :=
  if !s.obs.has row && !sameSet inputs.keys s.inputs then .err .valueError s
  else if inputs.vals.any P.nan then .err .valueError s
  else if constraints.vals.any P.nan then .err .valueError s
  else if !inputs.keys.all (s.inputs.contains ·) then .err .valueError s
  else if !constraints.keys.all (s.outputs.contains ·) then .err .valueError s
  else if !targets.all (s.outputs.contains ·) then .err .valueError s
  else if targets.any (constraints.keys.contains ·) then .err .valueError s
  else if s.obs.has row && constraints.keys.any ((entry s row).labels.has ·) then .err .valueError s
  else if s.obs.has row && !inputs.isEmpty && !matched s row inputs then .err .valueError s
  else
    let s' := if s.obs.has row && inputs.isEmpty then
      { s with obs := s.obs.set row { entry s row with inputs := some ((entry s row).inputs.getD []) } }
      else s
    let inputs' := if s.obs.has row && inputs.isEmpty then (entry s row).inputs.getD [] else inputs
    if sameSet inputs'.keys s.inputs then .ok inputs' s' else .err .assertion s'

/-- src/venturescript/vscgpm.py:107-112, 169-174: predict the targets, the `i`-th under the label number
`clock + i` and with the value `draw i`. -/
def predictAll (P : Program V) (row : Nat) (inputs : Dict Nat V) (draw : Nat → V) (clock : Nat) :
    Nat → List Nat → VsCgpm V → Res (VsCgpm V) (Dict Nat V)
  | _, [], s => .ok [] s
  | i, q :: t, s =>
    match args inputs s.inputs with
    | .error e => .err e s
    | .ok a =>
      if s.ripl.has (P.label (clock + i)) then .err .runtime s
      else
        match predictAll P row inputs draw clock (i + 1) t
          { s with ripl := s.ripl.set (P.label (clock + i)) ⟨row, q, a, none⟩ } with
        | .err e s => .err e s
        | .ok d s => .ok ((q, draw i) :: d) s

/-- src/venturescript/vscgpm.py:113-115: forget the predictions. -/
def forgetLabels : List Nat → VsCgpm V → Out (VsCgpm V)
  | [], s => .ok s
  | l :: t, s =>
    if !s.ripl.has l then .err .runtime s
    else forgetLabels t { s with ripl := s.ripl.erase l }

/-- src/venturescript/vscgpm.py:96-119 `simulate`. -/
def simulate (P : Program V) (s : VsCgpm V) (row : Nat) (targets : List Nat)
    (constraints inputs : Dict Nat V) (draw : Nat → V) : Res (VsCgpm V) (Dict Nat V) :=
  match validateSimulate P s row targets constraints inputs with
  | .err e s => .err e s
  | .ok inputs s =>
    match observeAll P row inputs constraints s with
    | .err e s => .err e s
    | .ok s =>
      let clock := s.clock
      match predictAll P row inputs draw clock 0 targets
        { s with clock := clock + targets.length } with
      | .err e s => .err e s
      | .ok samples s =>
        match (forgetLabels ((List.range targets.length).map fun i => P.label (clock + i)) s).bind
          (forgetAll row constraints.keys) with
        | .err e s => .err e s
        | .ok s => .ok samples s

/-- src/venturescript/vscgpm.py:131-164, 258-278: `from_metadata (to_metadata ())`. The interpreter is taken to
save and load its directives (L140, L147); the keys go through `str` and `int`, which are taken to be
inverse; reading `obs2[r]['inputs']` of an entry without inputs gives it empty ones (L265). -/
def reload (s : VsCgpm V) : VsCgpm V :=
  { s with obs := s.obs.map fun p => (p.1, ⟨some (p.2.inputs.getD []), p.2.labels⟩) }

end Cgpm.Vs
