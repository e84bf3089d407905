import Verif.Model.Venture
import Verif.Model.Schema
import Verif.Model.Math

/-!
Model of src/venturescript/vsinline.py: `InlineVsCGpm`, a model with one output that is given by a
Venture expression.

Simplifications, global to this file:
* The Venture interpreter is a parameter (`Interp`): which texts it can execute, the log density that it
  reports when a value of the expression is observed, and the values that it samples; it may raise, and
  then the answer is `none`.  Of its state only the labels in use are modelled; `assume` and `observe`
  with a label in use raise, and so does `forget` of a label that is not in use (as in Model/Venture).
* Errors of the interpreter are `Exn.runtime`.
-/
namespace Cgpm.Inline
open Cgpm.Schema (Str pySplit)

/-- The labels that the code uses: `'expr'`, `'expr_assume'`, `'expr_observe'`. -/
inductive Label
  | expr | exprAssume | exprObserve
  deriving DecidableEq

/-- The interpreter: `str` of an input, the expressions that it can execute, and the log density of a
value of an expression that is applied to arguments. -/
structure Interp (V T : Type) where
  text : V → T
  executes : Str → Bool
  dens : Str → List T → V → Option LogP

/-- src/venturescript/vsinline.py:31-57: the object. -/
structure InlineVs where
  outputs : List Nat
  inputs : List Nat
  expression : Str
  labels : List Label
  deriving DecidableEq

variable {V T : Type}

/-- `string.whitespace`. -/
def isSpace (c : Char) : Bool := c ∈ [' ', '\t', '\n', '\r', '\x0b', '\x0c']

/-- `s.split('~>')[0]`. -/
def beforeArrow : Str → Str
  | '~' :: '>' :: _ => []
  | c :: cs => c :: beforeArrow cs
  | [] => []

/-- src/venturescript/vsinline.py:121-134: the number of arguments that
`_validate_expression_concrete` reads. (The expression is ASCII.) -/
def countArgs (expression : Str) : Nat :=
  let args := (beforeArrow (expression.filter fun c => !isSpace c)).filter fun c =>
    c ≠ '(' ∧ c ≠ ')'
  ((pySplit ',' args).filter fun a => a ≠ []).length

/-- src/venturescript/vsinline.py:31-57 `__init__`. -/
def construct (P : Interp V T) (outputs inputs : List Nat) (expression : Option Str) :
    Except Exn InlineVs :=
  if outputs.length ≠ 1 then .error .valueError
  else if ¬ inputs.Nodup then .error .valueError
  else if outputs.any (inputs.contains ·) then .error .valueError
  else
    match expression with
    | none => .error .valueError
    | some e =>
      if countArgs e ≠ inputs.length then .error .assertion
      else if !P.executes e then .error .runtime
      else .ok ⟨outputs, inputs, e, []⟩

/-- `ripl.assume` or `ripl.observe` with a label; `fine` says whether the interpreter raises. -/
def addLabel (s : InlineVs) (l : Label) (fine : Bool) : Out InlineVs :=
  if l ∈ s.labels ∨ fine = false then .err .runtime s
  else .ok { s with labels := l :: s.labels }

/-- `ripl.forget`. -/
def forget (s : InlineVs) (l : Label) : Out InlineVs :=
  if l ∈ s.labels then .ok { s with labels := s.labels.erase l }
  else .err .runtime s

/-- src/venturescript/vsinline.py:103-104 `_retrieve_args`. -/
def retrieveArgs (P : Interp V T) (s : InlineVs) (inputs : Dict Nat V) : Except Exn (List T) :=
  match Vs.args inputs s.inputs with
  | .error e => .error e
  | .ok a => .ok (a.map P.text)

/-- src/venturescript/vsinline.py:65-82 `logpdf`. -/
def logpdf (P : Interp V T) (s : InlineVs) (targets constraints inputs : Dict Nat V) :
    Res InlineVs LogP :=
  if Vs.sameSet inputs.keys s.inputs = false then .err .assertion s
  else if targets.keys ≠ s.outputs then .err .assertion s
  else if constraints.isEmpty = false then .err .assertion s
  else
    match addLabel s .exprAssume true with
    | .err e s1 => .err e s1
    | .ok s1 =>
      match retrieveArgs P s1 inputs with
      | .error e => .err e s1
      | .ok a =>
        match s1.outputs.head? >>= targets.get? with
        | none => .err .keyError s1
        | some v =>
          match P.dens s1.expression a v with
          | none => .err .runtime s1
          | some p =>
            match addLabel s1 .exprObserve true with
            | .err e s2 => .err e s2
            | .ok s2 =>
              match forget s2 .exprObserve with
              | .err e s3 => .err e s3
              | .ok s3 =>
                match forget s3 .exprAssume with
                | .err e s4 => .err e s4
                | .ok s4 => .ok p s4

/-- src/venturescript/vsinline.py:84-95 `simulate`, one call; `ω` is the value that the interpreter
samples for the arguments, or `none` if it raises. -/
def simulate (P : Interp V T) (s : InlineVs) (targets : List Nat) (constraints inputs : Dict Nat V)
    (ω : List T → Option V) : Res InlineVs (Dict Nat V) :=
  if Vs.sameSet inputs.keys s.inputs = false then .err .assertion s
  else if targets ≠ s.outputs then .err .assertion s
  else if constraints.isEmpty = false then .err .assertion s
  else
    match addLabel s .expr true with
    | .err e s1 => .err e s1
    | .ok s1 =>
      match retrieveArgs P s1 inputs with
      | .error e => .err e s1
      | .ok a =>
        match ω a with
        | none => .err .runtime s1
        | some x =>
          match forget s1 .expr with
          | .err e s2 => .err e s2
          | .ok s2 =>
            match s2.outputs.head? with
            | none => .err .indexError s2
            | some o => .ok [(o, x)] s2

/-- src/utils/general.py:403-413 `simulate_many`: the calls for `N` samples; `ωs` holds the samples of
the interpreter, one for each call. -/
def simulateMany (P : Interp V T) (targets : List Nat) (constraints inputs : Dict Nat V) :
    List (List T → Option V) → InlineVs → Res InlineVs (List (Dict Nat V))
  | [], s => .ok [] s
  | ω :: ωs, s =>
    match simulate P s targets constraints inputs ω with
    | .err e s1 => .err e s1
    | .ok r s1 =>
      match simulateMany P targets constraints inputs ωs s1 with
      | .err e s2 => .err e s2
      | .ok rs s2 => .ok (r :: rs) s2

/-- The calls of the interface. `incorporate`, `unincorporate` and `transition` return at once
(src/venturescript/vsinline.py:59-63, 100-101). -/
inductive Call (V T : Type)
  | incorporate (row : Nat) (observation inputs : Dict Nat V)
  | unincorporate (row : Nat)
  | transition
  | logpdf (row : Nat) (targets constraints inputs : Dict Nat V)
  | simulate (row : Nat) (targets : List Nat) (constraints inputs : Dict Nat V)
      (ωs : List (List T → Option V))

/-- The object after a call. -/
def apply (P : Interp V T) (s : InlineVs) : Call V T → InlineVs
  | .incorporate _ _ _ => s
  | .unincorporate _ => s
  | .transition => s
  | .logpdf _ t c i => (logpdf P s t c i).state
  | .simulate _ t c i ωs => (simulateMany P t c i ωs s).state

/-- The object after a history of calls, each of which may have raised. -/
def run (P : Interp V T) (s : InlineVs) (calls : List (Call V T)) : InlineVs :=
  calls.foldl (apply P) s

/-- src/venturescript/vsinline.py:136-142 `to_metadata`. -/
def toMetadata (s : InlineVs) : List Nat × List Nat × Str := (s.outputs, s.inputs, s.expression)

/-- src/venturescript/vsinline.py:144-152 `from_metadata`. -/
def fromMetadata (P : Interp V T) (m : List Nat × List Nat × Str) : Except Exn InlineVs :=
  construct P m.1 m.2.1 (some m.2.2)

end Cgpm.Inline
