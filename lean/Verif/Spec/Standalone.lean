import Verif.Model.Standalone
import Verif.Spec.DummyCode
import Mathlib.Data.Set.Card

/-!
Specification vocabulary for C42: what each stand-alone model keeps of an observation, the rows
kept after a history, and what it means that the bookkeeping of an object is exact.
-/
namespace Cgpm.Props
open Cgpm

/-- SPEC. The rows kept after a history: an observation is kept if the model accepts it and the
row is not kept already; a removed row is forgotten. -/
def kept {O S : Type} (acc : O → Option S) (ops : List (RowOp O)) : Row → Option S :=
  ops.foldl (fun m op => match op with
    | .inc r o => fun r' => if r' = r ∧ m r = none then acc o else m r'
    | .unc r => fun r' => if r' = r then none else m r') fun _ => none

/-- SPEC. The object `s` keeps exactly the rows `m`: it stores them, counts them, accepts exactly
the calls that it should accept, and refused calls change nothing. -/
structure ExactRows {σ O S : Type} (inc : σ → Row → O → Out σ) (unc : σ → Row → Out σ)
    (acc : O → Option S) (holds : σ → Row → Option S → Prop) (size : σ → ℤ) (s : σ)
    (m : Row → Option S) : Prop where
  rows : ∀ r, holds s r (m r)
  size : size s = (Set.ncard {r | m r ≠ none} : ℕ)
  inc_accepted : ∀ r o, (inc s r o).isOk = true ↔ m r = none ∧ acc o ≠ none
  inc_refused : ∀ r o e s', inc s r o = .err e s' → s' = s
  unc_accepted : ∀ r, (unc s r).isOk = true ↔ m r ≠ none
  unc_refused : ∀ r e s', unc s r = .err e s' → s' = s

/-- SPEC. A regression holds the value and the covariates of a row. -/
def RegHolds {X : Type} (s : RegRows X) (r : Row) (v : Option (X × List (Option ℝ))) : Prop :=
  s.x.get? r = v.map Prod.fst ∧ s.Y.get? r = v.map Prod.snd

/-- SPEC. A multivariate model holds the values of a row. -/
def MvHolds (s : MvRows) (r : Row) (v : Option (List (Option ℝ))) : Prop := s.data.get? r = v

/-- SPEC. The values of the inputs, in the order of the schema. -/
def inputRow (inputs : List Col) (ins : Vals) : List (Option ℝ) :=
  inputs.map fun c => (ins.get? c).getD none

/-- SPEC. The code of a row of covariates. -/
noncomputable def rowCode (levels : Nat → Option Nat) (x : List (Option ℝ)) : List (Option ℝ) :=
  x.zipIdx.flatMap fun p => codeOf levels p.2 p.1

/-- SPEC. Linear regression knows one more category than declared: the value `k` stands for any
other category. -/
def linregLevels (types : List InputType) (i : Nat) : Option Nat :=
  match types[i]? with
  | some (.nominal (some k)) => some (k + 1)
  | _ => none

/-- SPEC. Ordinary least squares knows exactly the declared categories. -/
def olsLevels (types : List InputType) (i : Nat) : Option Nat :=
  match types[i]? with
  | some (.nominal k) => k
  | _ => none

open Classical in
/-- SPEC. What a linear regression keeps of an observation: its value, the constant 1 and the code
of its inputs.  Exactly the declared inputs must be given, with valid categories. -/
noncomputable def linregKeeps (out : Col) (inputs : List Col) (levels : Nat → Option Nat) :
    Vals × Option Vals → Option (ℝ × List (Option ℝ))
  | (_, none) => none
  | (obs, some ins) =>
    match obs.get? out with
    | some (some x) =>
      if (∀ c, c ∈ ins.keys ↔ c ∈ inputs) ∧ ValidRow levels (inputRow inputs ins)
      then some (x, some 1 :: rowCode levels (inputRow inputs ins)) else none
    | _ => none

open Classical in
/-- SPEC. What ordinary least squares keeps: no input may be missing, and there is no constant. -/
noncomputable def olsKeeps (out : Col) (inputs : List Col) (levels : Nat → Option Nat) :
    Vals × Option Vals → Option (ℝ × List (Option ℝ))
  | (_, none) => none
  | (obs, some ins) =>
    match obs.get? out with
    | some (some x) =>
      if (∀ c, c ∈ ins.keys ↔ c ∈ inputs) ∧ ValidRow levels (inputRow inputs ins) ∧
        none ∉ inputRow inputs ins
      then some (x, rowCode levels (inputRow inputs ins)) else none
    | _ => none

open Classical in
/-- SPEC. What a random forest with `k` categories keeps: the category and the inputs, by
increasing column.  Nothing may be missing and there must be as many inputs as declared. -/
noncomputable def forestKeeps (out : Col) (inputs : List Col) (k : Nat) :
    Vals × Option Vals → Option (Nat × List (Option ℝ))
  | (_, none) => none
  | (obs, some ins) =>
    if h : ∃ n : ℕ, n < k ∧ obs.get? out = some (some (n : ℝ)) then
      if out ∉ ins.keys ∧ (∀ c ∈ inputs, c ∈ ins.keys) ∧ ins.length = inputs.length ∧
        (∀ c ∈ ins.keys, ∃ x : ℝ, ins.get? c = some (some x))
      then some (h.choose, inputRow (ins.keys.mergeSort (· ≤ ·)) ins) else none
    else none

open Classical in
/-- SPEC. What a multivariate model keeps: the values of the variables `stored`, missing ones
included.  At least one value must be given, only for known variables that are not latent. -/
noncomputable def mvKeeps (outputs latents stored : List Col) :
    Vals × Vals → Option (List (Option ℝ))
  | (obs, ins) =>
    if ins = [] ∧ obs ≠ [] ∧ ∀ c ∈ obs.keys, c ∈ outputs ∧ c ∉ latents
    then some (inputRow stored obs) else none

end Cgpm.Props
