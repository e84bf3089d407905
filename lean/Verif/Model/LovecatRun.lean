import Verif.Model.Import
import Verif.Model.LibCfg
import Verif.Model.Network

/-
Model of src/crosscat/lovecat.py:24-94 and 329-397, and src/crosscat/state.py:812-827: a transition of
a State by Lovecat, with the data that is handed over.

Simplifications, global to this file:
* Lovecat itself, `LocalEngine.analyze`, is a parameter: it is given a `Call` and answers with X_L and
  X_D, or raises.
* Column names and `col_ensure` (the constraints of the State) are not part of a `Call`.
* `sorted(set(column))` is a parameter `ord`: with missing values, which compare as false, Python
  does not sort.
* The diagnostics, and the transitions of hyperparameters and concentrations that follow
  (src/crosscat/state.py:829-831), are not part of this file.
-/
namespace Cgpm
namespace Lovecat
variable {P : Prim → Prop}

/-- An entry of `M_c['column_metadata']`; `nominal` is the `modeltype`.  Texts `'%d' % (c,)` are
integers. -/
structure ColMeta where
  nominal : Bool
  valueToCode : Dict Nat ℤ
  codeToValue : Dict ℤ Nat

/-- src/crosscat/lovecat.py:36-41 `create_metadata_numerical`. -/
def metaNumerical : ColMeta := ⟨false, [], []⟩

open Classical in
/-- src/crosscat/lovecat.py:42-54 `create_metadata_categorical`. -/
noncomputable def metaCategorical (ord : List (Option ℝ) → List (Option ℝ)) (column : List (Option ℝ))
    (k : Nat) : Except Exn ColMeta :=
  let categories := (ord column).reduceOption
  if ∀ c ∈ categories, 0 ≤ c ∧ c < k then
    let codes := categories.map fun c => ⌊c⌋
    let ncodes := List.range codes.length
    .ok ⟨true, Dict.update [] (ncodes.zip codes), Dict.update [] (codes.zip ncodes)⟩
  else .error .assertion

/-- `c in ['normal', 'categorical']`, src/crosscat/lovecat.py:32. -/
def supports (i : (catOf P).ι) : Bool :=
  match i.1 with
  | .normal => true
  | .categorical _ => true
  | _ => false

/-- src/crosscat/lovecat.py:58-62: the entry of one column. -/
noncomputable def columnMeta (ord : List (Option ℝ) → List (Option ℝ)) (s : State (catOf P)) (c : Col) :
    Except Exn ColMeta :=
  match s.dimFor c with
  | .error e => .error e
  | .ok d =>
    match d.kind.1 with
    | .categorical k =>
      match s.X.get? c with
      | none => .error .keyError
      | some column => metaCategorical ord column k
    | _ => .ok metaNumerical

/-- src/crosscat/lovecat.py:24-71 `_crosscat_M_c`. -/
noncomputable def crosscatMc (ord : List (Option ℝ) → List (Option ℝ)) (s : State (catOf P)) :
    Except Exn (List ColMeta) :=
  if typesOk supports s then Net.collect (columnMeta ord s) s.outputs else .error .assertion

/-- src/crosscat/lovecat.py:76-88 `crosscat_value_to_code`. -/
noncomputable def toCode (m : ColMeta) : Option ℝ → Except Exn (Option ℝ)
  | none => .ok none
  | some v =>
    if m.codeToValue.isEmpty then .ok (some v)
    else
      match m.codeToValue.get? ⌊v⌋ with
      | none => .error .assertion
      | some n => .ok (some (n : ℝ))

/-- src/crosscat/lovecat.py:92-93: the entry of the column `p.1`, the `p.2`-th output, in a row. -/
noncomputable def tableEntry (ms : List ColMeta) (s : State (catOf P)) (r : Row) (p : Col × Nat) :
    Except Exn (Option ℝ) :=
  match s.X.get? p.1 with
  | none => .error .keyError
  | some column =>
    match column[r]? with
    | none => .error .indexError
    | some x =>
      match ms[p.2]? with
      | none => .error .indexError
      | some m => toCode m x

/-- src/crosscat/lovecat.py:73-95 `_crosscat_T`. -/
noncomputable def crosscatT (ms : List ColMeta) (s : State (catOf P)) :
    Except Exn (List (List (Option ℝ))) :=
  match s.outputs.head? with
  | none => .error .indexError
  | some c =>
    match s.X.get? c with
    | none => .error .keyError
    | some column =>
      Net.collect (fun r => Net.collect (tableEntry ms s r) s.outputs.zipIdx) (List.range column.length)

/-- An entry of `X_L['column_hypers']`: the hyperparameters and, for a categorical column, `K`. -/
structure ColHyp where
  hyp : Σ q : Prim, q.H
  K : Option Nat

/-- src/crosscat/lovecat.py:126-153: the entry of the column `p.1`, the `p.2`-th output. -/
noncomputable def columnHyp (ms : List ColMeta) (s : State (catOf P)) (p : Col × Nat) : Except Exn ColHyp :=
  match s.dimFor p.1 with
  | .error e => .error e
  | .ok d =>
    match d.kind.1 with
    | .categorical _ =>
      match ms[p.2]? with
      | none => .error .indexError
      | some m =>
        if 0 < m.codeToValue.length then .ok ⟨d.hyp, some m.codeToValue.length⟩ else .error .assertion
    | _ => .ok ⟨d.hyp, none⟩

/-- The arguments of `analyze`, src/crosscat/lovecat.py:380-392; no `maxTime` is -1. -/
structure Call where
  metas : List ColMeta
  table : List (List (Option ℝ))
  hypers : List ColHyp
  latent : Lovecat
  seed : Nat
  kernels : List String
  steps : Nat
  maxTime : Option ℝ
  cols : List Nat
  rows : List Row
  every : Option Nat

/-- src/crosscat/lovecat.py:348-364: the first `if` is not followed by an `elif`, so that neither `N`
nor `S` ends in `assert False`. -/
def stepsOf : Option Nat → Option ℝ → Except Exn (Nat × Option ℝ)
  | some n, none => .ok (n, none)
  | none, some t => .ok (150000, some t)
  | some n, some t => .ok (n, some t)
  | none, none => .error .assertion

/-- src/crosscat/lovecat.py:366-369: the positions of the columns. -/
def positions (outputs : List Col) : Option (List Col) → Except Exn (List Nat)
  | none => .ok []
  | some l => Net.collect (fun c => if c ∈ outputs then .ok (outputs.idxOf c) else .error .valueError) l

/-- src/crosscat/lovecat.py:329-397 `transition`. -/
noncomputable def transition (cfg : Cfg (catOf P)) (ord : List (Option ℝ) → List (Option ℝ))
    (analyze : Call → Except Exn Lovecat) (N : Option Nat) (S : Option ℝ) (kernels : Option (List String))
    (rowids : Option (List Row)) (cols : Option (List Col)) (seed : Nat) (checkpoint : Option Nat)
    (s : State (catOf P)) : Out (State (catOf P)) :=
  match stepsOf N S with
  | .error e => .err e s
  | .ok (steps, maxTime) =>
    match positions s.outputs cols with
    | .error e => .err e s
    | .ok cs =>
      match crosscatMc ord s with
      | .error e => .err e s
      | .ok metas =>
        match crosscatT metas s with
        | .error e => .err e s
        | .ok table =>
          match Net.collect (columnHyp metas s) s.outputs.zipIdx with
          | .error e => .err e s
          | .ok hypers =>
            match ofState supports s with
            | .error e => .err e s
            | .ok latent =>
              match analyze ⟨metas, table, hypers, latent, seed, kernels.getD [], steps, maxTime, cs,
                rowids.getD [], checkpoint⟩ with
              | .error e => .err e s
              | .ok x => x.update cfg supports s

end Lovecat

/-- src/crosscat/state.py:812-827 `transition_lovecat`. -/
noncomputable def State.transitionLovecat {P : Prim → Prop} (cfg : Cfg (catOf P))
    (ord : List (Option ℝ) → List (Option ℝ)) (analyze : Lovecat.Call → Except Exn Lovecat)
    (N : Option Nat) (S : Option ℝ) (kernels : Option (List String)) (rowids : Option (List Row))
    (cols : Option (List Col)) (seed : Nat) (checkpoint : Option Nat) (s : State (catOf P)) :
    Out (State (catOf P)) :=
  if ¬ Lovecat.typesOk Lovecat.supports s then .err .valueError s
  else if State.anyConditional cfg s then .err .valueError s
  else Lovecat.transition cfg ord analyze N S kernels rowids cols seed checkpoint s

end Cgpm
