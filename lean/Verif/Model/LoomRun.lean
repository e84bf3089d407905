import Verif.Model.Import
import Verif.Model.LibCfg
import Verif.Model.Network

/-
Model of src/crosscat/loomcat.py:41-73, 196-294 and 297-332, src/utils/config.py:42-58 and 72-81: a
transition of a State, or of the States of an Engine, by Loom, with the files that are written.

Simplifications, global to this file:
* Loom itself (`loom.tasks`) is a parameter: it is given the project, the seed and the number of
  passes, and answers with a sample, or raises.
* A project is the contents of its two files, column by column.  The file of data has a line per row,
  and whole columns of integers are written without a decimal point (L216-218).
* The name of a project is the time in seconds, a number.  A project whose files could not all be
  written is not in the store.
* The transitions of hyperparameters and concentrations that follow (src/crosscat/state.py:840-845
  and L334-340) are not part of this file.
-/
namespace Cgpm
namespace Loom
variable {C : Cat}

/-- The values of `cctype_loom_lookup`, src/utils/config.py:42-54. -/
inductive LoomType
  | boolean | real | categorical | unboundedCategorical | count
  deriving DecidableEq, Repr

/-- src/utils/config.py:42-54 and 72-81 `loom_stattype`, for the primitives of the catalogue. -/
def stattype : Prim → LoomType
  | .bernoulli => .boolean
  | .categorical k => if 256 < k then .unboundedCategorical else .categorical
  | .exponential => .real
  | .geometric => .real
  | .poisson => .count
  | .normal => .real
  | .lognormal => .real
  | .vonmises _ => .real
  | .normalTrunc _ _ _ _ => .real
  | .beta _ => .real

/-- A column of the two files `data.csv` and `schema.csv`. -/
structure Column (C : Cat) where
  name : List Nat
  cells : List C.Cell
  type : LoomType

/-- The files of a project. -/
abbrev Project (C : Cat) := List (Column C)

/-- The Loom store: the projects by name. -/
abbrev Store (C : Cat) := Dict Nat (Project C)

/-- A State with its `_loom_path`, src/crosscat/state.py:173. -/
structure Member (C : Cat) where
  state : State C
  path : Option Nat

/-- One column of L212-214 and L224-230; `st` is `loom_stattype`, ValueError when there is none. -/
def column (st : C.ι → Option LoomType) (s : State C) (c : Col) : Except Exn (Column C) :=
  match s.X.get? c with
  | none => .error .keyError
  | some l =>
    match s.dimFor c with
    | .error e => .error e
    | .ok d =>
      match st d.kind with
      | none => .error .valueError
      | some t => .ok ⟨columnName c, l, t⟩

/-- src/crosscat/loomcat.py:210-230 `_write_dataset` and `_write_schema`: the contents of the files. -/
def files (st : C.ι → Option LoomType) (s : State C) : Except Exn (Project C) :=
  Net.collect (column st s) s.outputs

/-- src/crosscat/loomcat.py:53-73 and 236-263 `initialize`, at the time `now`.  A directory that
exists is used again, and its files are replaced. -/
def createProject (st : C.ι → Option LoomType) (now : Nat) (store : Store C) (s : State C) :
    Except Exn (Store C) :=
  match files st s with
  | .error e => .error e
  | .ok pr => .ok (store.set now pr)

/-- src/crosscat/loomcat.py:277-278 and 316-317: the store and the project to use. -/
def project (st : C.ι → Option LoomType) (now : Nat) (store : Store C) (m : Member C) :
    Except Exn (Store C × Nat) :=
  match m.path with
  | some p => .ok (store, p)
  | none => (createProject st now store m.state).map fun store' => (store', now)

/-- The arguments of `transition`; for the last four, whether they are given. -/
structure Args where
  N : Option Nat
  seed : Option Nat
  S : Bool
  kernels : Bool
  progress : Bool
  checkpoint : Bool

/-- src/crosscat/loomcat.py:196-207 `_validate_transition`. -/
def validate (a : Args) : Except Exn Unit :=
  if a.S then .error .valueError
  else if a.kernels then .error .valueError
  else if a.progress then .error .valueError
  else if a.checkpoint then .error .valueError
  else .ok ()

/-- Loom: the project, the seed, `extra_passes`. -/
abbrev Infer (C : Cat) := Project C → Nat → Option Nat → Except Exn LoomSample

/-- src/crosscat/loomcat.py:280-294: inference in the project, and the import of the sample.  A
directory without files makes Loom raise. -/
noncomputable def infer (run : Infer C) (alphas : Nat → ℝ) (a : Args) (store : Store C) (p : Nat)
    (s : State C) : Out (State C) :=
  match store.get? p with
  | none => .err .runtime s
  | some pr =>
    match run pr (a.seed.getD 0) (some (a.N.getD 1)) with
    | .error e => .err e s
    | .ok x => x.update alphas s

/-- src/crosscat/loomcat.py:266-294 `transition`. -/
noncomputable def transition (st : C.ι → Option LoomType) (run : Infer C) (alphas : Nat → ℝ)
    (now : Nat) (a : Args) (w : Store C × Member C) : Out (Store C × Member C) :=
  match validate a with
  | .error e => .err e w
  | .ok () =>
    match project st now w.1 w.2 with
    | .error e => .err e w
    | .ok (store, p) =>
      match infer run alphas a store p w.2.state with
      | .err e s => .err e (store, ⟨s, some p⟩)
      | .ok s => .ok (store, ⟨s, some p⟩)

/-- The body of the worker of src/crosscat/loomcat.py:329-332 for the State `i`; the sample of the
chain `i` was made at L322-326. -/
noncomputable def updateAt (run : Infer C) (alphas : Nat → Nat → ℝ) (a : Args) (pr : Project C) (p : Nat)
    (q : Member C × Nat) : Except Exn (Member C) :=
  match run pr q.2 a.N with
  | .error e => .error e
  | .ok x =>
    match x.update (alphas q.2) q.1.state with
    | .err e _ => .error e
    | .ok s => .ok ⟨s, some p⟩

/-- src/crosscat/loomcat.py:297-332 `transition_engine`.  The workers have copies: a State is
replaced only when all workers have answered.  The number of passes is handed over as it is.
Without States L316 raises IndexError. -/
noncomputable def transitionEngine (st : C.ι → Option LoomType) (run : Infer C)
    (alphas : Nat → Nat → ℝ) (now : Nat) (a : Args) (w : Store C × List (Member C)) :
    Out (Store C × List (Member C)) :=
  match validate a with
  | .error e => .err e w
  | .ok () =>
    match w.2 with
    | [] => .err .indexError w
    | m :: _ =>
      if ¬ w.2.all (fun q => q.path == m.path) then .err .assertion w
      else
        match project st now w.1 m with
        | .error e => .err e w
        | .ok (store, p) =>
          let members := w.2.map fun q => { q with path := some p }
          match store.get? p with
          | none => .err .runtime (store, members)
          | some pr =>
            match Net.collect (updateAt run alphas a pr p) members.zipIdx with
            | .error e => .err e (store, members)
            | .ok ms => .ok (store, ms)

end Loom
end Cgpm
