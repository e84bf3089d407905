/-
Python run-time notions shared by the whole model: exceptions as values,
outcomes that keep the state left behind by a raise, and insertion-ordered
dictionaries.  Nothing in this file models a file of /repo; it models the parts
of the Python 2 semantics that /repo relies on.
-/
namespace Cgpm

/-- Python exceptions raised by the modelled code (messages are dropped). -/
inductive Exn
  | valueError | keyError | assertion | typeError | indexError | runtime | zeroDivision
  deriving DecidableEq, Repr

/-- Outcome of a mutating call: it returns normally in state `s`, or raises `e`
and leaves the object in state `s` (Python does not roll back). -/
inductive Out (σ : Type) : Type
  | ok (s : σ)
  | err (e : Exn) (s : σ)
  deriving DecidableEq, Repr

namespace Out
variable {σ τ : Type}

/-- The state in which the object is left, whether or not the call raised. -/
def state : Out σ → σ
  | ok s => s
  | err _ s => s

@[simp] theorem state_ok (s : σ) : (ok s).state = s := rfl
@[simp] theorem state_err (e : Exn) (s : σ) : (err e s).state = s := rfl

/-- Did the call return normally? -/
def isOk : Out σ → Bool
  | ok _ => true
  | err _ _ => false

@[simp] theorem isOk_ok (s : σ) : (ok s).isOk = true := rfl
@[simp] theorem isOk_err (e : Exn) (s : σ) : (err e s).isOk = false := rfl

/-- Sequencing: continue only when the first call returned normally. -/
def bind : Out σ → (σ → Out σ) → Out σ
  | ok s, f => f s
  | err e s, _ => err e s

@[simp] theorem bind_ok (s : σ) (f : σ → Out σ) : (ok s).bind f = f s := rfl
@[simp] theorem bind_err (e : Exn) (s : σ) (f : σ → Out σ) : (err e s).bind f = err e s := rfl

/-- Embed the outcome of a call on a component into the enclosing object. -/
def map (f : σ → τ) : Out σ → Out τ
  | ok s => ok (f s)
  | err e s => err e (f s)

@[simp] theorem map_ok (f : σ → τ) (s : σ) : (ok s).map f = ok (f s) := rfl
@[simp] theorem map_err (f : σ → τ) (e : Exn) (s : σ) : (err e s).map f = err e (f s) := rfl

end Out

/-- Outcome of a call that returns a value and may change the object. -/
inductive Res (σ α : Type) : Type
  | ok (a : α) (s : σ)
  | err (e : Exn) (s : σ)

namespace Res
variable {σ α : Type}

/-- The state left behind. -/
def state : Res σ α → σ
  | ok _ s => s
  | err _ s => s

@[simp] theorem state_ok (a : α) (s : σ) : (ok a s).state = s := rfl
@[simp] theorem state_err (e : Exn) (s : σ) : (err e s : Res σ α).state = s := rfl

end Res

/-- `dict`/`OrderedDict`: association list in insertion order. -/
abbrev Dict (K V : Type) := List (K × V)

namespace Dict
variable {K V : Type} [DecidableEq K]

/-- `d.get(k)` / `d[k]`: `none` stands for a missing key. -/
def get? : Dict K V → K → Option V
  | [], _ => none
  | (k', v) :: t, k => if k' = k then some v else get? t k

/-- `k in d`. -/
def has (d : Dict K V) (k : K) : Bool := (get? d k).isSome

/-- `d[k] = v`: overwrite in place, or append a new key at the end. -/
def set : Dict K V → K → V → Dict K V
  | [], k, v => [(k, v)]
  | (k', v') :: t, k, v => if k' = k then (k, v) :: t else (k', v') :: set t k v

/-- `del d[k]` (the caller checks presence). -/
def erase : Dict K V → K → Dict K V
  | [], _ => []
  | (k', v') :: t, k => if k' = k then erase t k else (k', v') :: erase t k

/-- `d.keys()`. -/
def keys (d : Dict K V) : List K := d.map Prod.fst

/-- `d.values()`. -/
def vals (d : Dict K V) : List V := d.map Prod.snd

/-- The representation invariant of a Python dictionary: keys are unique. -/
def WF (d : Dict K V) : Prop := (keys d).Nodup

/-- `merged(d, e)` / `d.update(e)`: later bindings win. -/
def update (d e : Dict K V) : Dict K V := e.foldl (fun acc p => set acc p.1 p.2) d

end Dict
end Cgpm
