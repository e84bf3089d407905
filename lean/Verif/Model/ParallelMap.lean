import Mathlib.Data.List.Basic
import Mathlib.Logic.Function.Basic

/-!
Model of src/utils/parallel_map.py: a parent process and `ncpu` worker processes that communicate
through pipes, as a transition system.  One step is one action of one process, so the runs of the
system are all the interleavings of the processes.

Modelled: the pipes, in the order of their writes; the bounded capacity of the return pipe (`cap`
child numbers) and of the output pipes (`fits i` says whether the pickled answer of task `i` fits
into the pipe's buffer; if it does not, the worker's `send` and the parent's `recv` take place
together); the `zip` of L89, which is the eager one of Python 2 and takes an item from its first
argument before it takes one from its second.
Simplified: an input pipe has room for one message (they are small and there is never more than
one in it); after an exception the run is over (the workers are terminated); pickling errors are
exceptions of the task.  Not modelled: death of a worker for reasons outside `f`, and the closing of
the pipes.
-/
namespace Cgpm
namespace PMap

/-- What a call `f(x)` does in the worker: return, raise an `Exception`, or raise one of the
exceptions that `except Exception` (L51) does not catch, such as `SystemExit`. -/
inductive Outcome (β : Type) where
  | value (y : β)
  | raises
  | exits

/-- Where a worker is in `process_input` (L43-57): at L45; at L48-52; at L53; at L55; gone.
The answer is `none` for `ok = False`. -/
inductive Worker (β : Type) where
  | idle
  | busy (i : Nat)
  | answered (i : Nat) (r : Option β)
  | told (i : Nat) (r : Option β)
  | gone

/-- Where the parent is: the loop of L89-90 with the pairs still to be sent; the head of the loop
of L91; at L93 after having read `j`; at L94; the head of the loop of L97; at L99; the loop of
L102; the loop of L106; returned (L126); raised (L114). -/
inductive Parent where
  | prime (pairs : List (Nat × Nat)) (rest : List Nat)
  | feed (rest : List Nat)
  | feedRecv (j i : Nat) (rest : List Nat)
  | feedSend (j i : Nat) (rest : List Nat)
  | drain
  | drainRecv (j : Nat)
  | cancel (js : List Nat)
  | join (js : List Nat)
  | done
  | raised

/-- The processes and the pipes. -/
structure St (β : Type) where
  parent : Parent
  fl : List (Option β)
  ctr : Nat
  retq : List Nat
  inq : Nat → List (Option Nat)
  outq : Nat → List (Nat × Option β)
  worker : Nat → Worker β

variable {α β : Type}

/-- `zip(xs, it)` in Python 2, with an iterator as second argument: the pairs, and what is left in
the iterator. -/
def zipIter : List Nat → List Nat → List (Nat × Nat) × List Nat
  | [], is => ([], is)
  | _ :: _, [] => ([], [])
  | j :: js, i :: is => ((j, i) :: (zipIter js is).1, (zipIter js is).2)

/-- src/utils/parallel_map.py:66-89: the state when the workers have been started. -/
def start (l : List α) (ncpu : Nat) : St β where
  parent := .prime (zipIter (List.range ncpu) (List.range l.length)).1
    (zipIter (List.range ncpu) (List.range l.length)).2
  fl := List.replicate l.length none
  ctr := l.length
  retq := []
  inq := fun _ => []
  outq := fun _ => []
  worker := fun _ => .idle

/-- src/utils/parallel_map.py:59-64 `process_output`, and where the parent goes on. -/
def processOutput (s : St β) (out : Nat × Option β) (next : Parent) : St β :=
  match out.2 with
  | none => { s with parent := .raised }
  | some y => { s with fl := s.fl.set out.1 (some y), ctr := s.ctr - 1, parent := next }

/-- Where the parent goes after L93 or L99, if it is there with `j` read. -/
def afterRecv : Parent → Option (Nat × Parent)
  | .feedRecv j i rest => some (j, .feedSend j i rest)
  | .drainRecv j => some (j, .drain)
  | _ => none

/-- What the worker does at L48-52 with input `i`. An index out of range would kill it. -/
def compute (f : α → Outcome β) (l : List α) (i : Nat) : Worker β :=
  match l[i]? with
  | none => .gone
  | some x =>
    match f x with
    | .value y => .answered i (some y)
    | .raises => .answered i none
    | .exits => .gone

open Function (update)

/-- One action of one process. -/
inductive Step (f : α → Outcome β) (l : List α) (ncpu cap : Nat) (fits : Nat → Bool) :
    St β → St β → Prop
  -- the parent
  /-- L90 -/
  | primeSend {s j i ps rest} : s.parent = .prime ((j, i) :: ps) rest → s.inq j = [] →
      Step f l ncpu cap fits s { s with parent := .prime ps rest, inq := update s.inq j [some i] }
  | primeEnd {s rest} : s.parent = .prime [] rest →
      Step f l ncpu cap fits s { s with parent := .feed rest }
  /-- L91-92 -/
  | feedRead {s i rest j q} : s.parent = .feed (i :: rest) → s.retq = j :: q →
      Step f l ncpu cap fits s { s with parent := .feedRecv j i rest, retq := q }
  | feedEnd {s} : s.parent = .feed [] → Step f l ncpu cap fits s { s with parent := .drain }
  /-- L93 or L99, the answer being in the pipe -/
  | recv {s j next out q} : afterRecv s.parent = some (j, next) → j < ncpu →
      s.outq j = out :: q →
      Step f l ncpu cap fits s
        (processOutput { s with outq := update s.outq j q } out next)
  /-- L93 or L99 together with the worker's L55, the answer being too large for the pipe -/
  | transfer {s j next i r} : afterRecv s.parent = some (j, next) → j < ncpu → s.outq j = [] →
      s.worker j = .told i r → fits i = false →
      Step f l ncpu cap fits s
        (processOutput { s with worker := update s.worker j .idle } (i, r) next)
  /-- `outq[j]` with `j` out of range -/
  | badIndex {s j next} : afterRecv s.parent = some (j, next) → ncpu ≤ j →
      Step f l ncpu cap fits s { s with parent := .raised }
  /-- L94 -/
  | feedSend {s j i rest} : s.parent = .feedSend j i rest → s.inq j = [] →
      Step f l ncpu cap fits s { s with parent := .feed rest, inq := update s.inq j [some i] }
  /-- L97-98 -/
  | drainRead {s j q} : s.parent = .drain → 0 < s.ctr → s.retq = j :: q →
      Step f l ncpu cap fits s { s with parent := .drainRecv j, retq := q }
  | drainEnd {s} : s.parent = .drain → s.ctr = 0 →
      Step f l ncpu cap fits s { s with parent := .cancel (List.range ncpu) }
  /-- L103 -/
  | cancelSend {s j js} : s.parent = .cancel (j :: js) → s.inq j = [] →
      Step f l ncpu cap fits s { s with parent := .cancel js, inq := update s.inq j [none] }
  | cancelEnd {s} : s.parent = .cancel [] →
      Step f l ncpu cap fits s { s with parent := .join (List.range ncpu) }
  /-- L107 -/
  | joined {s j js} : s.parent = .join (j :: js) → s.worker j = .gone →
      Step f l ncpu cap fits s { s with parent := .join js }
  /-- L126 -/
  | finish {s} : s.parent = .join [] → Step f l ncpu cap fits s { s with parent := .done }
  -- worker j
  /-- L45 -/
  | get {s j i q} : j < ncpu → s.worker j = .idle → s.inq j = some i :: q →
      Step f l ncpu cap fits s
        { s with inq := update s.inq j q, worker := update s.worker j (.busy i) }
  /-- L46-47 -/
  | stop {s j q} : j < ncpu → s.worker j = .idle → s.inq j = none :: q →
      Step f l ncpu cap fits s
        { s with inq := update s.inq j q, worker := update s.worker j .gone }
  /-- L48-52 -/
  | work {s j i} : j < ncpu → s.worker j = .busy i →
      Step f l ncpu cap fits s { s with worker := update s.worker j (compute f l i) }
  /-- L53 -/
  | tell {s j i r} : j < ncpu → s.worker j = .answered i r → s.retq.length < cap →
      Step f l ncpu cap fits s
        { s with retq := s.retq ++ [j], worker := update s.worker j (.told i r) }
  /-- L55, the answer fitting into the pipe -/
  | put {s j i r} : j < ncpu → s.worker j = .told i r → s.outq j = [] → fits i = true →
      Step f l ncpu cap fits s
        { s with outq := update s.outq j [(i, r)], worker := update s.worker j .idle }

/-- The states of the runs of `parallel_map(f, l, ncpu)`. -/
inductive Reach (f : α → Outcome β) (l : List α) (ncpu cap : Nat) (fits : Nat → Bool) :
    St β → Prop
  | start : Reach f l ncpu cap fits (start l ncpu)
  | step {s s'} : Reach f l ncpu cap fits s → Step f l ncpu cap fits s s' →
      Reach f l ncpu cap fits s'

end PMap
end Cgpm
