import Verif.Model.ParallelMap
import Mathlib.Data.List.Count
import Mathlib.Data.List.Nodup
import Mathlib.Data.List.Range

/-! Invariant of the transition system of `parallel_map`. -/
namespace Cgpm.PMap
open Function (update)

variable {α β : Type}

/-- What a worker and its two pipes are doing. -/
inductive Slot where
  | empty
  | sent (i : Nat)
  | busy (i : Nat)
  | ans (i : Nat)
  | told (i : Nat)
  | posted (i : Nat)
  | lost (i : Nat)
  | cancelled
  | gone

/-- The answer a worker gives to task `i`. -/
def answer (f : α → Outcome β) (l : List α) (i : Nat) : Option β :=
  match l[i]? with
  | none => none
  | some x =>
    match f x with
    | .value y => some y
    | .raises => none
    | .exits => none

namespace Slot

def inq : Slot → List (Option Nat)
  | sent i => [some i]
  | cancelled => [none]
  | _ => []

def out (A : Nat → Option β) : Slot → List (Nat × Option β)
  | posted i => [(i, A i)]
  | _ => []

def wk (A : Nat → Option β) : Slot → Worker β
  | busy i => .busy i
  | ans i => .answered i (A i)
  | told i => .told i (A i)
  | lost _ => .gone
  | gone => .gone
  | _ => .idle

def task : Slot → Option Nat
  | sent i => some i
  | busy i => some i
  | ans i => some i
  | told i => some i
  | posted i => some i
  | lost i => some i
  | _ => none

/-- the task has been computed -/
def replied : Slot → Option Nat
  | ans i => some i
  | told i => some i
  | posted i => some i
  | _ => none

/-- the child number has been written -/
def op : Slot → Prop
  | told _ => True
  | posted _ => True
  | _ => False

def over : Slot → Prop
  | cancelled => True
  | gone => True
  | _ => False

end Slot

/-- tasks not handed out yet -/
def pending : Parent → List Nat
  | .prime ps rest => ps.map Prod.snd ++ rest
  | .feed rest => rest
  | .feedRecv _ i rest => i :: rest
  | .feedSend _ i rest => i :: rest
  | _ => []

/-- the parent has read `j` -/
def reading (p : Parent) (j : Nat) : Prop := ∃ next, afterRecv p = some (j, next)

/-- what the phase of the parent says about the workers -/
def phase (ncpu : Nat) (σ : Nat → Slot) : Parent → Prop
  | .prime ps rest => (∀ j ∈ ps.map Prod.fst, σ j = .empty ∧ j < ncpu) ∧ (ps.map Prod.fst).Nodup ∧
      (rest ≠ [] → ∀ j < ncpu, j ∈ ps.map Prod.fst ∨ (σ j).task ≠ none) ∧ ∀ j, ¬ (σ j).over
  | .feed rest => (rest ≠ [] → ∀ j < ncpu, (σ j).task ≠ none) ∧ ∀ j, ¬ (σ j).over
  | .feedRecv _ _ _ => (∀ j < ncpu, (σ j).task ≠ none) ∧ ∀ j, ¬ (σ j).over
  | .feedSend j _ _ => σ j = .empty ∧ j < ncpu ∧ (∀ j' < ncpu, j' ≠ j → (σ j').task ≠ none) ∧
      ∀ j, ¬ (σ j).over
  | .drain => ∀ j, ¬ (σ j).over
  | .drainRecv _ => ∀ j, ¬ (σ j).over
  | .cancel js => js.Nodup ∧ (∀ j ∈ js, σ j = .empty ∧ j < ncpu) ∧
      ∀ j < ncpu, j ∉ js → (σ j).over
  | .join js => (∀ j ∈ js, j < ncpu) ∧ ∀ j < ncpu, (σ j).over
  | .done => ∀ j < ncpu, (σ j).over
  | .raised => True

def finishing : Parent → Prop
  | .cancel _ => True
  | .join _ => True
  | .done => True
  | _ => False

structure Good (f : α → Outcome β) (l : List α) (ncpu : Nat) (σ : Nat → Slot) (s : St β) : Prop where
  inq : s.inq = fun j => (σ j).inq
  out : s.outq = fun j => (σ j).out (answer f l)
  wk : s.worker = fun j => (σ j).wk (answer f l)
  hi : ∀ j, ncpu ≤ j → σ j = .empty
  nodup : s.retq.Nodup
  retq : ∀ j, j ∈ s.retq ↔ (σ j).op ∧ ¬ reading s.parent j
  rd : ∀ j, reading s.parent j → (σ j).op
  lost : ∀ j i, σ j = .lost i → ∃ x, l[i]? = some x ∧ f x = .exits
  alive : ∀ j i, (σ j).replied = some i → ∀ x, l[i]? = some x → f x ≠ .exits
  task : ∀ j i, (σ j).task = some i → s.fl[i]? = some none ∧ i ∉ pending s.parent ∧
    ∀ j', (σ j').task = some i → j' = j
  pnodup : (pending s.parent).Nodup
  pend : ∀ i ∈ pending s.parent, s.fl[i]? = some none
  cover : ∀ (i : Nat), s.fl[i]? = some none → i ∈ pending s.parent ∨ ∃ j, (σ j).task = some i
  vals : ∀ (i : Nat) (y : β), s.fl[i]? = some (some y) → ∃ x, l[i]? = some x ∧ f x = .value y
  len : s.fl.length = l.length
  ctr : s.ctr = (s.fl.filter Option.isNone).length
  ph : phase ncpu σ s.parent
  fin : finishing s.parent → s.ctr = 0

/-- The invariant. -/
def Inv (f : α → Outcome β) (l : List α) (ncpu : Nat) (s : St β) : Prop :=
  (s.parent = .raised ∧ ∃ x ∈ l, f x = .raises) ∨
    (s.parent ≠ .raised ∧ ∃ σ, Good f l ncpu σ s)

theorem map_update {γ : Type} (g : Slot → γ) (σ : Nat → Slot) (j : Nat) (t : Slot) :
    update (fun j => g (σ j)) j (g t) = fun j' => g (update σ j t j') := by
  funext j'
  by_cases h : j' = j
  · subst h; simp
  · simp [h]

theorem map_update_same {γ : Type} (g : Slot → γ) (σ : Nat → Slot) (j : Nat) (t : Slot)
    (h : g (σ j) = g t) : (fun j => g (σ j)) = fun j' => g (update σ j t j') := by
  funext j'
  by_cases e : j' = j
  · subst e; simp [h]
  · simp [e]

variable {f : α → Outcome β} {l : List α} {ncpu cap : Nat} {fits : Nat → Bool}

theorem not_reading_of {p : Parent} (h : afterRecv p = none) (j : Nat) : ¬ reading p j := by
  rintro ⟨n, hn⟩; rw [h] at hn; cases hn

theorem op_task {t : Slot} (h : t.op) : t.task ≠ none := by
  cases t <;> simp_all [Slot.op, Slot.task]

/-- A worker goes on with its task. -/
theorem Good.advance {σ : Nat → Slot} {s s' : St β} (h : Good f l ncpu σ s) {j i : Nat} {t : Slot}
    (hj : j < ncpu) (h0 : (σ j).task = some i) (h1 : t.task = some i)
    (hp : s'.parent = s.parent) (hfl : s'.fl = s.fl) (hc : s'.ctr = s.ctr)
    (hin : s'.inq = fun j' => (update σ j t j').inq)
    (hout : s'.outq = fun j' => (update σ j t j').out (answer f l))
    (hwk : s'.worker = fun j' => (update σ j t j').wk (answer f l))
    (hn : s'.retq.Nodup) (hop : (σ j).op → t.op)
    (hret : ∀ j', j' ∈ s'.retq ↔ (update σ j t j').op ∧ ¬ reading s.parent j')
    (hlost : ∀ i', t = .lost i' → ∃ x, l[i']? = some x ∧ f x = .exits)
    (hal : ∀ i', t.replied = some i' → ∀ x, l[i']? = some x → f x ≠ .exits) :
    Good f l ncpu (update σ j t) s' := by
  have htask : ∀ j', (update σ j t j').task = (σ j').task := by
    intro j'
    by_cases e : j' = j
    · subst e; simp [h0, h1]
    · simp [e]
  have hempty : ∀ j', update σ j t j' = .empty ↔ σ j' = .empty := by
    intro j'
    by_cases e : j' = j
    · subst e
      simp only [Function.update_self]
      constructor
      · intro e; rw [e] at h1; cases h1
      · intro e; rw [e] at h0; cases h0
    · simp [e]
  have hover : ∀ j', (update σ j t j').over ↔ (σ j').over := by
    intro j'
    by_cases e : j' = j
    · subst e
      simp only [Function.update_self]
      constructor
      · intro e; cases t <;> simp_all [Slot.over, Slot.task]
      · intro e; cases hσ : σ j' <;> simp_all [Slot.over, Slot.task]
    · simp [e]
  refine ⟨hin, hout, hwk, ?_, hn, ?_, ?_, ?_, ?_, ?_, ?_, ?_, ?_, ?_, ?_, ?_, ?_, ?_⟩
  · intro j' hj'
    have : j' ≠ j := by omega
    simp [this, h.hi j' hj']
  · intro j'; rw [hp]; exact hret j'
  · intro j' hr
    rw [hp] at hr
    by_cases e : j' = j
    · subst e; simpa using hop (h.rd _ hr)
    · simpa [e] using h.rd _ hr
  · intro j' i' e
    by_cases e' : j' = j
    · subst e'; exact hlost i' (by simpa using e)
    · exact h.lost j' i' (by simpa [e'] using e)
  · intro j' i' e
    by_cases e' : j' = j
    · subst e'; exact hal i' (by simpa using e)
    · exact h.alive j' i' (by simpa [e'] using e)
  · intro j' i'
    simp only [htask, hfl, hp]
    exact h.task j' i'
  · rw [hp]; exact h.pnodup
  · rw [hp, hfl]; exact h.pend
  · simp only [htask, hfl, hp]; exact h.cover
  · rw [hfl]; exact h.vals
  · rw [hfl]; exact h.len
  · rw [hfl, hc]; exact h.ctr
  · have := h.ph
    rw [hp]
    revert this
    cases s.parent <;> simp only [phase, htask, hempty, hover] <;> exact id
  · rw [hp, hc]; exact h.fin

theorem zipIter_props (js is : List Nat) :
    ((zipIter js is).1.map Prod.fst <+: js) ∧
    ((zipIter js is).1.map Prod.snd ++ (zipIter js is).2 = is) ∧
    ((zipIter js is).2 ≠ [] → (zipIter js is).1.map Prod.fst = js) := by
  induction js generalizing is with
  | nil => simp [zipIter]
  | cons j js ih =>
    cases is with
    | nil => simp [zipIter]
    | cons i is =>
      obtain ⟨h1, h2, h3⟩ := ih is
      simp only [zipIter, List.map_cons, List.cons_append]
      refine ⟨by simpa [List.prefix_cons_inj] using h1, by rw [h2], fun h => by rw [h3 h]⟩

theorem good_start : Good f l ncpu (fun _ => .empty) (start l ncpu) := by
  obtain ⟨h1, h2, h3⟩ := zipIter_props (List.range ncpu) (List.range l.length)
  refine ⟨rfl, rfl, rfl, fun _ _ => rfl, List.nodup_nil, ?_, ?_, ?_, ?_, ?_, ?_, ?_, ?_, ?_, ?_, ?_,
    ?_, ?_⟩
  · intro j; simp [start, Slot.op]
  · rintro j ⟨n, hn⟩; simp [start, afterRecv] at hn
  · intro j i e; cases e
  · intro j i e; cases e
  · intro j i e; cases e
  · simp only [start, pending, h2]; exact List.nodup_range
  · intro i hi
    simp only [start, pending, h2, List.mem_range] at hi
    simp [start, List.getElem?_replicate, hi]
  · intro i hi
    left
    simp only [start, pending, h2, List.mem_range]
    simp only [start, List.getElem?_replicate] at hi
    split at hi
    · assumption
    · cases hi
  · intro i y hy
    simp only [start, List.getElem?_replicate] at hy
    split at hy <;> cases hy
  · simp [start]
  · have : List.filter Option.isNone (List.replicate l.length (none : Option β)) =
        List.replicate l.length none := by
      rw [List.filter_eq_self]
      intro a ha
      rw [(List.mem_replicate.mp ha).2]
      rfl
    simp only [start, this, List.length_replicate]
  · refine ⟨fun j hj => ⟨rfl, List.mem_range.mp (h1.subset hj)⟩, ?_, ?_, by simp [Slot.over]⟩
    · exact h1.sublist.nodup List.nodup_range
    · intro hr j hj
      left
      rw [h3 hr]
      exact List.mem_range.mpr hj
  · intro h; simp [start, finishing] at h

theorem count_set {fl : List (Option β)} {i : Nat} {y : β} (h : fl[i]? = some none) :
    ((fl.set i (some y)).filter Option.isNone).length = (fl.filter Option.isNone).length - 1 ∧
      0 < (fl.filter Option.isNone).length := by
  induction fl generalizing i with
  | nil => simp at h
  | cons a t ih =>
    cases i with
    | zero =>
      simp only [List.getElem?_cons_zero, Option.some.injEq] at h
      subst h
      simp
    | succ i =>
      simp only [List.getElem?_cons_succ] at h
      obtain ⟨h1, h2⟩ := ih h
      rw [List.set_cons_succ]
      cases a with
      | none =>
        simp only [List.filter_cons, Option.isNone_none, if_true, List.length_cons, h1]
        omega
      | some b =>
        simp only [List.filter_cons, Option.isNone_some, Bool.false_eq_true, if_false, h1]
        exact ⟨trivial, h2⟩

/-- The parent takes the answer to task `i` from worker `j`. -/
theorem Good.receive {σ : Nat → Slot} {s s' : St β} (h : Good f l ncpu σ s) {j i : Nat} {y : β}
    {next : Parent} (hj : j < ncpu) (ha : afterRecv s.parent = some (j, next))
    (h0 : (σ j).task = some i) (hy : answer f l i = some y)
    (hp : s'.parent = next) (hfl : s'.fl = s.fl.set i (some y)) (hc : s'.ctr = s.ctr - 1)
    (hin : s'.inq = fun j' => (update σ j .empty j').inq)
    (hout : s'.outq = fun j' => (update σ j .empty j').out (answer f l))
    (hwk : s'.worker = fun j' => (update σ j .empty j').wk (answer f l))
    (hq : s'.retq = s.retq) :
    Good f l ncpu (update σ j .empty) s' := by
  obtain ⟨t1, t2, t3⟩ := h.task j i h0
  have hpend : pending next = pending s.parent ∧ afterRecv next = none := by
    cases hpar : s.parent <;> rw [hpar] at ha <;> simp only [afterRecv, reduceCtorEq] at ha <;>
      cases ha <;> exact ⟨rfl, rfl⟩
  have htask : ∀ j' i', (update σ j .empty j').task = some i' ↔ (σ j').task = some i' ∧ j' ≠ j := by
    intro j' i'
    by_cases e : j' = j
    · subst e; simp [Slot.task]
    · simp [e]
  have hlt : i < s.fl.length := by
    by_contra hge
    rw [List.getElem?_eq_none (not_lt.mp hge)] at t1
    cases t1
  have hget : ∀ i', s'.fl[i']? = if i' = i then some (some y) else s.fl[i']? := by
    intro i'
    rw [hfl, List.getElem?_set]
    by_cases e : i = i'
    · subst e; simp [hlt]
    · simp [e, Ne.symm e]
  have hcount := count_set (y := y) t1
  refine ⟨hin, hout, hwk, ?_, by rw [hq]; exact h.nodup, ?_, ?_, ?_, ?_, ?_, ?_, ?_, ?_, ?_, ?_, ?_, ?_,
    ?_⟩
  · intro j' hj'
    have : j' ≠ j := by omega
    simp [this, h.hi j' hj']
  · intro j'
    rw [hq, h.retq, hp]
    have hnr := not_reading_of hpend.2 j'
    by_cases e : j' = j
    · subst e
      have : reading s.parent j' := ⟨_, ha⟩
      simp [Slot.op, this]
    · have : ¬ reading s.parent j' := by
        rintro ⟨n, hn⟩; rw [ha] at hn; cases hn; exact e rfl
      simp [e, this, hnr]
  · intro j' hr
    rw [hp] at hr
    exact absurd hr (not_reading_of hpend.2 j')
  · intro j' i' e
    by_cases e' : j' = j
    · subst e'; simp at e
    · exact h.lost j' i' (by simpa [e'] using e)
  · intro j' i' e
    by_cases e' : j' = j
    · subst e'; simp [Slot.replied] at e
    · exact h.alive j' i' (by simpa [e'] using e)
  · intro j' i' e
    rw [htask] at e
    obtain ⟨u1, u2, u3⟩ := h.task j' i' e.1
    have hne : i' ≠ i := by
      rintro rfl
      exact e.2 (t3 j' e.1)
    rw [hget, if_neg hne, hp, hpend.1]
    refine ⟨u1, u2, fun j'' hj'' => u3 j'' ((htask _ _).mp hj'').1⟩
  · rw [hp, hpend.1]; exact h.pnodup
  · intro i' hi'
    rw [hp, hpend.1] at hi'
    have hne : i' ≠ i := by rintro rfl; exact t2 hi'
    rw [hget, if_neg hne]
    exact h.pend i' hi'
  · intro i' hi'
    rw [hget] at hi'
    by_cases e : i' = i
    · rw [if_pos e] at hi'; cases hi'
    · rw [if_neg e] at hi'
      rw [hp, hpend.1]
      rcases h.cover i' hi' with hl | ⟨j', hj'⟩
      · exact Or.inl hl
      · refine Or.inr ⟨j', (htask _ _).mpr ⟨hj', ?_⟩⟩
        rintro rfl
        rw [h0] at hj'
        cases hj'
        exact e rfl
  · intro i' y' hy'
    rw [hget] at hy'
    by_cases e : i' = i
    · rw [if_pos e] at hy'
      cases hy'
      subst e
      unfold answer at hy
      cases hl : l[i']? with
      | none => rw [hl] at hy; cases hy
      | some x =>
        rw [hl] at hy
        refine ⟨x, rfl, ?_⟩
        simp only at hy
        cases hf : f x with
        | value z => rw [hf] at hy; cases hy; rfl
        | raises => rw [hf] at hy; cases hy
        | exits => rw [hf] at hy; cases hy
    · rw [if_neg e] at hy'; exact h.vals i' y' hy'
  · rw [hfl, List.length_set]; exact h.len
  · rw [hc, hfl, hcount.1, h.ctr]
  · have hph := h.ph
    have hov : ∀ j', ¬ (σ j').over → ¬ (update σ j .empty j').over := by
      intro j' hn
      by_cases e : j' = j
      · subst e; simp [Slot.over]
      · simpa [e] using hn
    cases hpar : s.parent <;> rw [hpar] at ha hph <;>
      simp only [afterRecv, reduceCtorEq] at ha <;> cases ha
    · rw [hp]
      refine ⟨by simp, hj, fun j' hj' hne => ?_, fun j' => hov j' (hph.2 j')⟩
      simp only [ne_eq, hne, not_false_eq_true, Function.update_of_ne]
      exact hph.1 j' hj'
    · rw [hp]
      exact fun j' => hov j' (hph j')
  · intro hf
    rw [hp] at hf
    cases hpar : s.parent <;> rw [hpar] at ha <;> simp only [afterRecv, reduceCtorEq] at ha <;>
      cases ha <;> exact hf.elim

/-- The parent hands out task `i` to worker `j`. -/
theorem Good.handOut {σ : Nat → Slot} {s s' : St β} (h : Good f l ncpu σ s) {j i : Nat}
    (hj : j < ncpu) (h0 : σ j = .empty) {p' : Parent} (hp : s'.parent = p')
    (hpend : pending s.parent = i :: pending p') (ha : afterRecv s.parent = none)
    (ha' : afterRecv p' = none)
    (hfl : s'.fl = s.fl) (hc : s'.ctr = s.ctr)
    (hin : s'.inq = fun j' => (update σ j (.sent i) j').inq)
    (hout : s'.outq = fun j' => (update σ j (.sent i) j').out (answer f l))
    (hwk : s'.worker = fun j' => (update σ j (.sent i) j').wk (answer f l))
    (hq : s'.retq = s.retq) (hph : phase ncpu (update σ j (.sent i)) p') (hfin : ¬ finishing p') :
    Good f l ncpu (update σ j (.sent i)) s' := by
  have hnd := h.pnodup
  rw [hpend, List.nodup_cons] at hnd
  have hi := h.pend i (by rw [hpend]; simp)
  refine ⟨hin, hout, hwk, ?_, by rw [hq]; exact h.nodup, ?_, ?_, ?_, ?_, ?_, ?_, ?_, ?_, ?_, ?_, ?_, ?_,
    ?_⟩
  · intro j' hj'
    have : j' ≠ j := by omega
    simp [this, h.hi j' hj']
  · intro j'
    rw [hq, h.retq, hp]
    have h1 := not_reading_of ha j'
    have h2 := not_reading_of ha' j'
    by_cases e : j' = j
    · subst e; simp [h0, Slot.op]
    · simp [e, h1, h2]
  · intro j' hr; rw [hp] at hr; exact absurd hr (not_reading_of ha' j')
  · intro j' i' e
    by_cases e' : j' = j
    · subst e'; simp at e
    · exact h.lost j' i' (by simpa [e'] using e)
  · intro j' i' e
    by_cases e' : j' = j
    · subst e'; simp [Slot.replied] at e
    · exact h.alive j' i' (by simpa [e'] using e)
  · intro j' i' e
    rw [hfl, hp]
    by_cases e' : j' = j
    · subst e'
      simp only [Function.update_self, Slot.task, Option.some.injEq] at e
      subst e
      refine ⟨hi, hnd.1, fun j'' hj'' => ?_⟩
      by_contra hne
      simp only [ne_eq, hne, not_false_eq_true, Function.update_of_ne] at hj''
      exact (h.task j'' _ hj'').2.1 (by rw [hpend]; simp)
    · simp only [ne_eq, e', not_false_eq_true, Function.update_of_ne] at e
      obtain ⟨u1, u2, u3⟩ := h.task j' i' e
      rw [hpend, List.mem_cons, not_or] at u2
      refine ⟨u1, u2.2, fun j'' hj'' => ?_⟩
      by_cases e'' : j'' = j
      · subst e''
        simp only [Function.update_self, Slot.task, Option.some.injEq] at hj''
        exact absurd hj''.symm u2.1
      · simp only [ne_eq, e'', not_false_eq_true, Function.update_of_ne] at hj''
        exact u3 j'' hj''
  · rw [hp]; exact hnd.2
  · intro i' hi'
    rw [hp] at hi'
    rw [hfl]
    exact h.pend i' (by rw [hpend]; simp [hi'])
  · intro i' hi'
    rw [hfl] at hi'
    rw [hp]
    rcases h.cover i' hi' with hl | ⟨j', hj'⟩
    · rw [hpend] at hl
      rcases List.mem_cons.mp hl with rfl | hl
      · exact Or.inr ⟨j, by simp [Slot.task]⟩
      · exact Or.inl hl
    · refine Or.inr ⟨j', ?_⟩
      have : j' ≠ j := by rintro rfl; rw [h0] at hj'; cases hj'
      simpa [this] using hj'
  · rw [hfl]; exact h.vals
  · rw [hfl]; exact h.len
  · rw [hfl, hc]; exact h.ctr
  · rw [hp]; exact hph
  · rw [hp]; exact fun e => absurd e hfin

/-- The parent moves on alone. -/
theorem Good.move {σ : Nat → Slot} {s s' : St β} (h : Good f l ncpu σ s) {p' : Parent}
    (hp : s'.parent = p') (hpend : pending s.parent = pending p')
    (hfl : s'.fl = s.fl) (hc : s'.ctr = s.ctr) (hin : s'.inq = s.inq) (hout : s'.outq = s.outq)
    (hwk : s'.worker = s.worker) (hn : s'.retq.Nodup)
    (hret : ∀ j', j' ∈ s'.retq ↔ (σ j').op ∧ ¬ reading p' j')
    (hrd : ∀ j', reading p' j' → (σ j').op)
    (hph : phase ncpu σ p') (hfin : finishing p' → s.ctr = 0) :
    Good f l ncpu σ s' := by
  refine ⟨hin.trans h.inq, hout.trans h.out, hwk.trans h.wk, h.hi, hn, by rw [hp]; exact hret,
    by rw [hp]; exact hrd, h.lost, h.alive, ?_, ?_, ?_, ?_, ?_, ?_, ?_, by rw [hp]; exact hph,
    by rw [hp, hc]; exact hfin⟩
  · rw [hfl, hp, ← hpend]; exact h.task
  · rw [hp, ← hpend]; exact h.pnodup
  · rw [hp, hfl, ← hpend]; exact h.pend
  · rw [hp, hfl, ← hpend]; exact h.cover
  · rw [hfl]; exact h.vals
  · rw [hfl]; exact h.len
  · rw [hfl, hc]; exact h.ctr

/-- A worker is told to stop, or stops. -/
theorem Good.windUp {σ : Nat → Slot} {s s' : St β} (h : Good f l ncpu σ s) {j : Nat} {t : Slot}
    (hj : j < ncpu) (h0 : (σ j).task = none) (h1 : t.task = none) (hop : ¬ t.op)
    {p' : Parent} (hp : s'.parent = p')
    (hpend : pending s.parent = pending p') (ha : afterRecv s.parent = none)
    (ha' : afterRecv p' = none)
    (hfl : s'.fl = s.fl) (hc : s'.ctr = s.ctr)
    (hin : s'.inq = fun j' => (update σ j t j').inq)
    (hout : s'.outq = fun j' => (update σ j t j').out (answer f l))
    (hwk : s'.worker = fun j' => (update σ j t j').wk (answer f l))
    (hq : s'.retq = s.retq) (hph : phase ncpu (update σ j t) p')
    (hfin : finishing p' → s.ctr = 0) :
    Good f l ncpu (update σ j t) s' := by
  have htask : ∀ j', (update σ j t j').task = (σ j').task := by
    intro j'
    by_cases e : j' = j
    · subst e; simp [h0, h1]
    · simp [e]
  refine ⟨hin, hout, hwk, ?_, by rw [hq]; exact h.nodup, ?_, ?_, ?_, ?_, ?_, ?_, ?_, ?_, ?_, ?_, ?_,
    by rw [hp]; exact hph, by rw [hp, hc]; exact hfin⟩
  · intro j' hj'
    have : j' ≠ j := by omega
    simp [this, h.hi j' hj']
  · intro j'
    rw [hq, h.retq, hp]
    have h1 := not_reading_of ha j'
    have h2 := not_reading_of ha' j'
    by_cases e : j' = j
    · subst e
      have : ¬ (σ j').op := fun h => op_task h h0
      simp [this, hop]
    · simp [e, h1, h2]
  · intro j' hr; rw [hp] at hr; exact absurd hr (not_reading_of ha' j')
  · intro j' i' e
    by_cases e' : j' = j
    · subst e'
      simp only [Function.update_self] at e
      rw [e] at h1; cases h1
    · exact h.lost j' i' (by simpa [e'] using e)
  · intro j' i' e
    by_cases e' : j' = j
    · subst e'
      simp only [Function.update_self] at e
      cases t <;> simp_all [Slot.replied, Slot.task]
    · exact h.alive j' i' (by simpa [e'] using e)
  · intro j' i'; simp only [htask, hfl, hp, ← hpend]; exact h.task j' i'
  · rw [hp, ← hpend]; exact h.pnodup
  · rw [hp, hfl, ← hpend]; exact h.pend
  · simp only [htask, hp, hfl, ← hpend]; exact h.cover
  · rw [hfl]; exact h.vals
  · rw [hfl]; exact h.len
  · rw [hfl, hc]; exact h.ctr

end Cgpm.PMap
