import Verif.Lemmas.ParallelMap
import Mathlib.Algebra.BigOperators.Group.Finset.Basic
import Mathlib.Algebra.Order.BigOperators.Group.Finset

/-! The invariant of `parallel_map` is preserved; absence of deadlock; termination. -/
namespace Cgpm.PMap
open Function (update)

variable {α β : Type} {f : α → Outcome β} {l : List α} {ncpu cap : Nat} {fits : Nat → Bool}

theorem slot_task_lt {σ : Nat → Slot} {s : St β} (h : Good f l ncpu σ s) {j i : Nat}
    (h0 : (σ j).task = some i) : ∃ x, l[i]? = some x := by
  obtain ⟨t1, -, -⟩ := h.task j i h0
  have hlt : i < s.fl.length := by
    by_contra hge
    rw [List.getElem?_eq_none (not_lt.mp hge)] at t1
    cases t1
  rw [h.len] at hlt
  exact ⟨l[i], List.getElem?_eq_getElem hlt⟩

theorem answer_none {i : Nat} {x : α} (hx : l[i]? = some x) (h : answer f l i = none)
    (he : f x ≠ .exits) : f x = .raises := by
  unfold answer at h
  rw [hx] at h
  simp only at h
  cases hf : f x with
  | value y => rw [hf] at h; cases h
  | raises => rfl
  | exits => exact absurd hf he

/-- the slot of an idle worker -/
theorem slot_idle {t : Slot} {A : Nat → Option β} (h : t.wk A = .idle) :
    t = .empty ∨ (∃ i, t = .sent i) ∨ (∃ i, t = .posted i) ∨ t = .cancelled := by
  cases t <;> simp_all [Slot.wk]

theorem inv_step {s s' : St β} (hI : Inv f l ncpu s) (hst : Step f l ncpu cap fits s s') :
    Inv f l ncpu s' := by
  rcases hI with ⟨hr, hx⟩ | ⟨hr, σ, h⟩
  · refine Or.inl ⟨?_, hx⟩
    cases hst <;> simp_all [afterRecv]
  · have huniq : ∀ {j next}, afterRecv s.parent = some (j, next) → reading s.parent j :=
      fun h => ⟨_, h⟩
    cases hst with
    | primeSend hp hin =>
      rename_i j i ps rest
      have hph := h.ph
      rw [hp] at hph
      obtain ⟨p1, p2, p3, p4⟩ := hph
      simp only [List.map_cons, List.mem_cons, List.nodup_cons] at p1 p2 p3
      have hj := p1 j (Or.inl rfl)
      refine Or.inr ⟨by simp, update σ j (.sent i), ?_⟩
      refine h.handOut hj.2 hj.1 rfl (by rw [hp]; simp [pending]) (by rw [hp]; rfl) rfl rfl rfl
        ?_ ?_ ?_ rfl ?_ (by simp [finishing])
      · simp only [h.inq]; exact map_update Slot.inq σ j (.sent i)
      · simp only [h.out]; exact map_update_same (Slot.out (answer f l)) σ j (.sent i) (by rw [hj.1]; rfl)
      · simp only [h.wk]; exact map_update_same (Slot.wk (answer f l)) σ j (.sent i) (by rw [hj.1]; rfl)
      · refine ⟨fun j' hj' => ?_, p2.2, fun hne j' hj' => ?_, fun j' => ?_⟩
        · have : j' ≠ j := by rintro rfl; exact p2.1 hj'
          simp only [ne_eq, this, not_false_eq_true, Function.update_of_ne]
          exact p1 j' (Or.inr hj')
        · by_cases e : j' = j
          · subst e; right; simp [Slot.task]
          · rcases p3 hne j' hj' with (e' | h') | h'
            · exact absurd e' e
            · exact Or.inl h'
            · right; simpa [e] using h'
        · by_cases e : j' = j
          · subst e; simp [Slot.over]
          · simpa [e] using p4 j'
    | primeEnd hp =>
      rename_i rest
      have hph := h.ph
      rw [hp] at hph
      refine Or.inr ⟨by simp, σ, ?_⟩
      refine h.move rfl (by rw [hp]; simp [pending]) rfl rfl rfl rfl rfl h.nodup ?_ ?_ ?_
        (by simp [finishing])
      · intro j
        rw [h.retq]
        have h1 := not_reading_of (p := s.parent) (by rw [hp]; rfl) j
        have h2 := not_reading_of (p := Parent.feed rest) rfl j
        simp [h1, h2]
      · intro j hr; exact absurd hr (not_reading_of rfl j)
      · exact ⟨fun hne j hj => by simpa using hph.2.2.1 hne j hj, hph.2.2.2⟩
    | feedRead hp hq =>
      rename_i i rest j q
      have hph := h.ph
      rw [hp] at hph
      have hjr : j ∈ s.retq := by rw [hq]; simp
      have hop := ((h.retq j).mp hjr).1
      have hnd := h.nodup
      rw [hq, List.nodup_cons] at hnd
      refine Or.inr ⟨by simp, σ, ?_⟩
      refine h.move rfl (by rw [hp]; simp [pending]) rfl rfl rfl rfl rfl hnd.2 ?_ ?_ ?_
        (by simp [finishing])
      · intro j'
        have h1 := not_reading_of (p := s.parent) (by rw [hp]; rfl) j'
        have h2 : reading (Parent.feedRecv j i rest) j' ↔ j' = j := by
          constructor
          · rintro ⟨n, hn⟩; cases hn; rfl
          · rintro rfl; exact ⟨_, rfl⟩
        have h3 := h.retq j'
        rw [hq, List.mem_cons] at h3
        simp only [h1, not_false_eq_true, and_true] at h3
        simp only [h2, ← h3]
        constructor
        · intro hm
          exact ⟨Or.inr hm, fun e => hnd.1 (e ▸ hm)⟩
        · rintro ⟨rfl | hm, hne⟩
          · exact absurd rfl hne
          · exact hm
      · rintro j' ⟨n, hn⟩; cases hn; exact hop
      · exact ⟨hph.1 (by simp), hph.2⟩
    | feedEnd hp =>
      have hph := h.ph
      rw [hp] at hph
      refine Or.inr ⟨by simp, σ, ?_⟩
      refine h.move rfl (by rw [hp]; rfl) rfl rfl rfl rfl rfl h.nodup ?_ ?_ hph.2
        (by simp [finishing])
      · intro j
        rw [h.retq]
        have h1 := not_reading_of (p := s.parent) (by rw [hp]; rfl) j
        have h2 := not_reading_of (p := Parent.drain) rfl j
        simp [h1, h2]
      · intro j hr; exact absurd hr (not_reading_of rfl j)
    | recv ha hj hout =>
      rename_i j next out q
      have hop := h.rd j (huniq ha)
      have hpo : ∃ i, σ j = .posted i := by
        rw [h.out] at hout
        simp only at hout
        cases hs : σ j <;> rw [hs] at hout <;> simp [Slot.out] at hout
        exact ⟨_, rfl⟩
      obtain ⟨i, hi⟩ := hpo
      have ho : out = (i, answer f l i) ∧ q = [] := by
        rw [h.out] at hout
        simp only [hi, Slot.out, List.cons.injEq] at hout
        exact ⟨hout.1.symm, hout.2.symm⟩
      obtain ⟨rfl, rfl⟩ := ho
      have htask : (σ j).task = some i := by rw [hi]; rfl
      obtain ⟨x, hx⟩ := slot_task_lt h htask
      cases hy : answer f l i with
      | none =>
        simp only [processOutput]
        exact Or.inl ⟨rfl, x, List.mem_of_getElem? hx,
          answer_none hx hy (h.alive j i (by rw [hi]; rfl) x hx)⟩
      | some y =>
        have hne : next ≠ .raised := by
          rintro rfl
          revert ha
          cases s.parent <;> simp [afterRecv]
        simp only [processOutput]
        refine Or.inr ⟨hne, update σ j .empty, ?_⟩
        refine h.receive hj ha htask hy rfl rfl rfl ?_ ?_ ?_ rfl
        · simp only [h.inq]; exact map_update_same Slot.inq σ j .empty (by rw [hi]; rfl)
        · simp only [h.out]; exact map_update (Slot.out (answer f l)) σ j .empty
        · simp only [h.wk]; exact map_update_same (Slot.wk (answer f l)) σ j .empty (by rw [hi]; rfl)
    | transfer ha hj hout hwk hfit =>
      rename_i j next i r
      have hs : σ j = .told i ∧ r = answer f l i := by
        rw [h.wk] at hwk
        simp only at hwk
        cases hs : σ j <;> rw [hs] at hwk <;> simp [Slot.wk] at hwk
        exact ⟨by rw [hwk.1], by rw [← hwk.2, hwk.1]⟩
      obtain ⟨hi, rfl⟩ := hs
      have htask : (σ j).task = some i := by rw [hi]; rfl
      obtain ⟨x, hx⟩ := slot_task_lt h htask
      cases hy : answer f l i with
      | none =>
        simp only [processOutput]
        exact Or.inl ⟨rfl, x, List.mem_of_getElem? hx,
          answer_none hx hy (h.alive j i (by rw [hi]; rfl) x hx)⟩
      | some y =>
        have hne : next ≠ .raised := by
          rintro rfl
          revert ha
          cases s.parent <;> simp [afterRecv]
        simp only [processOutput]
        refine Or.inr ⟨hne, update σ j .empty, ?_⟩
        refine h.receive hj ha htask hy rfl rfl rfl ?_ ?_ ?_ rfl
        · simp only [h.inq]; exact map_update_same Slot.inq σ j .empty (by rw [hi]; rfl)
        · simp only [h.out]; exact map_update_same (Slot.out (answer f l)) σ j .empty (by rw [hi]; rfl)
        · simp only [h.wk]; exact map_update (Slot.wk (answer f l)) σ j .empty
    | badIndex ha hj =>
      rename_i j next
      have hop := h.rd j (huniq ha)
      rw [h.hi j hj] at hop
      exact hop.elim
    | feedSend hp hin =>
      rename_i j i rest
      have hph := h.ph
      rw [hp] at hph
      obtain ⟨p1, p2, p3, p4⟩ := hph
      refine Or.inr ⟨by simp, update σ j (.sent i), ?_⟩
      refine h.handOut p2 p1 rfl (by rw [hp]; simp [pending]) (by rw [hp]; rfl) rfl rfl rfl
        ?_ ?_ ?_ rfl ?_ (by simp [finishing])
      · simp only [h.inq]; exact map_update Slot.inq σ j (.sent i)
      · simp only [h.out]; exact map_update_same (Slot.out (answer f l)) σ j (.sent i) (by rw [p1]; rfl)
      · simp only [h.wk]; exact map_update_same (Slot.wk (answer f l)) σ j (.sent i) (by rw [p1]; rfl)
      · refine ⟨fun _ j' hj' => ?_, fun j' => ?_⟩
        · by_cases e : j' = j
          · subst e; simp [Slot.task]
          · simpa [e] using p3 j' hj' e
        · by_cases e : j' = j
          · subst e; simp [Slot.over]
          · simpa [e] using p4 j'
    | drainRead hp hc hq =>
      rename_i j q
      have hph := h.ph
      rw [hp] at hph
      have hjr : j ∈ s.retq := by rw [hq]; simp
      have hop := ((h.retq j).mp hjr).1
      have hnd := h.nodup
      rw [hq, List.nodup_cons] at hnd
      refine Or.inr ⟨by simp, σ, ?_⟩
      refine h.move rfl (by rw [hp]; simp [pending]) rfl rfl rfl rfl rfl hnd.2 ?_ ?_ hph
        (by simp [finishing])
      · intro j'
        have h1 := not_reading_of (p := s.parent) (by rw [hp]; rfl) j'
        have h2 : reading (Parent.drainRecv j) j' ↔ j' = j := by
          constructor
          · rintro ⟨n, hn⟩; cases hn; rfl
          · rintro rfl; exact ⟨_, rfl⟩
        have h3 := h.retq j'
        rw [hq, List.mem_cons] at h3
        simp only [h1, not_false_eq_true, and_true] at h3
        simp only [h2, ← h3]
        constructor
        · intro hm
          exact ⟨Or.inr hm, fun e => hnd.1 (e ▸ hm)⟩
        · rintro ⟨rfl | hm, hne⟩
          · exact absurd rfl hne
          · exact hm
      · rintro j' ⟨n, hn⟩; cases hn; exact hop
    | drainEnd hp hc =>
      have hph := h.ph
      rw [hp] at hph
      refine Or.inr ⟨by simp, σ, ?_⟩
      have hnone : ∀ j, (σ j).task = none := by
        intro j
        cases ht : (σ j).task with
        | none => rfl
        | some i =>
          have := h.ctr
          rw [hc] at this
          obtain ⟨t1, -, -⟩ := h.task j i ht
          have hm : (none : Option β) ∈ s.fl.filter Option.isNone :=
            List.mem_filter.mpr ⟨List.mem_of_getElem? t1, rfl⟩
          exact absurd (List.length_pos_of_mem hm) (by omega)
      refine h.move rfl (by rw [hp]; simp [pending]) rfl rfl rfl rfl rfl h.nodup ?_ ?_ ?_
        (fun _ => hc)
      · intro j
        rw [h.retq]
        have h1 := not_reading_of (p := s.parent) (by rw [hp]; rfl) j
        have h2 := not_reading_of (p := Parent.cancel (List.range ncpu)) rfl j
        simp [h1, h2]
      · intro j hr; exact absurd hr (not_reading_of rfl j)
      · refine ⟨List.nodup_range, fun j hj => ⟨?_, List.mem_range.mp hj⟩, fun j hj hn =>
          absurd (List.mem_range.mpr hj) hn⟩
        have h1 := hnone j
        have h2 : ¬ (σ j).over := hph j
        cases hs : σ j <;> rw [hs] at h1 h2 <;> simp_all [Slot.task, Slot.over]
    | cancelSend hp hin =>
      rename_i j js
      have hph := h.ph
      rw [hp] at hph
      obtain ⟨p1, p2, p3⟩ := hph
      rw [List.nodup_cons] at p1
      have hj := p2 j (by simp)
      refine Or.inr ⟨by simp, update σ j .cancelled, ?_⟩
      refine h.windUp hj.2 (by rw [hj.1]; rfl) rfl (by simp [Slot.op]) rfl (by rw [hp]; rfl)
        (by rw [hp]; rfl) rfl rfl rfl ?_ ?_ ?_ rfl ?_ (fun _ => h.fin (by rw [hp]; trivial))
      · simp only [h.inq]; exact map_update Slot.inq σ j .cancelled
      · simp only [h.out]; exact map_update_same (Slot.out (answer f l)) σ j .cancelled (by rw [hj.1]; rfl)
      · simp only [h.wk]; exact map_update_same (Slot.wk (answer f l)) σ j .cancelled (by rw [hj.1]; rfl)
      · refine ⟨p1.2, fun j' hj' => ?_, fun j' hj' hn => ?_⟩
        · have : j' ≠ j := by rintro rfl; exact p1.1 hj'
          simp only [ne_eq, this, not_false_eq_true, Function.update_of_ne]
          exact p2 j' (by simp [hj'])
        · by_cases e : j' = j
          · subst e; simp [Slot.over]
          · simpa [e] using p3 j' hj' (by simp [e, hn])
    | cancelEnd hp =>
      have hph := h.ph
      rw [hp] at hph
      refine Or.inr ⟨by simp, σ, ?_⟩
      refine h.move rfl (by rw [hp]; simp [pending]) rfl rfl rfl rfl rfl h.nodup ?_ ?_ ?_
        (fun _ => h.fin (by rw [hp]; trivial))
      · intro j
        rw [h.retq]
        have h1 := not_reading_of (p := s.parent) (by rw [hp]; rfl) j
        have h2 := not_reading_of (p := Parent.join (List.range ncpu)) rfl j
        simp [h1, h2]
      · intro j hr; exact absurd hr (not_reading_of rfl j)
      · exact ⟨fun j hj => List.mem_range.mp hj, fun j hj => hph.2.2 j hj (by simp)⟩
    | joined hp hw =>
      rename_i j js
      have hph := h.ph
      rw [hp] at hph
      refine Or.inr ⟨by simp, σ, ?_⟩
      refine h.move rfl (by rw [hp]; simp [pending]) rfl rfl rfl rfl rfl h.nodup ?_ ?_ ?_
        (fun _ => h.fin (by rw [hp]; trivial))
      · intro j'
        rw [h.retq]
        have h1 := not_reading_of (p := s.parent) (by rw [hp]; rfl) j'
        have h2 := not_reading_of (p := Parent.join js) rfl j'
        simp [h1, h2]
      · intro j' hr; exact absurd hr (not_reading_of rfl j')
      · exact ⟨fun j' hj' => hph.1 j' (by simp [hj']), hph.2⟩
    | finish hp =>
      have hph := h.ph
      rw [hp] at hph
      refine Or.inr ⟨by simp, σ, ?_⟩
      refine h.move rfl (by rw [hp]; simp [pending]) rfl rfl rfl rfl rfl h.nodup ?_ ?_ hph.2
        (fun _ => h.fin (by rw [hp]; trivial))
      · intro j'
        rw [h.retq]
        have h1 := not_reading_of (p := s.parent) (by rw [hp]; rfl) j'
        have h2 := not_reading_of (p := Parent.done) rfl j'
        simp [h1, h2]
      · intro j' hr; exact absurd hr (not_reading_of rfl j')
    | get hj hw hin =>
      rename_i j i q
      have hs : σ j = .sent i ∧ q = [] := by
        rw [h.inq] at hin
        simp only at hin
        cases hs : σ j <;> rw [hs] at hin <;> simp [Slot.inq] at hin
        exact ⟨by rw [hin.1], hin.2⟩
      obtain ⟨hs, rfl⟩ := hs
      refine Or.inr ⟨hr, update σ j (.busy i), ?_⟩
      refine h.advance (i := i) hj (by rw [hs]; rfl) rfl rfl rfl rfl ?_ ?_ ?_ h.nodup
        (by rw [hs]; exact fun h => h.elim) ?_ (by simp) (by simp [Slot.replied])
      · simp only [h.inq]; exact map_update Slot.inq σ j (.busy i)
      · simp only [h.out]; exact map_update_same (Slot.out (answer f l)) σ j (.busy i) (by rw [hs]; rfl)
      · simp only [h.wk]; exact map_update (Slot.wk (answer f l)) σ j (.busy i)
      · intro j'
        rw [h.retq]
        by_cases e : j' = j
        · subst e; simp [hs, Slot.op]
        · simp [e]
    | stop hj hw hin =>
      rename_i j q
      have hs : σ j = .cancelled ∧ q = [] := by
        rw [h.inq] at hin
        simp only at hin
        cases hs : σ j <;> rw [hs] at hin <;> simp [Slot.inq] at hin
        exact ⟨rfl, hin⟩
      obtain ⟨hs, rfl⟩ := hs
      have hov : (σ j).over := by rw [hs]; trivial
      have hph := h.ph
      have hupd : ∀ j', (σ j').over → (update σ j .gone j').over := by
        intro j' ho
        by_cases e : j' = j
        · subst e; simp [Slot.over]
        · simpa [e] using ho
      refine Or.inr ⟨hr, update σ j .gone, ?_⟩
      have hfinish : finishing s.parent := by
        cases hp : s.parent <;> rw [hp] at hph <;> simp only [finishing] <;>
          first
            | exact hph.2.2.2 j hov
            | exact hph.2 j hov
            | exact hph j hov
            | exact hr hp
      have hnr : afterRecv s.parent = none := by
        revert hfinish
        cases s.parent <;> simp [finishing, afterRecv]
      refine h.windUp hj (by rw [hs]; rfl) rfl (by simp [Slot.op]) rfl rfl hnr hnr rfl rfl ?_ ?_ ?_
        rfl ?_ h.fin
      · simp only [h.inq]; exact map_update Slot.inq σ j .gone
      · simp only [h.out]; exact map_update_same (Slot.out (answer f l)) σ j .gone (by rw [hs]; rfl)
      · simp only [h.wk]; exact map_update (Slot.wk (answer f l)) σ j .gone
      · revert hph hfinish
        cases s.parent <;> simp only [phase, finishing, imp_self, implies_true, false_imp_iff,
          true_imp_iff]
        · rintro ⟨p1, p2, p3⟩
          refine ⟨p1, fun j' hj' => ?_, fun j' hj' hn => hupd j' (p3 j' hj' hn)⟩
          have : j' ≠ j := by
            rintro rfl
            rw [(p2 j' hj').1] at hs
            cases hs
          simp only [ne_eq, this, not_false_eq_true, Function.update_of_ne]
          exact p2 j' hj'
        · rintro ⟨p1, p2⟩
          exact ⟨p1, fun j' hj' => hupd j' (p2 j' hj')⟩
        · exact fun p j' hj' => hupd j' (p j' hj')
    | work hj hw =>
      rename_i j i
      have hs : σ j = .busy i := by
        rw [h.wk] at hw
        simp only at hw
        cases hs : σ j <;> rw [hs] at hw <;> simp [Slot.wk] at hw
        rw [hw]
      obtain ⟨x, hx⟩ := slot_task_lt h (j := j) (i := i) (by rw [hs]; rfl)
      have key : ∀ t : Slot, t.task = some i → ¬ t.op → t.inq = [] → t.out (answer f l) = [] →
          t.wk (answer f l) = compute f l i →
          (∀ i', t = .lost i' → ∃ x, l[i']? = some x ∧ f x = .exits) →
          (t.replied = none ∨ t.replied = some i ∧ f x ≠ .exits) →
          Inv f l ncpu { s with worker := update s.worker j (compute f l i) } := by
        intro t h1 h2 h3 h4 h5 h6 h7
        refine Or.inr ⟨hr, update σ j t, ?_⟩
        refine h.advance (i := i) hj (by rw [hs]; rfl) h1 rfl rfl rfl ?_ ?_ ?_ h.nodup
          (by rw [hs]; exact fun h => h.elim) ?_ h6 (by
            intro i' e x' hx'
            rcases h7 with h7 | ⟨h7, h8⟩
            · rw [h7] at e; cases e
            · rw [h7] at e; cases e; rw [hx] at hx'; cases hx'; exact h8)
        · simp only [h.inq]; exact map_update_same Slot.inq σ j t (by rw [hs, h3]; rfl)
        · simp only [h.out]
          exact map_update_same (Slot.out (answer f l)) σ j t (by rw [hs, h4]; rfl)
        · simp only [h.wk, ← h5]; exact map_update (Slot.wk (answer f l)) σ j t
        · intro j'
          rw [h.retq]
          by_cases e : j' = j
          · subst e
            have : ¬ (σ j').op := by rw [hs]; exact id
            simp only [this, Function.update_self, h2, false_and]
          · simp [e]
      cases hf : f x with
      | value y =>
        exact key (.ans i) rfl (by simp [Slot.op]) rfl rfl
          (by simp [Slot.wk, answer, compute, hx, hf]) (by simp)
          (Or.inr ⟨rfl, by rw [hf]; simp⟩)
      | raises =>
        exact key (.ans i) rfl (by simp [Slot.op]) rfl rfl
          (by simp [Slot.wk, answer, compute, hx, hf]) (by simp)
          (Or.inr ⟨rfl, by rw [hf]; simp⟩)
      | exits =>
        refine key (.lost i) rfl (by simp [Slot.op]) rfl rfl
          (by simp [Slot.wk, compute, hx, hf]) ?_ (Or.inl rfl)
        intro i' e
        cases e
        exact ⟨x, hx, hf⟩
    | tell hj hw hcap =>
      rename_i j i r
      have hs : σ j = .ans i ∧ r = answer f l i := by
        rw [h.wk] at hw
        simp only at hw
        cases hs : σ j <;> rw [hs] at hw <;> simp [Slot.wk] at hw
        exact ⟨by rw [hw.1], by rw [← hw.2, hw.1]⟩
      obtain ⟨hs, rfl⟩ := hs
      have hnr : ¬ reading s.parent j := fun hrd => by
        have := h.rd j hrd; rw [hs] at this; exact this
      have hnm : j ∉ s.retq := fun hm => by
        have := ((h.retq j).mp hm).1; rw [hs] at this; exact this
      refine Or.inr ⟨hr, update σ j (.told i), ?_⟩
      refine h.advance (i := i) hj (by rw [hs]; rfl) rfl rfl rfl rfl ?_ ?_ ?_ ?_
        (by rw [hs]; exact fun h => h.elim) ?_ (by simp) (by
          intro i' e; cases e; exact h.alive j i (by rw [hs]; rfl))
      · simp only [h.inq]; exact map_update_same Slot.inq σ j (.told i) (by rw [hs]; rfl)
      · simp only [h.out]
        exact map_update_same (Slot.out (answer f l)) σ j (.told i) (by rw [hs]; rfl)
      · simp only [h.wk]; exact map_update (Slot.wk (answer f l)) σ j (.told i)
      · refine List.Nodup.append h.nodup (by simp) ?_
        intro a ha hb
        simp only [List.mem_singleton] at hb
        subst hb
        exact hnm ha
      · intro j'
        simp only [List.mem_append, List.mem_singleton]
        rw [h.retq]
        by_cases e : j' = j
        · subst e; simp [Slot.op, hnr]
        · simp [e]
    | put hj hw hout hfit =>
      rename_i j i r
      have hs : σ j = .told i ∧ r = answer f l i := by
        rw [h.wk] at hw
        simp only at hw
        cases hs : σ j <;> rw [hs] at hw <;> simp [Slot.wk] at hw
        exact ⟨by rw [hw.1], by rw [← hw.2, hw.1]⟩
      obtain ⟨hs, rfl⟩ := hs
      refine Or.inr ⟨hr, update σ j (.posted i), ?_⟩
      refine h.advance (i := i) hj (by rw [hs]; rfl) rfl rfl rfl rfl ?_ ?_ ?_ h.nodup
        (fun _ => trivial) ?_ (by simp) (by
          intro i' e; cases e; exact h.alive j i (by rw [hs]; rfl))
      · simp only [h.inq]; exact map_update_same Slot.inq σ j (.posted i) (by rw [hs]; rfl)
      · simp only [h.out]; exact map_update (Slot.out (answer f l)) σ j (.posted i)
      · simp only [h.wk]; exact map_update (Slot.wk (answer f l)) σ j (.posted i)
      · intro j'
        rw [h.retq]
        by_cases e : j' = j
        · subst e; simp [hs, Slot.op]
        · simp [e]

theorem reach_inv {s : St β} (h : Reach f l ncpu cap fits s) : Inv f l ncpu s := by
  induction h with
  | start => exact Or.inr ⟨by simp [start], _, good_start⟩
  | step _ hst ih => exact inv_step ih hst

/-- the parent has returned or raised -/
def final (s : St β) : Prop := s.parent = .done ∨ s.parent = .raised

/-- A worker with a task of which nothing is announced can go on. -/
theorem worker_progress {σ : Nat → Slot} {s : St β} (h : Good f l ncpu σ s) (hcap : 0 < cap)
    (hex : ∀ x ∈ l, f x ≠ .exits) (hq : s.retq = []) (hnr : afterRecv s.parent = none) {j : Nat}
    (hj : j < ncpu) (ht : (σ j).task ≠ none) : ∃ s', Step f l ncpu cap fits s s' := by
  have hin : s.inq j = (σ j).inq := by rw [h.inq]
  have hwk : s.worker j = (σ j).wk (answer f l) := by rw [h.wk]
  have hno : ¬ (σ j).op := fun ho => by
    have := (h.retq j).mpr ⟨ho, not_reading_of hnr j⟩
    rw [hq] at this; cases this
  cases hs : σ j with
  | sent i => rw [hs] at hin hwk; exact ⟨_, .get hj hwk hin⟩
  | busy i => rw [hs] at hwk; exact ⟨_, .work hj hwk⟩
  | ans i => rw [hs] at hwk; exact ⟨_, .tell hj hwk (by rw [hq]; exact hcap)⟩
  | told i => rw [hs] at hno; exact absurd trivial hno
  | posted i => rw [hs] at hno; exact absurd trivial hno
  | lost i =>
    obtain ⟨x, hx, he⟩ := h.lost j i hs
    exact absurd he (hex x (List.mem_of_getElem? hx))
  | empty => rw [hs] at ht; exact absurd rfl ht
  | cancelled => rw [hs] at ht; exact absurd rfl ht
  | gone => rw [hs] at ht; exact absurd rfl ht

/-- The parent has read `j`: the answer is there or on its way. -/
theorem recv_progress {σ : Nat → Slot} {s : St β} (h : Good f l ncpu σ s) {j : Nat}
    {next : Parent} (ha : afterRecv s.parent = some (j, next)) :
    ∃ s', Step f l ncpu cap fits s s' := by
  have hop := h.rd j ⟨_, ha⟩
  have hout : s.outq j = (σ j).out (answer f l) := by rw [h.out]
  have hwk : s.worker j = (σ j).wk (answer f l) := by rw [h.wk]
  have hj : j < ncpu := by
    by_contra hn
    rw [h.hi j (not_lt.mp hn)] at hop
    exact hop
  cases hs : σ j <;> rw [hs] at hop hout hwk <;> first | exact hop.elim | skip
  · rename_i i
    cases hf : fits i with
    | true => exact ⟨_, .put hj hwk hout hf⟩
    | false => exact ⟨_, .transfer ha hj hout hwk hf⟩
  · exact ⟨_, .recv ha hj hout⟩

theorem progress (hn : 0 < ncpu) (hcap : 0 < cap) (hex : ∀ x ∈ l, f x ≠ .exits) {s : St β}
    (hI : Inv f l ncpu s) (hfin : ¬ final s) : ∃ s', Step f l ncpu cap fits s s' := by
  rcases hI with ⟨hr, -⟩ | ⟨-, σ, h⟩
  · exact absurd (Or.inr hr) hfin
  have hin : ∀ j, s.inq j = (σ j).inq := fun j => by rw [h.inq]
  have hph := h.ph
  cases hp : s.parent with
  | prime ps rest =>
    cases ps with
    | nil => exact ⟨_, .primeEnd hp⟩
    | cons p ps =>
      obtain ⟨j, i⟩ := p
      rw [hp] at hph
      exact ⟨_, .primeSend hp (by rw [hin, (hph.1 j (by simp)).1]; rfl)⟩
  | feed rest =>
    cases rest with
    | nil => exact ⟨_, .feedEnd hp⟩
    | cons i rest =>
      cases hq : s.retq with
      | cons j q => exact ⟨_, .feedRead hp hq⟩
      | nil =>
        rw [hp] at hph
        exact worker_progress h hcap hex hq (by rw [hp]; rfl) hn (hph.1 (by simp) 0 hn)
  | feedRecv j i rest => exact recv_progress h (by rw [hp]; rfl)
  | feedSend j i rest =>
    rw [hp] at hph
    exact ⟨_, .feedSend hp (by rw [hin, hph.1]; rfl)⟩
  | drain =>
    by_cases hc : s.ctr = 0
    · exact ⟨_, .drainEnd hp hc⟩
    · cases hq : s.retq with
      | cons j q => exact ⟨_, .drainRead hp (Nat.pos_of_ne_zero hc) hq⟩
      | nil =>
        rw [h.ctr] at hc
        obtain ⟨o, ho⟩ := List.exists_mem_of_length_pos (Nat.pos_of_ne_zero hc)
        obtain ⟨hm, ho⟩ := List.mem_filter.mp ho
        rw [Option.isNone_iff_eq_none] at ho
        subst ho
        obtain ⟨i, hi⟩ := List.getElem?_of_mem hm
        rcases h.cover i hi with hl | ⟨j, hj⟩
        · rw [hp] at hl; cases hl
        · have hjn : j < ncpu := by
            by_contra hn'
            rw [h.hi j (not_lt.mp hn')] at hj
            cases hj
          exact worker_progress h hcap hex hq (by rw [hp]; rfl) hjn (by rw [hj]; simp)
  | drainRecv j => exact recv_progress h (by rw [hp]; rfl)
  | cancel js =>
    cases js with
    | nil => exact ⟨_, .cancelEnd hp⟩
    | cons j js =>
      rw [hp] at hph
      exact ⟨_, .cancelSend hp (by rw [hin, (hph.2.1 j (by simp)).1]; rfl)⟩
  | join js =>
    cases js with
    | nil => exact ⟨_, .finish hp⟩
    | cons j js =>
      rw [hp] at hph
      have hj := hph.1 j (by simp)
      have ho := hph.2 j hj
      have hwk : s.worker j = (σ j).wk (answer f l) := by rw [h.wk]
      have hi := hin j
      cases hs : σ j <;> rw [hs] at ho hwk hi <;> first | exact ho.elim | skip
      · exact ⟨_, .stop hj hwk hi⟩
      · exact ⟨_, .joined hp hwk⟩
  | done => exact absurd (Or.inl hp) hfin
  | raised => exact absurd (Or.inr hp) hfin

/-! Termination. -/

def inWeight : Option Nat → Nat
  | some _ => 11
  | none => 2

def wkWeight : Worker β → Nat
  | .idle => 0
  | .busy _ => 10
  | .answered _ _ => 9
  | .told _ _ => 7
  | .gone => 1

/-- remaining work of worker `j` and its pipes -/
def slotWeight (s : St β) (j : Nat) : Nat :=
  ((s.inq j).map inWeight).sum + wkWeight (s.worker j) + 6 * (s.outq j).length

/-- remaining work of the parent -/
def parWeight (ncpu : Nat) : Parent → Nat
  | .prime ps rest => 4 * ncpu + 14 + 12 * (ps.length + rest.length)
  | .feed rest => 4 * ncpu + 13 + 12 * rest.length
  | .feedRecv _ _ rest => 4 * ncpu + 13 + 12 * (rest.length + 1)
  | .feedSend _ _ rest => 4 * ncpu + 13 + 12 * (rest.length + 1)
  | .drain => 4 * ncpu + 12
  | .drainRecv _ => 4 * ncpu + 12
  | .cancel js => ncpu + 2 + 3 * js.length
  | .join js => 1 + js.length
  | .done => 0
  | .raised => 0

def weight (ncpu : Nat) (s : St β) : Nat :=
  parWeight ncpu s.parent + s.retq.length + ∑ j ∈ Finset.range ncpu, slotWeight s j

theorem sum_update {g g' : Nat → Nat} {j n : Nat} (hj : j < n) (h : ∀ j', j' ≠ j → g' j' = g j') :
    (∑ k ∈ Finset.range n, g' k) + g j = (∑ k ∈ Finset.range n, g k) + g' j := by
  have hm : j ∈ Finset.range n := Finset.mem_range.mpr hj
  have h1 := Finset.sum_erase_add (Finset.range n) g hm
  have h2 := Finset.sum_erase_add (Finset.range n) g' hm
  have h3 : ∑ k ∈ (Finset.range n).erase j, g' k = ∑ k ∈ (Finset.range n).erase j, g k :=
    Finset.sum_congr rfl fun k hk => h k (Finset.ne_of_mem_erase hk)
  omega

theorem parWeight_recv {p : Parent} {j : Nat} {next : Parent} (ha : afterRecv p = some (j, next)) :
    parWeight ncpu next = parWeight ncpu p ∧ 4 * ncpu + 12 ≤ parWeight ncpu p := by
  cases p <;> simp only [afterRecv, reduceCtorEq, Option.some.injEq, Prod.mk.injEq] at ha
  · obtain ⟨-, rfl⟩ := ha
    refine ⟨rfl, ?_⟩
    simp only [parWeight]; omega
  · obtain ⟨-, rfl⟩ := ha
    exact ⟨rfl, le_refl _⟩

/-- Only worker `j` and its pipes change. -/
def Elsewhere (j : Nat) (s s' : St β) : Prop :=
  ∀ j', j' ≠ j → s'.inq j' = s.inq j' ∧ s'.outq j' = s.outq j' ∧ s'.worker j' = s.worker j'

theorem weight_lt {s s' : St β} {j : Nat} (he : Elsewhere j s s') (a b : Nat)
    (h0 : slotWeight s' j + a ≤ slotWeight s j + b) (hj : a = 0 ∨ j < ncpu)
    (hp : parWeight ncpu s'.parent + s'.retq.length + b <
      parWeight ncpu s.parent + s.retq.length + a) : weight ncpu s' < weight ncpu s := by
  have hs : ∀ j', j' ≠ j → slotWeight s' j' = slotWeight s j' := by
    intro j' hj'
    obtain ⟨h1, h2, h3⟩ := he j' hj'
    simp only [slotWeight, h1, h2, h3]
  unfold weight
  by_cases hjn : j < ncpu
  · have := sum_update hjn hs
    omega
  · have : ∑ k ∈ Finset.range ncpu, slotWeight s' k = ∑ k ∈ Finset.range ncpu, slotWeight s k :=
      Finset.sum_congr rfl fun k hk => hs k (by
        rintro rfl; exact hjn (Finset.mem_range.mp hk))
    rcases hj with rfl | hj
    · omega
    · exact absurd hj hjn

theorem weight_step {s s' : St β} (hst : Step f l ncpu cap fits s s') :
    weight ncpu s' < weight ncpu s := by
  cases hst with
  | primeSend hp hin =>
    rename_i j i ps rest
    refine weight_lt (j := j) (by intro j' hj'; simp [hj']) 0 11
      (by simp [slotWeight, hin, inWeight]; omega) (Or.inl rfl) ?_
    simp only [hp, parWeight, List.length_cons]; omega
  | primeEnd hp => simp only [weight, hp, parWeight, slotWeight, List.length_nil]; omega
  | feedRead hp hq =>
    simp only [weight, hp, hq, parWeight, slotWeight, List.length_cons]; omega
  | feedEnd hp => simp only [weight, hp, parWeight, slotWeight, List.length_nil]; omega
  | recv ha hj hout =>
    rename_i j next out q
    have hw := parWeight_recv (ncpu := ncpu) ha
    unfold processOutput
    split
    · refine weight_lt (j := j) (by intro j' hj'; simp [hj']) 6 0
        (by simp [slotWeight, hout]; omega) (Or.inr hj) ?_
      simp only [parWeight]; omega
    · refine weight_lt (j := j) (by intro j' hj'; simp [hj']) 6 0
        (by simp [slotWeight, hout]; omega) (Or.inr hj) ?_
      simp only [hw.1]; omega
  | transfer ha hj hout hwk hfit =>
    rename_i j next i r
    have hw := parWeight_recv (ncpu := ncpu) ha
    unfold processOutput
    split
    · refine weight_lt (j := j) (by intro j' hj'; simp [hj']) 7 0
        (by simp [slotWeight, hwk, wkWeight]; omega) (Or.inr hj) ?_
      simp only [parWeight]; omega
    · refine weight_lt (j := j) (by intro j' hj'; simp [hj']) 7 0
        (by simp [slotWeight, hwk, wkWeight]; omega) (Or.inr hj) ?_
      simp only [hw.1]; omega
  | badIndex ha hj =>
    rename_i j next
    have hw := parWeight_recv (ncpu := ncpu) ha
    refine weight_lt (j := j) (by intro j' hj'; simp) 0 0 (by simp [slotWeight]) (Or.inl rfl) ?_
    simp only [show parWeight ncpu Parent.raised = 0 from rfl]; omega
  | feedSend hp hin =>
    rename_i j i rest
    refine weight_lt (j := j) (by intro j' hj'; simp [hj']) 0 11
      (by simp [slotWeight, hin, inWeight]; omega) (Or.inl rfl) ?_
    simp only [hp, parWeight]; omega
  | drainRead hp hc hq =>
    simp only [weight, hp, hq, parWeight, slotWeight, List.length_cons]; omega
  | drainEnd hp hc =>
    simp only [weight, hp, parWeight, slotWeight, List.length_range]; omega
  | cancelSend hp hin =>
    rename_i j js
    refine weight_lt (j := j) (by intro j' hj'; simp [hj']) 0 2
      (by simp [slotWeight, hin, inWeight]; omega) (Or.inl rfl) ?_
    simp only [hp, parWeight, List.length_cons]; omega
  | cancelEnd hp =>
    simp only [weight, hp, parWeight, slotWeight, List.length_range, List.length_nil]; omega
  | joined hp hw => simp only [weight, hp, parWeight, slotWeight, List.length_cons]; omega
  | finish hp => simp only [weight, hp, parWeight, slotWeight, List.length_nil]; omega
  | get hj hw hin =>
    rename_i j i q
    refine weight_lt (j := j) (by intro j' hj'; simp [hj']) 1 0
      (by simp [slotWeight, hin, hw, inWeight, wkWeight]; omega) (Or.inr hj) ?_
    simp
  | stop hj hw hin =>
    rename_i j q
    refine weight_lt (j := j) (by intro j' hj'; simp [hj']) 1 0
      (by simp [slotWeight, hin, hw, inWeight, wkWeight]; omega) (Or.inr hj) ?_
    simp
  | work hj hw =>
    rename_i j i
    have h2 : wkWeight (compute f l i) ≤ 9 := by
      unfold compute
      split
      · simp [wkWeight]
      · split <;> simp [wkWeight]
    refine weight_lt (j := j) (by intro j' hj'; simp [hj']) 1 0
      (by simp only [slotWeight, hw, show wkWeight (Worker.busy i : Worker β) = 10 from rfl,
        Function.update_self]; omega) (Or.inr hj) ?_
    simp
  | tell hj hw hcap =>
    rename_i j i r
    refine weight_lt (j := j) (by intro j' hj'; simp [hj']) 2 0
      (by simp only [slotWeight, hw, wkWeight, Function.update_self]; omega) (Or.inr hj) ?_
    simp only [List.length_append, List.length_singleton]; omega
  | put hj hw hout hfit =>
    rename_i j i r
    refine weight_lt (j := j) (by intro j' hj'; simp [hj']) 1 0
      (by simp only [slotWeight, hw, hout, wkWeight, Function.update_self, List.length_singleton,
        List.length_nil]; omega) (Or.inr hj) ?_
    simp

end Cgpm.PMap
