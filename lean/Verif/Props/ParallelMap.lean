import Verif.Lemmas.ParallelMapStep

/-!
Property C31: `parallel_map` (src/utils/parallel_map.py) equals `map`, for every interleaving of the
processes.  `ncpu` is the number of workers, `cap ≥ 1` the capacity of the return pipe, and `fits`
says which answers fit into the buffers of the output pipes.
-/
namespace Cgpm.Props
open Cgpm.PMap

variable {α β : Type} {f : α → Outcome β} {l : List α} {ncpu cap : Nat} {fits : Nat → Bool}

/-- **C31.** If `parallel_map` returns, every call returned and the result is the list of the
values, in order. -/
theorem C31_result {s : St β} (h : Reach f l ncpu cap fits s) (hd : s.parent = .done) :
    ∃ ys : List β, s.fl = ys.map some ∧ l.map f = ys.map Outcome.value := by
  rcases reach_inv h with ⟨hr, -⟩ | ⟨-, σ, g⟩
  · rw [hd] at hr; cases hr
  have hc : s.ctr = 0 := g.fin (by rw [hd]; trivial)
  have hall : ∀ i (hi : i < s.fl.length), ∃ y, s.fl[i]? = some (some y) := by
    intro i hi
    cases ho : s.fl[i] with
    | some y => exact ⟨y, by rw [List.getElem?_eq_getElem hi, ho]⟩
    | none =>
      exfalso
      have hm : (none : Option β) ∈ s.fl.filter Option.isNone :=
        List.mem_filter.mpr ⟨ho ▸ List.getElem_mem hi, rfl⟩
      have := List.length_pos_of_mem hm
      rw [← g.ctr, hc] at this
      exact absurd this (lt_irrefl 0)
  have hys : ∃ ys : List β, s.fl = ys.map some := by
    have : ∀ fl : List (Option β), (∀ i (hi : i < fl.length), ∃ y, fl[i]? = some (some y)) →
        ∃ ys : List β, fl = ys.map some := by
      intro fl
      induction fl with
      | nil => exact fun _ => ⟨[], rfl⟩
      | cons o t ih =>
        intro hq
        obtain ⟨y, hy⟩ := hq 0 (by simp)
        obtain ⟨ys, hys⟩ := ih fun i hi => by
          have := hq (i + 1) (by simpa using hi)
          simpa using this
        simp only [List.getElem?_cons_zero, Option.some.injEq] at hy
        exact ⟨y :: ys, by rw [hy, hys]; rfl⟩
    exact this _ hall
  obtain ⟨ys, hys⟩ := hys
  refine ⟨ys, hys, ?_⟩
  have hlen : ys.length = l.length := by rw [← g.len, hys, List.length_map]
  refine List.ext_getElem? fun i => ?_
  simp only [List.getElem?_map]
  by_cases hi : i < l.length
  · obtain ⟨x, hx, hf⟩ := g.vals i (ys[i]'(by omega)) (by
      rw [hys, List.getElem?_map, List.getElem?_eq_getElem (by omega)]; rfl)
    rw [hx, List.getElem?_eq_getElem (by omega : i < ys.length)]
    simp [hf]
  · rw [List.getElem?_eq_none (by omega), List.getElem?_eq_none (by omega)]
    rfl

/-- **C31.** `parallel_map` raises only if some call raised. -/
theorem C31_raises {s : St β} (h : Reach f l ncpu cap fits s) (hr : s.parent = .raised) :
    ∃ x ∈ l, f x = .raises := by
  rcases reach_inv h with ⟨-, hx⟩ | ⟨hn, -⟩
  · exact hx
  · exact absurd hr hn

/-- **C31.** If some call raises, `parallel_map` does not return. -/
theorem C31_failure {s : St β} (h : Reach f l ncpu cap fits s) {x : α} (hx : x ∈ l)
    (hf : f x = .raises) : s.parent ≠ .done := by
  intro hd
  obtain ⟨ys, -, hm⟩ := C31_result h hd
  have : f x ∈ ys.map Outcome.value := by rw [← hm]; exact List.mem_map_of_mem hx
  obtain ⟨y, -, hy⟩ := List.mem_map.mp this
  rw [hf] at hy
  cases hy

/-- **C31.** No deadlock: as long as the parent has neither returned nor raised, some process can
act. -/
theorem C31_no_deadlock (hn : 0 < ncpu) (hcap : 0 < cap) (hex : ∀ x ∈ l, f x ≠ .exits) {s : St β}
    (h : Reach f l ncpu cap fits s) (hd : s.parent ≠ .done) (hr : s.parent ≠ .raised) :
    ∃ s', Step f l ncpu cap fits s s' :=
  progress hn hcap hex (reach_inv h) fun hf => hf.elim hd hr

/-- **C31.** No schedule goes on for ever. -/
theorem C31_terminates (run : ℕ → St β) : ∃ k, ¬ Step f l ncpu cap fits (run k) (run (k + 1)) := by
  by_contra hne
  push Not at hne
  have : ∀ k, weight ncpu (run k) + k ≤ weight ncpu (run 0) := by
    intro k
    induction k with
    | zero => simp
    | succ k ih => have := weight_step (hne k); omega
  have := this (weight ncpu (run 0) + 1)
  omega

/-- **C31.** The outcome is that of `map`: when nothing can happen any more, the parent has returned
the values of `f` in order if all calls returned, and has raised if one of them raised. -/
theorem C31_parallel_map (hn : 0 < ncpu) (hcap : 0 < cap) (hex : ∀ x ∈ l, f x ≠ .exits) {s : St β}
    (h : Reach f l ncpu cap fits s) (hstuck : ∀ s', ¬ Step f l ncpu cap fits s s') :
    (∀ ys : List β, l.map f = ys.map Outcome.value → s.parent = .done ∧ s.fl = ys.map some) ∧
    ((∃ x ∈ l, f x = .raises) → s.parent = .raised) := by
  have hfin : s.parent = .done ∨ s.parent = .raised := by
    by_contra hc
    obtain ⟨h1, h2⟩ := not_or.mp hc
    obtain ⟨s', hs'⟩ := C31_no_deadlock hn hcap hex h h1 h2
    exact hstuck s' hs'
  constructor
  · intro ys hys
    rcases hfin with hd | hr
    · obtain ⟨zs, h1, h2⟩ := C31_result h hd
      refine ⟨hd, ?_⟩
      rw [h1]
      rw [h2] at hys
      have : zs = ys := by
        have hinj : Function.Injective (Outcome.value : β → Outcome β) := fun a b e => by
          cases e; rfl
        exact List.map_injective_iff.mpr hinj hys
      rw [this]
    · obtain ⟨x, hx, hf⟩ := C31_raises h hr
      have : f x ∈ ys.map Outcome.value := by rw [← hys]; exact List.mem_map_of_mem hx
      obtain ⟨y, -, hy⟩ := List.mem_map.mp this
      rw [hf] at hy
      cases hy
  · rintro ⟨x, hx, hf⟩
    rcases hfin with hd | hr
    · exact absurd hd (C31_failure h hx hf)
    · exact hr

/-- **C31**, what the hypotheses exclude. If a call leaves the worker without an `Exception` (for
instance by `sys.exit`), the parent can wait for ever. -/
theorem C31_exit_hangs {x : α} (hx : f x = .exits) (hcap : 0 < cap) :
    ∃ s : St β, Reach f [x] 1 cap fits s ∧ s.parent ≠ .done ∧ s.parent ≠ .raised ∧
      ∀ s', ¬ Step f [x] 1 cap fits s s' := by
  have r0 : Reach f [x] 1 cap fits (start [x] 1) := .start
  have r1 := r0.step (.primeSend (j := 0) (i := 0) (ps := []) (rest := []) rfl rfl)
  have r2 := r1.step (.primeEnd (rest := []) rfl)
  have r3 := r2.step (.feedEnd rfl)
  have r4 := r3.step (.get (j := 0) (i := 0) (q := []) (by decide) rfl rfl)
  have r5 := r4.step (.work (j := 0) (i := 0) (by decide) rfl)
  have hc : compute f [x] 0 = (.gone : Worker β) := by simp [compute, hx]
  rw [hc] at r5
  refine ⟨_, r5, by simp, by simp, ?_⟩
  intro s' hs'
  cases hs' <;> simp_all [afterRecv, start, Function.update_apply]

/-- **C31**, what the hypotheses exclude. Without workers, nothing happens unless the list is
empty. -/
theorem C31_no_workers {x : α} :
    ∃ s : St β, Reach f [x] 0 cap fits s ∧ s.parent ≠ .done ∧ s.parent ≠ .raised ∧
      ∀ s', ¬ Step f [x] 0 cap fits s s' := by
  have r0 : Reach f [x] 0 cap fits (start [x] 0) := .start
  have r1 := r0.step (.primeEnd (rest := [0]) rfl)
  refine ⟨_, r1, by simp, by simp, ?_⟩
  intro s' hs'
  cases hs' <;> simp_all [afterRecv, start]

/-- The hypotheses are met: three tasks, two workers; a run that hands out the first two. -/
example : ∃ s : St ℕ, Reach (fun n : ℕ => Outcome.value (n + 1)) [5, 6, 7] 2 1 (fun _ => true) s ∧
    s.parent = .feed [2] ∧ s.retq = [1] := by
  have r0 : Reach (fun n : ℕ => Outcome.value (n + 1)) [5, 6, 7] 2 1 (fun _ => true)
    (start [5, 6, 7] 2) := .start
  have r1 := r0.step (.primeSend (j := 0) (i := 0) (ps := [(1, 1)]) (rest := [2]) rfl rfl)
  have r2 := r1.step (.primeSend (j := 1) (i := 1) (ps := []) (rest := [2]) rfl rfl)
  have r3 := r2.step (.primeEnd (rest := [2]) rfl)
  have r4 := r3.step (.get (j := 1) (i := 1) (q := []) (by decide) rfl rfl)
  have r5 := r4.step (.work (j := 1) (i := 1) (by decide) rfl)
  have r6 := r5.step (.tell (j := 1) (i := 1) (r := some 7) (by decide) rfl (by decide))
  exact ⟨_, r6, rfl, rfl⟩

end Cgpm.Props
