import Verif.Lemmas.Flip

/-
C35: the log-space helpers.  C36: categorical draws.
-/
namespace Cgpm.Props
open Cgpm Classical MeasureTheory

/-! ### C35 -/

/-- **C35.** `logsumexp` is the logarithm of the sum of the exponentials, for every list
without NaN in which the two infinities do not both occur. -/
theorem C35_logsumexp (l : List Fl) (hn : Fl.nan ∉ l) (h : ¬ (Fl.pinf ∈ l ∧ Fl.ninf ∈ l)) :
    ∃ r, logsumexp l = .ok r ∧ r ≠ .nan ∧ mass r = total l := logsumexp_spec hn h

/-- A float other than NaN is determined by the number it is the logarithm of, so
the equations in this file pin their results down. -/
theorem C35_mass_determines (a b : Fl) (ha : a ≠ .nan) (hb : b ≠ .nan) (h : mass a = mass b) :
    a = b := Fl.mass_inj ha hb h

/-- **C35.** With both infinities the result is NaN, as the comment of the code says. -/
theorem C35_logsumexp_both_infinities (l : List Fl) (hn : Fl.nan ∉ l) (hp : Fl.pinf ∈ l)
    (hb : Fl.ninf ∈ l) : logsumexp l = .ok .nan := by
  have hl : l ≠ [] := fun e => by simp [e] at hp
  unfold logsumexp
  rcases logsumexpT_cases hl hn with ⟨-, h0, -⟩ | ⟨-, -, h, -⟩ | ⟨-, -, -, h1⟩ | ⟨m, -, -, h, -⟩
  · exact absurd (h0 _ hp) (by simp)
  · exact absurd hb h
  · exact h1
  · exact absurd hp h

/-- **C35.** No positive number is ever exponentiated, so `exp` cannot overflow: every
argument of `exp` is minus infinity or a real `≤ 0`. -/
theorem C35_no_overflow (l : List Fl) (hn : Fl.nan ∉ l) (h : ¬ (Fl.pinf ∈ l ∧ Fl.ninf ∈ l)) :
    ∀ a ∈ (logsumexpT l).2, a = .ninf ∨ ∃ x : ℝ, a = .fin x ∧ x ≤ 0 := by
  by_cases hl : l = []
  · subst hl; simp [logsumexpT]
  rcases logsumexpT_cases hl hn with ⟨-, h0, h1⟩ | ⟨-, hp, -, h1⟩ | ⟨-, hp, hb, -⟩ | ⟨m, hM, -, hp, h1, hs⟩
  · rw [h1]; simp
  · rw [h1]; simp
  · exact absurd ⟨hp, hb⟩ h
  · rw [h1]
    intro a ha
    obtain ⟨b, hb, rfl⟩ := List.mem_map.mp ha
    have hle := (flMax_spec hl hn).2 b hb
    rw [hM] at hle
    cases b with
    | nan => exact absurd hb hn
    | ninf => exact .inl rfl
    | pinf => exact absurd hb hp
    | fin x =>
      right
      refine ⟨x + -m, rfl, ?_⟩
      have : x ≤ m := by simpa [Fl.toE] using hle
      linarith

/-- **C35.** `logmeanexp` of a non-empty list is the logarithm of the arithmetic mean of
the exponentials, also when both infinities occur; of the empty list it is minus infinity. -/
theorem C35_logmeanexp (l : List Fl) (hn : Fl.nan ∉ l) :
    ∃ r, logmeanexp l = .ok r ∧ r ≠ .nan ∧
      (l = [] → r = .ninf) ∧ (l ≠ [] → mass r = total l / l.length) := by
  by_cases hl : l = []
  · subst hl; exact ⟨.ninf, by simp [logmeanexp], by simp, by simp, by simp⟩
  have hlen : l.length ≠ 0 := by simpa using hl
  have hpos : (0 : ℝ) < l.length := by exact_mod_cast Nat.pos_of_ne_zero hlen
  set k := l.filter fun a => ¬ a = .ninf with hk
  have hkn : Fl.nan ∉ k := fun h => hn (List.mem_of_mem_filter h)
  have hkb : Fl.ninf ∉ k := fun h => by simpa using (List.mem_filter.mp h).2
  obtain ⟨r, hr, hrn, hrm⟩ := logsumexp_spec hkn (fun h => hkb h.2)
  have htot : total k = total l := by
    rw [hk]
    unfold total
    clear * -
    induction l with
    | nil => rfl
    | cons a t ih =>
      by_cases ha : a = .ninf
      · subst ha
        have : ((.ninf :: t : List Fl).filter fun a => ¬ a = .ninf)
            = t.filter fun a => ¬ a = .ninf := List.filter_cons_of_neg (by simp)
        rw [this, ih]; simp [mass]
      · have : ((a :: t : List Fl).filter fun a => ¬ a = .ninf)
            = a :: t.filter fun a => ¬ a = .ninf := List.filter_cons_of_pos (by simpa using ha)
        rw [this, List.map_cons, List.sum_cons, ih]; simp
  obtain ⟨h1, h2⟩ := mass_sub_fin (Real.log l.length) hrn
  refine ⟨r.sub (.fin (Real.log l.length)), ?_, h2, fun e => absurd e hl, fun _ => ?_⟩
  · unfold logmeanexp
    rw [if_neg hlen]
    simp only [← hk, hr]; rfl
  · rw [Real.exp_log hpos, hrm, htot] at h1
    rw [ENNReal.ofReal_natCast] at h1
    rw [← h1, ENNReal.mul_div_cancel_right (by exact_mod_cast hlen) (ENNReal.natCast_ne_top _)]

/-- **C35.** `logmeanexp_weighted` is the logarithm of the weighted mean, when the
weights are not all zero (and nothing is infinite); lists of different length are refused. -/
theorem C35_logmeanexp_weighted (A W : List Fl) :
    (W.length ≠ A.length → logmeanexpWeighted A W = .error .assertion) ∧
    (W.length = A.length → (∀ a ∈ A, a ≠ .nan ∧ a ≠ .pinf) → (∀ w ∈ W, w ≠ .nan ∧ w ≠ .pinf) →
      total W ≠ 0 → ∃ r, logmeanexpWeighted A W = .ok r ∧ r ≠ .nan ∧
        mass r * total W = (List.zipWith (fun w a => mass w * mass a) W A).sum) := by
  refine ⟨fun h => by simp [logmeanexpWeighted, h], fun hlen hA hW h0 => ?_⟩
  have hz : (∀ c ∈ List.zipWith Fl.add W A, c ≠ .nan ∧ c ≠ .pinf) ∧
      total (List.zipWith Fl.add W A) = (List.zipWith (fun w a => mass w * mass a) W A).sum := by
    clear h0 hlen
    induction W generalizing A with
    | nil => simp [total]
    | cons w W ih =>
      cases A with
      | nil => simp [total]
      | cons a A =>
        obtain ⟨i1, i2⟩ := ih A (fun x hx => hA x (by simp [hx])) (fun x hx => hW x (by simp [hx]))
        have hw := hW w (by simp)
        have ha := hA a (by simp)
        obtain ⟨m1, m2, m3⟩ := mass_add hw.1 ha.1 hw.2 ha.2
        refine ⟨fun c hc => ?_, ?_⟩
        · simp only [List.zipWith_cons_cons, List.mem_cons] at hc
          rcases hc with rfl | hc
          · exact ⟨m2, m3⟩
          · exact i1 c hc
        · simp only [total, List.zipWith_cons_cons, List.map_cons, List.sum_cons] at i2 ⊢
          rw [m1, i2]
  obtain ⟨r1, e1, n1, m1⟩ := logsumexp_spec (l := List.zipWith Fl.add W A)
    (fun h => (hz.1 _ h).1 rfl) (fun h => (hz.1 _ h.1).2 rfl)
  obtain ⟨r2, e2, n2, m2⟩ := logsumexp_spec (l := W) (fun h => (hW _ h).1 rfl)
    (fun h => (hW _ h.1).2 rfl)
  have hfin : total W ≠ ⊤ := by
    rw [total_eq_rel 0 (fun h => (hW _ h).2 rfl)]; exact ENNReal.ofReal_ne_top
  cases r2 with
  | nan => exact absurd rfl n2
  | ninf => exact absurd m2.symm (by simpa [mass] using h0)
  | pinf => exact absurd m2.symm hfin
  | fin s =>
    obtain ⟨h1, h2⟩ := mass_sub_fin s n1
    refine ⟨r1.sub (.fin s), ?_, h2, ?_⟩
    · simp [logmeanexpWeighted, hlen, e1, e2]
    · rw [← m2, ← hz.2, ← m1]; exact h1

/-- **C35.** `log_normalize` divides by the total: the results have the same length, sum to
one and are proportional to the given vector (which is not all zero, nor infinite). -/
theorem C35_log_normalize (l : List Fl) (hl : ∀ a ∈ l, a ≠ .nan ∧ a ≠ .pinf)
    (h0 : total l ≠ 0) :
    ∃ q, logNormalize l = .ok q ∧ List.Forall₂ (fun b a => b ≠ .nan ∧ b ≠ .pinf ∧
      mass b * total l = mass a) q l ∧ total q = 1 := by
  obtain ⟨r, e, n, m⟩ := logsumexp_spec (l := l) (fun h => (hl _ h).1 rfl)
    (fun h => (hl _ h.1).2 rfl)
  have hfin : total l ≠ ⊤ := by
    rw [total_eq_rel 0 (fun h => (hl _ h).2 rfl)]; exact ENNReal.ofReal_ne_top
  cases r with
  | nan => exact absurd rfl n
  | ninf => exact absurd m.symm (by simpa [mass] using h0)
  | pinf => exact absurd m.symm hfin
  | fin s =>
    have key : ∀ k : List Fl, (∀ a ∈ k, a ≠ .nan ∧ a ≠ .pinf) →
        List.Forall₂ (fun b a => b ≠ .nan ∧ b ≠ .pinf ∧ mass b * total l = mass a)
          (k.map fun a => a.sub (.fin s)) k ∧
        total (k.map fun a => a.sub (.fin s)) * total l = total k := by
      intro k hk
      induction k with
      | nil => simp [total]
      | cons a k ih =>
        obtain ⟨i1, i2⟩ := ih fun x hx => hk x (by simp [hx])
        have ha := hk a (by simp)
        obtain ⟨h1, h2⟩ := mass_sub_fin s ha.1
        have hm : mass (a.sub (.fin s)) * total l = mass a := by rw [← m]; exact h1
        refine ⟨List.Forall₂.cons ⟨h2, ?_, hm⟩ i1, ?_⟩
        · cases a <;> simp_all [Fl.sub, Fl.neg, Fl.add]
        · simp only [total, List.map_cons, List.sum_cons] at i2 hm ⊢
          rw [add_mul, i2, hm]
    obtain ⟨k1, k2⟩ := key l hl
    refine ⟨_, by simp [logNormalize, e, Except.map], k1, ?_⟩
    have h := congrArg (fun x => x / total l) k2
    rwa [ENNReal.mul_div_cancel_right h0 hfin, ENNReal.div_self h0 hfin] at h

/-- The hypotheses are met with infinite entries. -/
example : total [.fin 0, .ninf, .fin (Real.log 3)] = 4 ∧
    ¬ (Fl.pinf ∈ [Fl.fin 0, .ninf, .fin (Real.log 3)] ∧
      Fl.ninf ∈ [Fl.fin 0, .ninf, .fin (Real.log 3)]) := by
  refine ⟨?_, by simp⟩
  simp only [total, List.map, mass, List.sum_cons, List.sum_nil, Real.exp_zero,
    Real.exp_log (by norm_num : (0 : ℝ) < 3)]
  norm_num

/-! ### C36 -/

/-- Log weights with their total neither zero nor infinite. -/
theorem logPflip_eq {α : Type} (logp : List Fl) (array : List α)
    (hl : ∀ a ∈ logp, a ≠ .nan ∧ a ≠ .pinf) (h0 : total logp ≠ 0)
    (hlen : logp.length = array.length) :
    ∃ p : List ℝ, p.length = logp.length ∧ (∀ x ∈ p, 0 ≤ x) ∧ p.sum = 1 ∧
      (∀ i (h : i < p.length) (h' : i < logp.length),
        ENNReal.ofReal p[i] * total logp = mass logp[i]) ∧
      ∀ u, 0 ≤ u → u < 1 → ∃ (h : choiceIdx p u < array.length),
        logPflip logp array u = .ok array[choiceIdx p u] := by
  obtain ⟨q, hq, hf, ht⟩ := C35_log_normalize logp hl h0
  -- the reals
  have key : ∀ (q : List Fl), (∀ b ∈ q, b ≠ .nan ∧ b ≠ .pinf) →
      ∃ p, flReals (q.map Fl.exp) = some p ∧ (∀ x ∈ p, 0 ≤ x) ∧
        List.Forall₂ (fun x b => ENNReal.ofReal x = mass b) p q ∧
        ENNReal.ofReal p.sum = total q := by
    intro q hq
    induction q with
    | nil => exact ⟨[], rfl, by simp, .nil, by simp [total]⟩
    | cons b q ih =>
      obtain ⟨p, e, hp, hpq, hs⟩ := ih fun x hx => hq x (by simp [hx])
      have hsum : 0 ≤ p.sum := List.sum_nonneg hp
      cases b with
      | nan => exact absurd rfl (hq _ (by simp)).1
      | pinf => exact absurd rfl (hq _ (by simp)).2
      | ninf =>
        refine ⟨0 :: p, by simp [Fl.exp, flReals, e], ?_, .cons (by simp [mass]) hpq, ?_⟩
        · simpa using hp
        · simpa [total, mass] using hs
      | fin x =>
        refine ⟨Real.exp x :: p, by simp [Fl.exp, flReals, e], ?_, .cons (by simp [mass]) hpq, ?_⟩
        · intro y hy
          rcases List.mem_cons.mp hy with rfl | hy
          · exact (Real.exp_pos x).le
          · exact hp y hy
        · simp only [total, List.map_cons, List.sum_cons, mass] at hs ⊢
          rw [ENNReal.ofReal_add (Real.exp_pos x).le hsum, hs]
  have hqn : ∀ b ∈ q, b ≠ .nan ∧ b ≠ .pinf := by
    intro b hb
    obtain ⟨i, hi, rfl⟩ := List.getElem_of_mem hb
    have := (List.forall₂_iff_get.mp hf).2 i hi (by rw [← hf.length_eq]; exact hi)
    exact ⟨this.1, this.2.1⟩
  obtain ⟨p, hp1, hp2, hp3, hp4⟩ := key q hqn
  have hpl : p.length = logp.length := hp3.length_eq.trans hf.length_eq
  have hps : p.sum = 1 := by
    rw [ht] at hp4
    have h1 : 0 ≤ p.sum := List.sum_nonneg hp2
    have h2 := congrArg ENNReal.toReal hp4
    rwa [ENNReal.toReal_ofReal h1, ENNReal.toReal_one] at h2
  refine ⟨p, hpl, hp2, hps, ?_, ?_⟩
  · intro i h h'
    have h1 := (List.forall₂_iff_get.mp hp3).2 i h (by rw [← hp3.length_eq]; exact h)
    have h2 := (List.forall₂_iff_get.mp hf).2 i (by rw [hf.length_eq]; exact h') h'
    simp only [List.get_eq_getElem] at h1 h2
    rw [h1]; exact h2.2.2
  · intro u hu hu1
    have hlt := choiceIdx_lt hp2 hps hu hu1
    have hlt' : choiceIdx p u < array.length := by rw [← hlen, ← hpl]; exact hlt
    refine ⟨hlt', ?_⟩
    simp only [logPflip, hq, hp1]
    have hd : p.map (fun x => x / p.sum) = p := by simp [hps]
    unfold pflip
    split
    · rename_i x a _
      have : choiceIdx [x] u = 0 := by simpa using hlt
      simp [this]
    · rw [if_neg (by
        rintro (h | h | ⟨x, hx, h⟩)
        · rw [hps] at h; exact one_ne_zero h
        · exact h (hpl.trans hlen)
        · rw [hps, div_one] at h; exact absurd (hp2 x hx) (not_le.mpr h))]
      rw [hd, List.getElem?_eq_getElem hlt']

/-- **C36.** Whatever the uniform draw, `log_pflip` returns an element of the array whose
weight is not zero. -/
theorem C36_draw_has_positive_weight {α : Type} (logp : List Fl) (array : List α)
    (hl : ∀ a ∈ logp, a ≠ .nan ∧ a ≠ .pinf) (h0 : total logp ≠ 0)
    (hlen : logp.length = array.length) (u : ℝ) (hu : 0 ≤ u) (hu1 : u < 1) :
    ∃ (i : ℕ) (h : i < array.length) (h' : i < logp.length),
      logPflip logp array u = .ok array[i] ∧ mass logp[i] ≠ 0 := by
  obtain ⟨p, hpl, hp0, hps, hpm, hd⟩ := logPflip_eq logp array hl h0 hlen
  obtain ⟨h, e⟩ := hd u hu hu1
  have hlt := choiceIdx_lt hp0 hps hu hu1
  refine ⟨choiceIdx p u, h, by omega, e, ?_⟩
  rw [← hpm _ hlt]
  have hi := (choiceIdx_iff hp0 hu hlt).mp rfl
  rw [prefSum_succ hlt] at hi
  have hpos : 0 < p[choiceIdx p u] := by linarith [hi.1, hi.2]
  exact mul_ne_zero (by simpa using hpos) h0

/-- **C36.** Each element is returned with probability proportional to its weight: for a
duplicate-free array, the draws `u ∈ [0,1)` that give element `i` have measure
`w i / Σ w`. -/
theorem C36_draw_probability {α : Type} (logp : List Fl) (array : List α) (hnd : array.Nodup)
    (hl : ∀ a ∈ logp, a ≠ .nan ∧ a ≠ .pinf) (h0 : total logp ≠ 0)
    (hlen : logp.length = array.length) (i : ℕ) (h : i < array.length) (h' : i < logp.length) :
    volume {u : ℝ | 0 ≤ u ∧ u < 1 ∧ logPflip logp array u = .ok array[i]}
      = mass logp[i] / total logp := by
  obtain ⟨p, hpl, hp0, hps, hpm, hd⟩ := logPflip_eq logp array hl h0 hlen
  have hip : i < p.length := by omega
  have : {u : ℝ | 0 ≤ u ∧ u < 1 ∧ logPflip logp array u = .ok array[i]}
      = {u : ℝ | 0 ≤ u ∧ u < 1 ∧ choiceIdx p u = i} := by
    ext u
    simp only [Set.mem_ofPred_eq]
    refine and_congr_right fun hu => and_congr_right fun hu1 => ?_
    obtain ⟨hlt, e⟩ := hd u hu hu1
    rw [e]
    constructor
    · intro he
      exact (List.Nodup.getElem_inj_iff hnd).mp (Except.ok.inj he)
    · intro he; simp [he]
  have hfin : total logp ≠ ⊤ := by
    rw [total_eq_rel 0 (fun h => (hl _ h).2 rfl)]; exact ENNReal.ofReal_ne_top
  rw [this, volume_choice hp0 hps hip, ← hpm i hip h', ENNReal.mul_div_cancel_right h0 hfin]

/-- **C36.** Asking for `N` draws gives `N` results, each the result of one draw. -/
theorem C36_draw_many {α : Type} (logp : List Fl) (array : List α) (us : List ℝ) (rs : List α)
    (h : logPflipMany logp array us = .ok rs) :
    List.Forall₂ (fun u r => logPflip logp array u = .ok r) us rs := by
  unfold logPflipMany at h
  induction us generalizing rs with
  | nil =>
    simp only [List.mapM_nil] at h
    cases h; exact .nil
  | cons u us ih =>
    rw [List.mapM_cons] at h
    cases hu : logPflip logp array u with
    | error e => rw [hu] at h; cases h
    | ok r =>
      rw [hu] at h
      cases ht : List.mapM (fun u => logPflip logp array u) us with
      | error e => rw [ht] at h; cases h
      | ok t =>
        rw [ht] at h
        cases h
        exact .cons hu (ih t ht)

/-- **C36.** `simulate(..., N)` returns exactly `N` samples, one per call, in order;
without `N` it returns the single sample. -/
theorem C36_simulate_many {α : Type} (f : ℕ → α) (N : ℕ) :
    simulateMany f none = .inl (f 0) ∧
    ∃ l, simulateMany f (some N) = .inr l ∧ l.length = N ∧ ∀ i < N, l[i]? = some (f i) := by
  refine ⟨rfl, _, rfl, by simp, fun i hi => ?_⟩
  simp [hi]

example : (∀ a ∈ [Fl.fin 0, .ninf, .fin 1], a ≠ .nan ∧ a ≠ .pinf) ∧
    total [Fl.fin 0, .ninf, .fin 1] ≠ 0 ∧ [7, 8, 9].Nodup := by
  refine ⟨by simp, ?_, by decide⟩
  simp [total, mass]

end Cgpm.Props
