import Verif.Model.Samplers
import Verif.Lemmas.LogSpace
import Verif.Spec.LogSpace

/-! Property C44: the Markov chain helpers stay inside their domain. -/
namespace Cgpm.Props
open Cgpm Cgpm.Sampler

/-! ### Specification -/

/-- SPEC. The density is defined and positive at `x`. -/
def PositiveAt (f : ℝ → Except Exn Fl) (x : ℝ) : Prop :=
  ∃ y, f x = .ok y ∧ y ≠ .ninf ∧ y ≠ .nan

/-- SPEC. A uniform draw. -/
def Uniform (u : ℝ) : Prop := 0 ≤ u ∧ u < 1

/-! ### mh_sample -/

theorem lt_positive {u y : Fl} (h : u.lt y) : y ≠ .ninf ∧ y ≠ .nan := by
  refine ⟨?_, h.2.1⟩
  rintro rfl
  exact not_lt_bot h.2.2

theorem sub_lt_positive {l y x : Fl} (h : l.lt (y.sub x)) : y ≠ .ninf ∧ y ≠ .nan := by
  obtain ⟨h1, h2, h3⟩ := h
  constructor
  · rintro rfl
    cases x <;> simp [Fl.sub, Fl.add, Fl.neg, Fl.toE] at h2 h3
  · rintro rfl
    cases x <;> simp [Fl.sub, Fl.add, Fl.neg] at h2

/-- What an iteration of `mh_sample` preserves. -/
structure MhInv (A : MhArgs) (x0 : ℝ) (s : MhState) : Prop where
  cur : s.x = x0 ∨ (A.D.inside s.x ∧ PositiveAt A.f s.x)
  samples : ∀ y ∈ s.samples, y = x0 ∨ (A.D.inside y ∧ PositiveAt A.f y)
  logp : A.f s.x = .ok s.logp
  count : s.samples.length ≤ A.num
  iters : 1 ≤ s.iters

theorem mhStep_inv {A : MhArgs} {x0 : ℝ} {d : MhDraw} {s s' : MhState} (h : MhInv A x0 s)
    (hn : s.samples.length < A.num) (hs : mhStep A d s = .ok s') :
    MhInv A x0 s' ∧ s'.iters = s.iters + 1 ∧
      (A.lag ≠ 0 → s'.samples.length = s.samples.length +
        if A.burn < s.iters ∧ s.iters % A.lag = 0 then 1 else 0) := by
  classical
  unfold mhStep at hs
  cases hj : jumpfun A.D s.x s.jumpStd d.z with
  | error e => rw [hj] at hs; cases hs
  | ok x' =>
    rw [hj] at hs
    simp only at hs
    split at hs
    · cases hs
    rename_i hin
    rw [not_not] at hin
    cases hf : A.f x' with
    | error e => rw [hf] at hs; cases hs
    | ok lp =>
      rw [hf] at hs
      simp only at hs
      cases ha : mhAccept d.u x' lp s with
      | error e => rw [ha] at hs; cases hs
      | ok s1 =>
        rw [ha] at hs
        simp only at hs
        have h1 : (s1.x = x0 ∨ (A.D.inside s1.x ∧ PositiveAt A.f s1.x)) ∧ A.f s1.x = .ok s1.logp ∧
            s1.samples = s.samples ∧ s1.iters = s.iters := by
          unfold mhAccept at ha
          split at ha
          · cases ha
          · split at ha
            · rename_i hlt
              cases ha
              exact ⟨.inr ⟨hin, lp, hf, sub_lt_positive hlt⟩, hf, rfl, rfl⟩
            · cases ha
              exact ⟨h.cur, h.logp, rfl, rfl⟩
        obtain ⟨g1, g2, g3, g4⟩ := h1
        have h2 : ∀ s2, mhCollect A s1 = .ok s2 → s2.x = s1.x ∧ s2.logp = s1.logp ∧
            s2.iters = s1.iters ∧ (s2.samples = s1.samples ∨ s2.samples = s1.samples ++ [s1.x]) ∧
            (A.lag ≠ 0 → s2.samples.length = s1.samples.length +
              if A.burn < s1.iters ∧ s1.iters % A.lag = 0 then 1 else 0) := by
          intro s2 hc
          unfold mhCollect at hc
          split at hc
          · rename_i hb
            split at hc
            · cases hc
            · split at hc
              · rename_i hm
                cases hc
                exact ⟨rfl, rfl, rfl, .inr rfl, fun _ => by simp [hb, hm]⟩
              · rename_i hm
                cases hc
                exact ⟨rfl, rfl, rfl, .inl rfl, fun _ => by simp [hm]⟩
          · rename_i hb
            cases hc
            exact ⟨rfl, rfl, rfl, .inl rfl, fun _ => by simp [hb]⟩
        cases hc : mhCollect A s1 with
        | error e => rw [hc] at hs; cases hs
        | ok s2 =>
          rw [hc] at hs
          obtain ⟨k1, k2, k3, k4, k5⟩ := h2 s2 hc
          have h3 : s'.x = s2.x ∧ s'.logp = s2.logp ∧ s'.samples = s2.samples ∧
              s'.iters = s2.iters + 1 := by
            cases hs
            unfold mhTune
            split <;> exact ⟨rfl, rfl, rfl, rfl⟩
          obtain ⟨l1, l2, l3, l4⟩ := h3
          refine ⟨⟨?_, ?_, ?_, ?_, ?_⟩, ?_, ?_⟩
          · rw [l1, k1]; exact g1
          · rw [l3]
            intro y hy
            rcases k4 with e | e
            · rw [e, g3] at hy; exact h.samples y hy
            · rw [e, g3] at hy
              rcases List.mem_append.mp hy with hy | hy
              · exact h.samples y hy
              · rw [List.mem_singleton] at hy
                rw [hy]; exact g1
          · rw [l1, l2, k1, k2]; exact g2
          · rw [l3]
            rcases k4 with e | e
            · rw [e, g3]; exact h.count
            · rw [e, g3, List.length_append]; exact hn
          · omega
          · omega
          · intro hlag
            rw [l3, k5 hlag, g3, g4]

theorem mhLoop_inv {A : MhArgs} {x0 : ℝ} {draws : Nat → MhDraw} {n : Nat} {s s' : MhState}
    (h : MhInv A x0 s) (hs : mhLoop A draws n s = some (.ok s')) :
    MhInv A x0 s' ∧ s'.samples.length = A.num := by
  induction n generalizing s with
  | zero =>
    unfold mhLoop at hs
    split at hs
    · rename_i hn
      cases hs
      exact ⟨h, le_antisymm h.count hn⟩
    · cases hs
  | succ n ih =>
    unfold mhLoop at hs
    split at hs
    · rename_i hn
      cases hs
      exact ⟨h, le_antisymm h.count hn⟩
    · rename_i hn
      cases hst : mhStep A (draws s.iters) s with
      | error e => rw [hst] at hs; cases hs
      | ok s1 =>
        rw [hst] at hs
        exact ih (mhStep_inv h (by omega) hst).1 hs

theorem mhInv_start {A : MhArgs} {x : ℝ} {lp : Fl} (j : ℝ) (hf : A.f x = .ok lp) :
    MhInv A x ⟨x, lp, j, 0, 1, 0, 1, []⟩ :=
  ⟨.inl rfl, by simp, hf, Nat.zero_le _, le_refl _⟩

/-- **C44.** Whatever is drawn, `mh_sample` returns as many samples as asked; each is the starting
point, or lies strictly inside the domain and has a positive density: a proposal of density zero is
never accepted. -/
theorem C44_mh {A : MhArgs} {draws : Nat → MhDraw} {n : Nat} {x j : ℝ} {l : List ℝ}
    (h : mhSample A draws n x j = some (.ok l)) :
    l.length = A.num ∧ A.D.within x ∧
      ∀ y ∈ l, y = x ∨ (A.D.lo < (y : EReal) ∧ (y : EReal) < A.D.hi ∧ PositiveAt A.f y) := by
  classical
  unfold mhSample at h
  split at h
  · cases h
  rename_i hw
  rw [not_not] at hw
  cases hf : A.f x with
  | error e => rw [hf] at h; cases h
  | ok lp =>
    rw [hf] at h
    simp only at h
    cases hl : mhLoop A draws n ⟨x, lp, j, 0, 1, 0, 1, []⟩ with
    | none => rw [hl] at h; cases h
    | some r =>
      rw [hl] at h
      cases r with
      | error e => cases h
      | ok s =>
        cases h
        obtain ⟨h1, h2⟩ := mhLoop_inv (mhInv_start j hf) hl
        exact ⟨h2, hw, fun y hy => (h1.samples y hy).imp id fun ⟨a, b⟩ => ⟨a.1, a.2, b⟩⟩

/-- **C44.** A start outside of the domain is refused. -/
theorem C44_mh_outside {A : MhArgs} {draws : Nat → MhDraw} {n : Nat} {x j : ℝ}
    (h : ¬ (A.D.lo ≤ (x : EReal) ∧ (x : EReal) ≤ A.D.hi)) :
    mhSample A draws n x j = some (.error .assertion) := by
  classical
  unfold mhSample
  exact if_pos (c := ¬ A.D.within x) h

/-- **C44.** With a positive lag `mh_sample` ends, returning or raising, within
`burn + lag * (num_samples + 1)` iterations. -/
theorem C44_mh_ends {A : MhArgs} (draws : Nat → MhDraw) (x j : ℝ) (hlag : 0 < A.lag) {n : Nat}
    (hn : A.burn + A.lag * (A.num + 1) ≤ n) : mhSample A draws n x j ≠ none := by
  classical
  have key : ∀ n (s : MhState), MhInv A x s →
      s.iters ≤ 1 + A.burn + A.lag * (s.samples.length + 1) →
      (A.burn < s.iters → s.iters ≤ (A.burn / A.lag + s.samples.length + 1) * A.lag) →
      A.burn + A.lag * (A.num + 1) + 1 ≤ n + s.iters → mhLoop A draws n s ≠ none := by
    intro n
    induction n with
    | zero =>
      intro s hi h1 h2 hn
      unfold mhLoop
      split
      · simp
      · rename_i hlt
        exfalso
        have hlt' : s.samples.length + 1 ≤ A.num := by omega
        have : A.lag * (s.samples.length + 1) ≤ A.lag * A.num := Nat.mul_le_mul_left _ hlt'
        have e : A.lag * (A.num + 1) = A.lag * A.num + A.lag := by ring
        omega
    | succ n ih =>
      intro s hi h1 h2 hn
      unfold mhLoop
      split
      · simp
      · rename_i hlt
        cases hst : mhStep A (draws s.iters) s with
        | error e => simp
        | ok s' =>
          simp only
          obtain ⟨g1, g2, g3⟩ := mhStep_inv hi (by omega) hst
          have g3 := g3 (by omega)
          have hdm := Nat.div_add_mod A.burn A.lag
          have hmod := Nat.mod_lt A.burn hlag
          have h2' : A.burn < s'.iters → s'.iters ≤ (A.burn / A.lag + s'.samples.length + 1) * A.lag := by
            intro hb
            rw [g2] at hb ⊢
            rw [g3]
            by_cases hb' : A.burn < s.iters
            · have h2 := h2 hb'
              by_cases hm : s.iters % A.lag = 0
              · rw [if_pos ⟨hb', hm⟩]
                have : (A.burn / A.lag + (s.samples.length + 1) + 1) * A.lag =
                  (A.burn / A.lag + s.samples.length + 1) * A.lag + A.lag := by ring
                omega
              · rw [if_neg fun hh => hm hh.2]
                have hne : s.iters ≠ (A.burn / A.lag + s.samples.length + 1) * A.lag := by
                  intro e; rw [e] at hm; simp at hm
                have : (A.burn / A.lag + (s.samples.length + 0) + 1) * A.lag =
                  (A.burn / A.lag + s.samples.length + 1) * A.lag := by ring
                omega
            · rw [if_neg fun hh => hb' hh.1]
              have e : s.iters = A.burn := by omega
              have : (A.burn / A.lag + (s.samples.length + 0) + 1) * A.lag =
                A.lag * (A.burn / A.lag) + A.lag + s.samples.length * A.lag := by ring
              have : 0 ≤ s.samples.length * A.lag := Nat.zero_le _
              omega
          refine ih s' g1 ?_ h2' (by omega)
          by_cases hb : A.burn < s'.iters
          · have h3 := h2' hb
            have e : (A.burn / A.lag + s'.samples.length + 1) * A.lag =
              A.lag * (A.burn / A.lag) + A.lag * (s'.samples.length + 1) := by ring
            omega
          · omega
  unfold mhSample
  split
  · simp
  · cases hf : A.f x with
    | error e => simp
    | ok lp =>
      simp only [ne_eq, Option.map_eq_none_iff]
      refine key n _ (mhInv_start j hf) ?_ ?_ ?_
      · show 1 ≤ 1 + A.burn + A.lag * (0 + 1)
        omega
      · intro _
        show 1 ≤ (A.burn / A.lag + 0 + 1) * A.lag
        exact Nat.mul_pos (Nat.succ_pos _) hlag
      · show _ ≤ n + 1
        exact Nat.succ_le_succ hn

open Classical in
/-- **C44.** What is proposed: a nonnegative number on the half line, a number of the unit interval
on the unit interval (in both cases the end points are possible, and then refused), and a number
strictly inside otherwise. A negative jump is refused. -/
theorem C44_proposal {D : Domain} {x jstd y : ℝ} {z : Nat → ℝ} (h : jumpfun D x jstd z = .ok y) :
    0 ≤ jstd ∧
    (D.lo = 0 → D.hi = 1 → 0 ≤ y ∧ y ≤ 1) ∧ (0 ≤ D.lo → D.hi = ⊤ → 0 ≤ y ∧ y = |x + jstd * z 0|) ∧
    (¬ (D.lo = 0 ∧ D.hi = 1) → ¬ (0 ≤ D.lo ∧ D.hi = ⊤) →
      D.lo < (y : EReal) ∧ (y : EReal) < D.hi ∧ ∃ t < 1000, y = x + jstd * z t) := by
  unfold jumpfun at h
  split at h
  · cases h
  rename_i hj
  refine ⟨not_lt.mp hj, ?_⟩
  split at h
  · rename_i hd
    cases h
    refine ⟨fun _ _ => ?_, fun _ ht => ?_, fun hn => absurd hd hn⟩
    · split
      · exact ⟨Int.fract_nonneg _, (Int.fract_lt_one _).le⟩
      · rename_i h1; exact ⟨abs_nonneg _, not_lt.mp h1⟩
    · rw [hd.2] at ht; exact absurd ht (by rw [← EReal.coe_one]; exact EReal.coe_ne_top 1)
  · rename_i hd
    split at h
    · rename_i ht
      cases h
      exact ⟨fun h1 h2 => absurd ⟨h1, h2⟩ hd, fun _ _ => ⟨abs_nonneg _, rfl⟩, fun _ hn => absurd ht hn⟩
    · rename_i ht
      refine ⟨fun h1 h2 => absurd ⟨h1, h2⟩ hd, fun h1 h2 => absurd ⟨h1, h2⟩ ht, fun _ _ => ?_⟩
      split at h
      · rename_i t hf
        cases h
        have h1 := List.find?_some hf
        have h2 := List.mem_range.mp (List.mem_of_find?_eq_some hf)
        obtain ⟨h3, h4⟩ := of_decide_eq_true h1
        exact ⟨h3, h4, t, h2, rfl⟩
      · cases h

open Classical in
/-- **C44.** One move: the proposal is accepted exactly when the uniform draw is below the ratio of
the densities. -/
theorem C44_mh_move {A : MhArgs} (h1 : A.num = 1) (hb : A.burn = 0) (hl : A.lag = 1)
    {draws : Nat → MhDraw} {x j a x' : ℝ} {b : Fl} (hx : A.D.within x)
    (hf : A.f x = .ok (.fin a)) (hj : jumpfun A.D x j (draws 1).z = .ok x') (hin : A.D.inside x')
    (hf' : A.f x' = .ok b) (hnan : b ≠ .nan) (hpinf : b ≠ .pinf) (hu : 0 < (draws 1).u) (n : Nat) :
    mhSample A draws (n + 1) x j = some (.ok
      [if ENNReal.ofReal ((draws 1).u * Real.exp a) < mass b then x' else x]) := by
  have hacc : ∀ s : MhState, s.logp = .fin a → mhAccept (draws 1).u x' b s =
      .ok (if ENNReal.ofReal ((draws 1).u * Real.exp a) < mass b then
        { s with x := x', logp := b, accepted := s.accepted + 1,
                 rate := ((s.accepted : ℝ) + 1) / s.aiters } else s) := by
    intro s hs
    unfold mhAccept
    have hlog : Fl.log (.fin (draws 1).u) = .ok (.fin (Real.log (draws 1).u)) := by
      simp [Fl.log, hu]
    rw [hlog]
    simp only [hs]
    have hiff : (Fl.fin (Real.log (draws 1).u)).lt (b.sub (.fin a)) ↔
        ENNReal.ofReal ((draws 1).u * Real.exp a) < mass b := by
      cases b with
      | nan => exact absurd rfl hnan
      | pinf => exact absurd rfl hpinf
      | ninf => simp [Fl.lt, Fl.sub, Fl.add, Fl.neg, Fl.toE, mass]
      | fin y =>
        have e : Real.log (draws 1).u < y - a ↔ (draws 1).u * Real.exp a < Real.exp y := by
          rw [← lt_div_iff₀ (Real.exp_pos a), ← Real.exp_sub, Real.log_lt_iff_lt_exp hu]
        simp only [Fl.lt, Fl.sub, Fl.add, Fl.neg, Fl.toE, mass, ne_eq, reduceCtorEq,
          not_false_eq_true, true_and, EReal.coe_lt_coe_iff, ← sub_eq_add_neg]
        rw [e, ENNReal.ofReal_lt_ofReal_iff (Real.exp_pos y)]
    by_cases hlt : ENNReal.ofReal ((draws 1).u * Real.exp a) < mass b
    · rw [if_pos (hiff.mpr hlt), if_pos hlt]
    · rw [if_neg fun hh => hlt (hiff.mp hh), if_neg hlt]
  unfold mhSample
  rw [if_neg (not_not.mpr hx), hf]
  simp only
  have hstep : ∃ s', mhStep A (draws 1) ⟨x, .fin a, j, 0, 1, 0, 1, []⟩ = .ok s' ∧ s'.samples =
      [if ENNReal.ofReal ((draws 1).u * Real.exp a) < mass b then x' else x] := by
    unfold mhStep
    simp only [hj]
    rw [if_neg (not_not.mpr hin), hf']
    simp only [hacc ⟨x, .fin a, j, 0, 1, 0, 1, []⟩ rfl]
    have hcol : ∀ s : MhState, s.iters = 1 → s.samples = [] →
        mhCollect A s = .ok { s with samples := [s.x] } := by
      intro s e1 e2
      unfold mhCollect
      rw [hb, hl, e1, e2]
      simp
    have htune : ∀ s : MhState, (mhTune A s).samples = s.samples := by
      intro s; unfold mhTune; split <;> rfl
    by_cases hlt : ENNReal.ofReal ((draws 1).u * Real.exp a) < mass b
    · simp only [if_pos hlt]
      rw [hcol _ rfl rfl]
      exact ⟨_, rfl, htune _⟩
    · simp only [if_neg hlt]
      rw [hcol _ rfl rfl]
      exact ⟨_, rfl, htune _⟩
  obtain ⟨s', e1, e2⟩ := hstep
  have hloop : mhLoop A draws (n + 1) ⟨x, .fin a, j, 0, 1, 0, 1, []⟩ = some (.ok s') := by
    unfold mhLoop
    rw [if_neg (by simp [h1])]
    simp only [e1]
    have hlen : A.num ≤ s'.samples.length := by rw [e2, h1]; simp
    unfold mhLoop
    rw [if_pos hlen]
  rw [hloop]
  simp [Except.map, e2]

/-! ### slice_sample -/

section
variable {f : ℝ → Except Exn Fl} {D : Domain} {w : ℝ} {u : Fl}

theorem toReal_lo {x y : ℝ} {D : Domain} (h1 : (y : EReal) < D.lo) (h2 : D.lo ≤ (x : EReal)) :
    ((D.lo.toReal : ℝ) : EReal) = D.lo :=
  EReal.coe_toReal (ne_top_of_le_ne_top (EReal.coe_ne_top x) h2)
    (ne_bot_of_gt h1)

theorem toReal_hi {x y : ℝ} {D : Domain} (h1 : D.hi < (y : EReal)) (h2 : (x : EReal) ≤ D.hi) :
    ((D.hi.toReal : ℝ) : EReal) = D.hi :=
  EReal.coe_toReal (ne_top_of_lt h1)
    (fun e => by rw [e] at h2; exact absurd h2 (by simp))

theorem extendLo_le (hw : 0 < w) {x : ℝ} (hx : D.lo ≤ (x : EReal)) {n : Nat} {a a' : ℝ}
    (ha : D.lo ≤ (a : EReal)) (hax : a ≤ x) (h : extendLo f u D w n a = some (.ok a')) :
    D.lo ≤ (a' : EReal) ∧ a' ≤ x := by
  classical
  induction n generalizing a with
  | zero =>
    unfold extendLo at h
    cases hf : f a with
    | error e => rw [hf] at h; cases h
    | ok y =>
      rw [hf] at h
      simp only at h
      split at h
      · cases h
      · cases h; exact ⟨ha, hax⟩
  | succ n ih =>
    unfold extendLo at h
    cases hf : f a with
    | error e => rw [hf] at h; cases h
    | ok y =>
      rw [hf] at h
      simp only at h
      split at h
      · split at h
        · rename_i hlt
          cases h
          have e := toReal_lo hlt hx
          exact ⟨e.symm.le, by rw [← EReal.coe_le_coe_iff, e]; exact hx⟩
        · rename_i hlt
          exact ih (not_lt.mp hlt) (by linarith) h
      · cases h; exact ⟨ha, hax⟩

theorem extendHi_le (hw : 0 < w) {x : ℝ} (hx : (x : EReal) ≤ D.hi) {n : Nat} {b b' : ℝ}
    (hb : (b : EReal) ≤ D.hi) (hxb : x ≤ b) (h : extendHi f u D w n b = some (.ok b')) :
    (b' : EReal) ≤ D.hi ∧ x ≤ b' := by
  classical
  induction n generalizing b with
  | zero =>
    unfold extendHi at h
    cases hf : f b with
    | error e => rw [hf] at h; cases h
    | ok y =>
      rw [hf] at h
      simp only at h
      split at h
      · cases h
      · cases h; exact ⟨hb, hxb⟩
  | succ n ih =>
    unfold extendHi at h
    cases hf : f b with
    | error e => rw [hf] at h; cases h
    | ok y =>
      rw [hf] at h
      simp only at h
      split at h
      · split at h
        · rename_i hlt
          cases h
          have e := toReal_hi hlt hx
          exact ⟨e.le, by rw [← EReal.coe_le_coe_iff, e]; exact hx⟩
        · rename_i hlt
          exact ih (not_lt.mp hlt) (by linarith) h
      · cases h; exact ⟨hb, hxb⟩

/-- **C44.** The slice interval lies in the domain and contains the current point. -/
theorem C44_slice_interval {r x a b : ℝ} {n : Nat} (hw : 0 < w) (hr : Uniform r)
    (hx : D.lo ≤ (x : EReal) ∧ (x : EReal) ≤ D.hi)
    (h : findSliceInterval f r x u D w n = some (.ok (a, b))) :
    D.lo ≤ (a : EReal) ∧ a ≤ x ∧ x ≤ b ∧ (b : EReal) ≤ D.hi := by
  classical
  unfold findSliceInterval at h
  have h0 : x - r * w ≤ x := by have := mul_nonneg hr.1 hw.le; linarith
  have h1 : x ≤ x + (1 - r) * w := by
    have := mul_nonneg (sub_nonneg.mpr hr.2.le) hw.le; linarith
  simp only at h
  split at h
  · cases h
  · cases h
  · rename_i a0 hA
    have hA' : D.lo ≤ (a0 : EReal) ∧ a0 ≤ x := by
      split at hA
      · rename_i hlt
        cases hA
        have e := toReal_lo hlt hx.1
        exact ⟨e.symm.le, by rw [← EReal.coe_le_coe_iff, e]; exact hx.1⟩
      · rename_i hlt
        exact extendLo_le hw hx.1 (not_lt.mp hlt) h0 hA
    split at h
    · cases h
    · cases h
    · rename_i b0 hB
      have hB' : (b0 : EReal) ≤ D.hi ∧ x ≤ b0 := by
        split at hB
        · rename_i hlt
          cases hB
          have e := toReal_hi hlt hx.2
          exact ⟨e.le, by rw [← EReal.coe_le_coe_iff, e]; exact hx.2⟩
        · rename_i hlt
          exact extendHi_le hw hx.2 (not_lt.mp hlt) h1 hB
      cases h
      exact ⟨hA'.1, hA'.2, hB'.2, hB'.1⟩

theorem shrink_ok {v : Nat → ℝ} (hv : ∀ k, Uniform (v k)) {x : ℝ} {n k : Nat} {a b y : ℝ}
    (ha : D.lo ≤ (a : EReal)) (hax : a ≤ x) (hxb : x ≤ b) (hb : (b : EReal) ≤ D.hi)
    (h : shrink f u x v n k a b = some (.ok y)) :
    D.lo ≤ (y : EReal) ∧ (y : EReal) ≤ D.hi ∧ ∃ p, f y = .ok p ∧ u.lt p := by
  classical
  have hab : ∀ {a b : ℝ} {k : Nat}, a ≤ x → x ≤ b → a ≤ a + (b - a) * v k ∧ a + (b - a) * v k ≤ b := by
    intro a b k h1 h2
    have h3 : 0 ≤ b - a := by linarith
    constructor
    · nlinarith [(hv k).1]
    · nlinarith [(hv k).2]
  induction n generalizing k a b with
  | zero =>
    unfold shrink at h
    cases hf : f (a + (b - a) * v k) with
    | error e => rw [hf] at h; cases h
    | ok p =>
      rw [hf] at h
      simp only at h
      split at h
      · rename_i hlt
        cases h
        exact ⟨le_trans ha (EReal.coe_le_coe_iff.mpr (hab hax hxb).1),
          le_trans (EReal.coe_le_coe_iff.mpr (hab hax hxb).2) hb, p, hf, hlt⟩
      · cases h
  | succ n ih =>
    unfold shrink at h
    cases hf : f (a + (b - a) * v k) with
    | error e => rw [hf] at h; cases h
    | ok p =>
      rw [hf] at h
      simp only at h
      split at h
      · rename_i hlt
        cases h
        exact ⟨le_trans ha (EReal.coe_le_coe_iff.mpr (hab hax hxb).1),
          le_trans (EReal.coe_le_coe_iff.mpr (hab hax hxb).2) hb, p, hf, hlt⟩
      · split at h
        · rename_i hlt
          exact ih ha hax hlt.le (le_trans (EReal.coe_le_coe_iff.mpr (hab hax hxb).2) hb) h
        · rename_i hlt
          exact ih (le_trans ha (EReal.coe_le_coe_iff.mpr (hab hax hxb).1)) (not_lt.mp hlt) hxb hb h

end

/-- **C44.** One move of `slice_sample` from a point of the domain ends in the domain, at a point
whose density exceeds the level drawn under the density of the current point. -/
theorem C44_slice_move {A : SliceArgs} (hw : 0 < A.w) {d : SliceDraw} (hr : Uniform d.r)
    (hv : ∀ k, Uniform (d.v k)) {n : Nat} {x y : ℝ}
    (hx : A.D.lo ≤ (x : EReal) ∧ (x : EReal) ≤ A.D.hi) (h : sliceMove A d n x = some (.ok y)) :
    A.D.lo ≤ (y : EReal) ∧ (y : EReal) ≤ A.D.hi ∧ ∃ p q, A.f x = .ok p ∧ A.f y = .ok q ∧
      ((Fl.fin (Real.log d.u)).add p).lt q := by
  unfold sliceMove at h
  cases hl : Fl.log (.fin d.u) with
  | error e => rw [hl] at h; cases h
  | ok lu =>
    rw [hl] at h
    simp only at h
    have hlu : lu = .fin (Real.log d.u) := by
      unfold Fl.log at hl
      simp only at hl
      split at hl
      · cases hl; rfl
      · cases hl
    cases hf : A.f x with
    | error e => rw [hf] at h; cases h
    | ok p =>
      rw [hf] at h
      simp only at h
      split at h
      · cases h
      · cases h
      · rename_i a b hi
        obtain ⟨h1, h2, h3, h4⟩ := C44_slice_interval hw hr hx hi
        obtain ⟨g1, g2, q, g3, g4⟩ := shrink_ok hv h1 h2 h3 h4 h
        exact ⟨g1, g2, p, q, rfl, g3, hlu ▸ g4⟩

/-- **C44.** Whatever is drawn, `slice_sample` started in its domain returns as many samples as
asked; each lies in the domain and has a positive density. -/
theorem C44_slice {A : SliceArgs} (hw : 0 < A.w) {draws : Nat → SliceDraw}
    (hr : ∀ i, Uniform (draws i).r) (hv : ∀ i k, Uniform ((draws i).v k)) {m n : Nat} {x : ℝ}
    (hx : A.D.lo ≤ (x : EReal) ∧ (x : EReal) ≤ A.D.hi) {l : List ℝ}
    (h : sliceSample A draws m n x = some (.ok l)) :
    l.length = A.num ∧
      ∀ y ∈ l, A.D.lo ≤ (y : EReal) ∧ (y : EReal) ≤ A.D.hi ∧ PositiveAt A.f y := by
  have key : ∀ n i (x : ℝ) (s : List ℝ), A.D.lo ≤ (x : EReal) ∧ (x : EReal) ≤ A.D.hi →
      s.length ≤ A.num →
      (∀ y ∈ s, A.D.lo ≤ (y : EReal) ∧ (y : EReal) ≤ A.D.hi ∧ PositiveAt A.f y) →
      sliceLoop A draws m n i x s = some (.ok l) → l.length = A.num ∧
        ∀ y ∈ l, A.D.lo ≤ (y : EReal) ∧ (y : EReal) ≤ A.D.hi ∧ PositiveAt A.f y := by
    intro n
    induction n with
    | zero =>
      intro i x s hx hl hs h
      unfold sliceLoop at h
      split at h
      · rename_i hn
        cases h
        exact ⟨le_antisymm hl hn, hs⟩
      · cases h
    | succ n ih =>
      intro i x s hx hl hs h
      unfold sliceLoop at h
      split at h
      · rename_i hn
        cases h
        exact ⟨le_antisymm hl hn, hs⟩
      · rename_i hn
        simp only at h
        split at h
        · cases h
        · cases h
        · rename_i x' hm
          obtain ⟨g1, g2, p, q, -, g3, g4⟩ := C44_slice_move hw (hr _) (hv _) hx hm
          split at h
          · split at h
            · cases h
            · split at h
              · refine ih _ _ _ ⟨g1, g2⟩ (by rw [List.length_append]; simp; omega) ?_ h
                intro y hy
                rcases List.mem_append.mp hy with hy | hy
                · exact hs y hy
                · rw [List.mem_singleton] at hy
                  subst hy
                  exact ⟨g1, g2, q, g3, lt_positive g4⟩
              · exact ih _ _ _ ⟨g1, g2⟩ hl hs h
          · exact ih _ _ _ ⟨g1, g2⟩ hl hs h
  exact key n 0 x [] hx (Nat.zero_le _) (by simp) h

/-! ### rejection_sample -/

/-- **C44.** Whatever is drawn, `rejection_sample` returns as many samples as asked; each is one of
the proposals, of positive density, bounded by the density of the proposal. -/
theorem C44_rejection {target proposal : ℝ → ℝ} {N : Nat} {x u : Nat → ℝ} {n : Nat} {l : List ℝ}
    (hu : ∀ i, Uniform (u i)) (hp : ∀ y, 0 ≤ proposal y)
    (h : rejectionSample target proposal N x u n = some (.ok l)) :
    l.length = N ∧ ∀ y ∈ l, ∃ i, y = x i ∧ 0 < target y ∧ target y ≤ proposal y ∧
      u i * proposal y < target y := by
  classical
  have key : ∀ n i (s : List ℝ), s.length ≤ N →
      (∀ y ∈ s, ∃ i, y = x i ∧ 0 < target y ∧ target y ≤ proposal y ∧ u i * proposal y < target y) →
      rejLoop target proposal N x u n i s = some (.ok l) →
      l.length = N ∧ ∀ y ∈ l, ∃ i, y = x i ∧ 0 < target y ∧ target y ≤ proposal y ∧
        u i * proposal y < target y := by
    intro n
    induction n with
    | zero =>
      intro i s hl hs h
      unfold rejLoop at h
      split at h
      · rename_i hn
        cases h
        exact ⟨le_antisymm hl hn, hs⟩
      · cases h
    | succ n ih =>
      intro i s hl hs h
      unfold rejLoop at h
      split at h
      · rename_i hn
        cases h
        exact ⟨le_antisymm hl hn, hs⟩
      · rename_i hn
        simp only at h
        split at h
        · cases h
        · rename_i hle
          split at h
          · rename_i hacc
            refine ih _ _ (by rw [List.length_append]; simp; omega) ?_ h
            intro y hy
            rcases List.mem_append.mp hy with hy | hy
            · exact hs y hy
            · rw [List.mem_singleton] at hy
              subst hy
              exact ⟨i, rfl, lt_of_le_of_lt (mul_nonneg (hu i).1 (hp _)) hacc, not_lt.mp hle, hacc⟩
          · exact ih _ _ hl hs h
  exact key n 0 [] (Nat.zero_le _) (by simp) h

/-! ### The parameter transitions -/

theorem firstSample_ok {r : Option (Except Exn (List ℝ))} {y : ℝ}
    (h : firstSample r = some (.ok y)) : ∃ l, r = some (.ok (y :: l)) := by
  unfold firstSample at h
  split at h <;> cases h
  exact ⟨_, rfl⟩

/-- **C44.** The parameters of a beta component stay valid: whatever is drawn, and also when the
transition raises, a positive strength stays positive and a balance strictly between 0 and 1 stays
there. -/
theorem C44_beta_params {f : Params → Except Exn Fl} {d1 d2 : Nat → MhDraw} {n : Nat} {p : Params}
    (hs : 0 < p.first) (hb : 0 < p.second ∧ p.second < 1) {r : Out Params}
    (h : betaTransition f d1 d2 n p = some r) :
    0 < r.state.first ∧ 0 < r.state.second ∧ r.state.second < 1 := by
  unfold betaTransition at h
  split at h
  · cases h
  · cases h; exact ⟨hs, hb⟩
  · rename_i s h1
    obtain ⟨l, hl⟩ := firstSample_ok h1
    have hs' : 0 < s := by
      rcases (C44_mh hl).2.2 s (by simp) with e | ⟨e, -⟩
      · rw [e]; exact hs
      · exact EReal.coe_pos.mp e
    split at h
    · cases h
    · cases h; exact ⟨hs', hb⟩
    · rename_i b h2
      obtain ⟨l', hl'⟩ := firstSample_ok h2
      cases h
      rcases (C44_mh hl').2.2 b (by simp) with e | ⟨e1, e2, -⟩
      · simp only [Out.state, e]; exact ⟨hs', hb⟩
      · exact ⟨hs', EReal.coe_pos.mp e1, by exact_mod_cast (show ((b : ℝ) : EReal) < 1 from e2)⟩

/-- **C44.** The same for a truncated normal component: the mean stays within the bounds and the
deviation stays positive. -/
theorem C44_normal_trunc_params {f1 f2 : Params → Except Exn Fl} {l h : ℝ} {d1 d2 : Nat → MhDraw}
    {n : Nat} {p : Params} (hm : l ≤ p.first ∧ p.first ≤ h) (hs : 0 < p.second) {r : Out Params}
    (hr : normalTruncTransition f1 f2 l h d1 d2 n p = some r) :
    l ≤ r.state.first ∧ r.state.first ≤ h ∧ 0 < r.state.second := by
  unfold normalTruncTransition at hr
  split at hr
  · cases hr
  · cases hr; exact ⟨hm.1, hm.2, hs⟩
  · rename_i s h1
    obtain ⟨l', hl⟩ := firstSample_ok h1
    have hs' : l ≤ s ∧ s ≤ h := by
      rcases (C44_mh hl).2.2 s (by simp) with e | ⟨e1, e2, -⟩
      · rw [e]; exact hm
      · exact ⟨(EReal.coe_lt_coe_iff.mp e1).le, (EReal.coe_lt_coe_iff.mp e2).le⟩
    split at hr
    · cases hr
    · cases hr; exact ⟨hs'.1, hs'.2, hs⟩
    · rename_i b h2
      obtain ⟨l'', hl'⟩ := firstSample_ok h2
      cases hr
      rcases (C44_mh hl').2.2 b (by simp) with e | ⟨e1, -⟩
      · simp only [Out.state, e]; exact ⟨hs'.1, hs'.2, hs⟩
      · exact ⟨hs'.1, hs'.2, EReal.coe_pos.mp e1⟩

/-! ### The hypotheses can be met -/

/-- On (0, 1), from 1/2: a proposal of 3/4 with the same density is accepted, one of density zero is
not. -/
example : mhSample ⟨fun _ => .ok (.fin 0), ⟨0, 1⟩, 1, 0, 1⟩ (fun _ => ⟨fun _ => 1, 1 / 2⟩) 1 (1 / 2) (1 / 4) =
    some (.ok [3 / 4]) ∧
    mhSample ⟨fun x => .ok (if x = 1 / 2 then .fin 0 else .ninf), ⟨0, 1⟩, 1, 0, 1⟩
      (fun _ => ⟨fun _ => 1, 1 / 2⟩) 1 (1 / 2) (1 / 4) = some (.ok [1 / 2]) := by
  classical
  have hx : Domain.within ⟨0, 1⟩ (1 / 2) := by
    constructor
    · exact EReal.coe_nonneg.mpr (by norm_num)
    · exact EReal.coe_le_coe_iff.mpr (by norm_num : (1 / 2 : ℝ) ≤ 1)
  have hin : Domain.inside ⟨0, 1⟩ (3 / 4) := by
    constructor
    · exact EReal.coe_pos.mpr (by norm_num)
    · exact EReal.coe_lt_coe_iff.mpr (by norm_num : (3 / 4 : ℝ) < 1)
  have hj : jumpfun ⟨0, 1⟩ (1 / 2) (1 / 4) (fun _ => 1) = .ok (3 / 4) := by
    have h1 : |(1 / 2 : ℝ) + 1 / 4 * 1| = 3 / 4 := by rw [abs_of_pos] <;> norm_num
    simp only [jumpfun, h1, and_self, if_true]
    norm_num
  constructor
  · rw [C44_mh_move (x' := 3 / 4) (a := 0) (b := .fin 0) rfl rfl rfl hx rfl hj hin rfl (by simp)
      (by simp) (by norm_num)]
    rw [if_pos]
    simp [mass]
  · rw [C44_mh_move (x' := 3 / 4) (a := 0) (b := .ninf) rfl rfl rfl hx (by simp) hj hin
      (by norm_num) (by simp) (by simp) (by norm_num)]
    rw [if_neg]
    simp [mass]

/-- On (0, 1) with a constant density, from 1/2: the interval grows to the whole domain, and the
draw 1/4 is returned. -/
example : sliceSample ⟨fun _ => .ok (.fin 0), ⟨0, 1⟩, 1, 1, 1, 1⟩ (fun _ => ⟨1 / 2, 1 / 2, fun _ => 1 / 4⟩)
    1 1 (1 / 2) = some (.ok [1 / 4]) := by
  classical
  have hl : Fl.log (.fin (1 / 2)) = .ok (.fin (Real.log (1 / 2))) := by
    simp [Fl.log]
  have hlt : (Fl.lt ((Fl.fin (Real.log (1 / 2))).add (.fin 0)) (.fin 0)) := by
    refine ⟨by simp [Fl.add], by simp, ?_⟩
    have : Real.log (1 / 2) < 0 := Real.log_neg (by norm_num) (by norm_num)
    simpa [Fl.add, Fl.toE] using this
  have e1 : ¬ (((1 / 2 - 1 / 2 * 1 : ℝ) : EReal) < 0) := by norm_num
  have e2 : (((1 / 2 - 1 / 2 * 1 - 1 : ℝ) : EReal) < 0) :=
    EReal.coe_lt_coe_iff.mpr (by norm_num : (1 / 2 - 1 / 2 * 1 - 1 : ℝ) < 0)
  have e3 : ¬ ((1 : EReal) < ((1 / 2 + (1 - 1 / 2) * 1 : ℝ) : EReal)) := by
    have : ((1 / 2 + (1 - 1 / 2) * 1 : ℝ) : EReal) = 1 := by norm_num
    rw [this]; simp
  have e4 : ((1 : EReal) < ((1 / 2 + (1 - 1 / 2) * 1 + 1 : ℝ) : EReal)) :=
    EReal.coe_lt_coe_iff.mpr (by norm_num : (1 : ℝ) < 1 / 2 + (1 - 1 / 2) * 1 + 1)
  have hi : findSliceInterval (fun _ => .ok (.fin 0)) (1 / 2) (1 / 2)
      ((Fl.fin (Real.log (1 / 2))).add (.fin 0)) ⟨0, 1⟩ 1 1 = some (.ok (0, 1)) := by
    simp only [findSliceInterval, extendLo, extendHi, hlt, e1, e2, e3, e4, if_true, if_false]
    simp
  have hm : sliceMove ⟨fun _ => .ok (.fin 0), ⟨0, 1⟩, 1, 1, 1, 1⟩ ⟨1 / 2, 1 / 2, fun _ => 1 / 4⟩ 1
      (1 / 2) = some (.ok (1 / 4)) := by
    simp only [sliceMove, hl, hi]
    unfold shrink
    simp only [hlt, if_true]
    norm_num
  unfold sliceSample sliceLoop
  simp only [hm]
  simp [sliceLoop]

end Cgpm.Props
