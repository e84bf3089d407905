import Verif.Lemmas.MhUnit

/-!
Runs of `mh_sample` that end before the jump size is tuned.
-/
namespace Cgpm.Sampler
open Cgpm Classical MeasureTheory ProbabilityTheory
open scoped ENNReal

/-- The move of one iteration, in terms of the proposal. -/
noncomputable def stepMove (A : MhArgs) (l : ℝ → ℝ) (j : ℝ) (g : ℝ → ℝ≥0∞) (x : ℝ) : ℝ≥0∞ :=
  (jumpDraws A.D x j).E fun y =>
    if A.D.inside y then accProb l x y * g y + (1 - accProb l x y) * g x else 0

theorem mhAccept_ok {u y : ℝ} {b : Fl} {s s1 : MhState} (h : mhAccept u y b s = .ok s1) :
    (s1.x = y ∧ s1.logp = b ∨ s1.x = s.x ∧ s1.logp = s.logp) ∧ s1.iters = s.iters ∧
      s1.jumpStd = s.jumpStd ∧ s1.samples = s.samples := by
  unfold mhAccept at h
  cases hl : Fl.log (.fin u) with
  | error e => rw [hl] at h; cases h
  | ok lu =>
    rw [hl] at h
    simp only at h
    split at h <;> cases h
    · exact ⟨Or.inl ⟨rfl, rfl⟩, rfl, rfl, rfl⟩
    · exact ⟨Or.inr ⟨rfl, rfl⟩, rfl, rfl, rfl⟩

theorem run_eq {A : MhArgs} {l : ℝ → ℝ} (hA : ∀ x, A.D.inside x → A.f x = .ok (.fin (l x)))
    (hnum : A.num = 1) (hlag : A.lag = 1) (hb : A.burn + 1 < A.checkevery) (g : ℝ → ℝ≥0∞) :
    ∀ (n : ℕ) (s : MhState) (k : ℕ), s.samples = [] → 0 < s.iters → s.iters + k = A.burn + 1 →
      k < n → s.logp = .fin (l s.x) →
      (mhLoopDraws A n s).E (oneSample g) = (stepMove A l s.jumpStd)^[k + 1] g s.x := by
  intro n
  induction n with
  | zero => intro s k _ _ _ h; exact absurd h (Nat.not_lt_zero k)
  | succ n ih =>
    intro s k hs hi hk hkn hlp
    have hloop : mhLoopDraws A (n + 1) s = (mhStepDraws A s).bind (mhLoopDraws A n) := by
      rw [mhLoopDraws, if_neg (by rw [hnum, hs]; simp)]
    rw [hloop, Draws.E_bind, Function.iterate_succ_apply']
    have hst : s = { s with x := s.x, logp := .fin (l s.x) } := by
      cases s; simp only at hlp; rw [hlp]
    unfold mhStepDraws stepMove
    rw [Draws.E_bind]
    congr 1
    funext y
    by_cases hy : A.D.inside y
    · rw [if_neg (not_not.mpr hy), if_pos hy, hA y hy]
      simp only [Draws.E]
      have key := accept_E (A := A) (l := l) (s := s) (x := s.x) (y := y) (by rw [hlag]; decide)
        (fun _ s' => (mhLoopDraws A n s').E (oneSample g))
        ((stepMove A l s.jumpStd)^[k] g) (by
          intro u s1 s2 h1 h2
          obtain ⟨hx, hi1, hj1, hs1⟩ := mhAccept_ok h1
          have hlp1 : s1.logp = .fin (l s1.x) := by
            rcases hx with ⟨e1, e2⟩ | ⟨e1, e2⟩
            · rw [e1, e2]
            · rw [e1, e2]
          simp only at hi1 hj1 hs1
          have hmod : ¬ (s.iters % A.checkevery = 0) := by
            rw [Nat.mod_eq_of_lt (by omega)]
            omega
          cases k with
          | zero =>
            have hc : s2 = { s1 with samples := s1.samples ++ [s1.x] } := by
              unfold mhCollect at h2
              rw [if_pos (by omega), if_neg (by omega), hlag, Nat.mod_one, if_pos rfl] at h2
              cases h2; rfl
            have : (mhTune A s2).samples = [s1.x] := by
              unfold mhTune
              rw [hc]
              split <;> simp [hs1, hs]
            have hend : mhLoopDraws A n (mhTune A s2) = .pure (some [s1.x]) := by
              rw [mhLoopDraws.eq_def]
              simp only
              rw [if_pos (by rw [hnum, this]; simp), this]
            rw [hend]
            rfl
          | succ k =>
            have hc : s2 = s1 := by
              unfold mhCollect at h2
              rw [if_neg (by omega)] at h2
              cases h2; rfl
            have ht : mhTune A s2 = { s1 with iters := s1.iters + 1, aiters := s1.aiters + 1 } := by
              unfold mhTune
              rw [hc, hi1, if_neg hmod]
            have := ih { s1 with iters := s1.iters + 1, aiters := s1.aiters + 1 } k
              (by simp only [hs1, hs]) (by simp) (by simp only; omega) (by omega) hlp1
            rw [ht, this]
            simp only [hj1])
      rw [← hst] at key
      exact key
    · rw [if_pos hy, if_neg hy]
      rfl

theorem sample_eq {A : MhArgs} {l : ℝ → ℝ} (hA : ∀ x, A.D.inside x → A.f x = .ok (.fin (l x)))
    (hnum : A.num = 1) (hlag : A.lag = 1) (hb : A.burn + 1 < A.checkevery) (g : ℝ → ℝ≥0∞) {n : ℕ}
    (hn : A.burn < n) {x : ℝ} (hx : A.D.inside x) (j : ℝ) :
    (mhSampleDraws A n x j).E (oneSample g) = (stepMove A l j)^[A.burn + 1] g x := by
  unfold mhSampleDraws
  have hw : A.D.within x := ⟨hx.1.le, hx.2.le⟩
  rw [if_neg (not_not.mpr hw), hA x hx]
  simp only
  rw [run_eq hA hnum hlag hb g n _ A.burn rfl (by simp) (by simp only; omega) hn rfl]

end Cgpm.Sampler
