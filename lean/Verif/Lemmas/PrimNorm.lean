import Verif.Lemmas.PrimChain
import Mathlib.Analysis.Analytic.Binomial
import Mathlib.Analysis.PSeries
import Mathlib.Analysis.SpecialFunctions.ImproperIntegrals

/-! Normalisation of the predictive distributions. -/
namespace Cgpm
open Classical Props Filter Topology

/-! ### geometric: the beta function telescopes -/

/-- `B(A, B+n) / B(A, B)` -/
noncomputable def betaRatio (A B : ℝ) (n : ℕ) : ℝ := Real.exp (betaln A (B + n) - betaln A B)

theorem betaRatio_pos (A B : ℝ) (n : ℕ) : 0 < betaRatio A B n := Real.exp_pos _

theorem betaRatio_zero (A B : ℝ) : betaRatio A B 0 = 1 := by simp [betaRatio]

theorem betaRatio_succ {A B : ℝ} (hA : 0 < A) (hB : 0 < B) (n : ℕ) :
    betaRatio A B (n + 1) = betaRatio A B n * ((B + n) / (A + (B + n))) := by
  have hBn : 0 < B + (n : ℝ) := by positivity
  have h := betaln_succ_right hA hBn
  have hs : 0 < A + (B + (n : ℝ)) := by positivity
  unfold betaRatio
  rw [← exp_log_sub hBn hs, ← Real.exp_add]
  congr 1
  push_cast
  rw [← add_assoc]
  linarith

theorem geometric_term {A B : ℝ} (hA : 0 < A) (hB : 0 < B) (n : ℕ) :
    Real.exp (betaln (A + 1) (B + n) - betaln A B) = betaRatio A B n - betaRatio A B (n + 1) := by
  have hBn : 0 < B + (n : ℝ) := by positivity
  have h := betaln_succ_left hA hBn
  have hs : 0 < A + (B + (n : ℝ)) := by positivity
  rw [betaRatio_succ hA hB]
  have e : betaln (A + 1) (B + n) - betaln A B
      = (betaln A (B + n) - betaln A B) + (Real.log A - Real.log (A + (B + n))) := by linarith
  rw [e, Real.exp_add, exp_log_sub hA hs]
  change betaRatio A B n * _ = _
  field_simp
  ring

theorem betaRatio_inv_ge {A B : ℝ} (hA : 0 < A) (hB : 0 < B) (n : ℕ) :
    1 + (A / max B 1) * ∑ i ∈ Finset.range n, 1 / ((i : ℝ) + 1) ≤ (betaRatio A B n)⁻¹ := by
  induction n with
  | zero => simp [betaRatio_zero]
  | succ n ih =>
    have hBn : 0 < B + (n : ℝ) := by positivity
    have hs : 0 < A + (B + (n : ℝ)) := by positivity
    have hm : 0 < max B 1 := lt_max_of_lt_right one_pos
    have h1 : 1 ≤ (betaRatio A B n)⁻¹ := by
      refine le_trans ?_ ih
      have : 0 ≤ ∑ i ∈ Finset.range n, 1 / ((i : ℝ) + 1) :=
        Finset.sum_nonneg fun i _ => by positivity
      have : 0 ≤ (A / max B 1) * ∑ i ∈ Finset.range n, 1 / ((i : ℝ) + 1) := by positivity
      linarith
    have hle : B + (n : ℝ) ≤ max B 1 * ((n : ℝ) + 1) := by
      have h2 : B ≤ max B 1 := le_max_left _ _
      have h3 : (n : ℝ) ≤ max B 1 * n := by
        have : (1 : ℝ) ≤ max B 1 := le_max_right _ _
        nlinarith [Nat.cast_nonneg (α := ℝ) n]
      linarith
    have hstep : (A / max B 1) * (1 / ((n : ℝ) + 1)) ≤ A / (B + n) := by
      rw [div_mul_div_comm, mul_one]
      exact div_le_div_of_nonneg_left hA.le hBn hle
    rw [betaRatio_succ hA hB, mul_inv, Finset.sum_range_succ, mul_add]
    have e : ((B + (n : ℝ)) / (A + (B + n)))⁻¹ = 1 + A / (B + n) := by field_simp; ring
    rw [e]
    have : 0 ≤ A / (B + (n : ℝ)) := by positivity
    nlinarith

theorem betaRatio_tendsto {A B : ℝ} (hA : 0 < A) (hB : 0 < B) :
    Tendsto (betaRatio A B) atTop (𝓝 0) := by
  have hm : 0 < max B 1 := lt_max_of_lt_right one_pos
  have h1 : Tendsto (fun n => (betaRatio A B n)⁻¹) atTop atTop := by
    refine tendsto_atTop_mono (betaRatio_inv_ge hA hB) ?_
    refine tendsto_atTop_add_const_left _ _ ?_
    exact Real.tendsto_sum_range_one_div_nat_succ_atTop.const_mul_atTop (by positivity)
  exact h1.inv_tendsto_atTop.congr fun n => inv_inv _

theorem geometric_hasSum {A B : ℝ} (hA : 0 < A) (hB : 0 < B) :
    HasSum (fun n : ℕ => Real.exp (betaln (A + 1) (B + n) - betaln A B)) 1 := by
  rw [hasSum_iff_tendsto_nat_of_nonneg (fun i => (Real.exp_pos _).le)]
  simp only [geometric_term hA hB]
  simp only [Finset.sum_range_sub', betaRatio_zero]
  simpa using (betaRatio_tendsto hA hB).const_sub 1

/-! ### poisson: the negative binomial series -/

theorem gamma_ascPochhammer {A : ℝ} (hA : 0 < A) (n : ℕ) :
    Real.Gamma (A + n) = Real.Gamma A * (ascPochhammer ℝ n).eval A := by
  induction n with
  | zero => simp
  | succ n ih =>
    rw [ascPochhammer_succ_eval]
    push_cast
    rw [← add_assoc, Real.Gamma_add_one (by positivity), ih]; ring

theorem choose_eq_gamma {A : ℝ} (hA : 0 < A) (n : ℕ) :
    Ring.choose (A + n - 1) n = Real.Gamma (A + n) / (Real.Gamma A * Real.Gamma (n + 1)) := by
  rw [← Ring.multichoose_eq]
  have h := Ring.factorial_nsmul_multichoose_eq_ascPochhammer A n
  rw [Polynomial.ascPochhammer_smeval_eq_eval, nsmul_eq_mul] at h
  have hf : ((n.factorial : ℕ) : ℝ) ≠ 0 := by exact_mod_cast n.factorial_ne_zero
  have hG : Real.Gamma A ≠ 0 := (Real.Gamma_pos_of_pos hA).ne'
  rw [Real.Gamma_nat_eq_factorial, gamma_ascPochhammer hA, ← h]
  field_simp

theorem poisson_hasSum {A B : ℝ} (hA : 0 < A) (hB : 0 < B) :
    HasSum (fun n : ℕ => Real.exp (gammaLogZ (A + n) (B + 1) - gammaLogZ A B - gammaln (n + 1)))
      1 := by
  have hx : (1 / (B + 1)) ∈ Metric.eball (0 : ℝ) 1 := by
    rw [Metric.mem_eball, edist_dist, dist_zero_right, Real.norm_eq_abs,
      abs_of_pos (by positivity), ENNReal.ofReal_lt_one, div_lt_one (by positivity)]
    linarith
  have h := (Real.one_div_one_sub_rpow_hasFPowerSeriesOnBall_zero A).hasSum hx
  simp only [zero_add, FormalMultilinearSeries.ofScalars_apply_eq, smul_eq_mul] at h
  have h1 := h.mul_left ((B / (B + 1)) ^ A)
  have hB1 : 0 < B + 1 := by positivity
  have e1 : (B / (B + 1)) ^ A * (1 / (1 - 1 / (B + 1)) ^ A) = 1 := by
    have : 1 - 1 / (B + 1) = B / (B + 1) := by field_simp; ring
    rw [this]
    have : (B / (B + 1)) ^ A ≠ 0 := (Real.rpow_pos_of_pos (by positivity) _).ne'
    field_simp
  rw [e1] at h1
  refine h1.congr_fun ?_
  intro n
  rw [choose_eq_gamma hA]
  have hAn : 0 < A + (n : ℝ) := by positivity
  have hn1 : 0 < (n : ℝ) + 1 := by positivity
  unfold gammaLogZ
  have e2 : gammaln (A + n) - (A + n) * Real.log (B + 1) - (gammaln A - A * Real.log B)
      - gammaln (n + 1)
      = gammaln (A + n) - gammaln A - gammaln (n + 1)
        + (Real.log B - Real.log (B + 1)) * A - n * Real.log (B + 1) := by ring
  rw [e2, Real.exp_sub, Real.exp_add, Real.exp_sub, Real.exp_sub, exp_gammaln hAn, exp_gammaln hA,
    exp_gammaln hn1, ← Real.log_div hB.ne' hB1.ne', ← Real.rpow_def_of_pos (by positivity),
    mul_comm (n : ℝ), ← Real.rpow_def_of_pos hB1, Real.rpow_natCast, one_div, inv_pow]
  field_simp

/-! ### exponential: a Pareto integral -/

theorem exponential_density {A B x : ℝ} (hA : 0 < A) (hB : 0 < B) (hx : 0 ≤ x) :
    Real.exp (gammaLogZ (A + 1) (B + x) - gammaLogZ A B) = A * B ^ A * (x + B) ^ (-(A + 1)) := by
  have hBx : 0 < x + B := by positivity
  unfold gammaLogZ
  rw [gammaln_add_one hA, Real.rpow_def_of_pos hB, Real.rpow_def_of_pos hBx]
  have e : A * Real.exp (Real.log B * A) * Real.exp (Real.log (x + B) * -(A + 1))
      = Real.exp (Real.log A + Real.log B * A + Real.log (x + B) * -(A + 1)) := by
    rw [Real.exp_add, Real.exp_add, Real.exp_log hA]
  rw [e]
  congr 1
  rw [add_comm B x]; ring

theorem exponential_integral {A B : ℝ} (hA : 0 < A) (hB : 0 < B) :
    ∫ x in Set.Ioi (0 : ℝ), Real.exp (gammaLogZ (A + 1) (B + x) - gammaLogZ A B) = 1 := by
  have e : ∀ x ∈ Set.Ioi (0 : ℝ), Real.exp (gammaLogZ (A + 1) (B + x) - gammaLogZ A B)
      = A * B ^ A * (x + B) ^ (-(A + 1)) := fun x hx => exponential_density hA hB (le_of_lt hx)
  rw [MeasureTheory.setIntegral_congr_fun measurableSet_Ioi e, MeasureTheory.integral_const_mul]
  have hs : ∫ x in Set.Ioi (0 : ℝ), (x + B) ^ (-(A + 1)) = ∫ t in Set.Ioi B, t ^ (-(A + 1)) := by
    have := (MeasureTheory.measurePreserving_add_right MeasureTheory.volume B).setIntegral_preimage_emb
      (measurableEmbedding_addRight B) (fun t : ℝ => t ^ (-(A + 1))) (Set.Ioi B)
    simpa using this
  rw [hs, integral_Ioi_rpow_of_lt (by linarith) hB]
  have e2 : -(A + 1) + 1 = -A := by ring
  rw [e2, Real.rpow_neg hB.le]
  have : B ^ A ≠ 0 := (Real.rpow_pos_of_pos hB _).ne'
  field_simp

end Cgpm
