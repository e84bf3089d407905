import Mathlib.Analysis.SpecialFunctions.Gaussian.GaussianIntegral
import Mathlib.MeasureTheory.Integral.Prod
import Mathlib.MeasureTheory.Measure.Lebesgue.Integral

/-! The integral of the Student t density, up to affine changes of variable. -/
namespace Cgpm
open MeasureTheory Real Set

theorem lintegral_gamma {s c : ℝ} (hs : 0 < s) (hc : 0 < c) :
    ∫⁻ u in Ioi (0 : ℝ), ENNReal.ofReal (u ^ (s - 1) * Real.exp (-(c * u))) =
      ENNReal.ofReal ((1 / c) ^ s * Real.Gamma s) := by
  rw [← Real.integral_rpow_mul_exp_neg_mul_Ioi hs hc]
  rw [ofReal_integral_eq_lintegral_ofReal]
  · by_contra h
    have h2 := integral_undef h
    rw [Real.integral_rpow_mul_exp_neg_mul_Ioi hs hc] at h2
    have : 0 < (1 / c) ^ s * Real.Gamma s :=
      mul_pos (Real.rpow_pos_of_pos (by positivity) _) (Real.Gamma_pos_of_pos hs)
    linarith
  · refine (ae_restrict_iff' measurableSet_Ioi).mpr (Filter.Eventually.of_forall fun u hu => ?_)
    have hu' : (0 : ℝ) < u := hu
    show (0 : ℝ) ≤ _
    positivity

theorem lintegral_gauss {r : ℝ} (hr : 0 < r) :
    ∫⁻ y : ℝ, ENNReal.ofReal (Real.exp (-r * y ^ 2)) = ENNReal.ofReal (√(π / r)) := by
  rw [← integral_gaussian r, ofReal_integral_eq_lintegral_ofReal (integrable_exp_neg_mul_sq hr)]
  exact Filter.Eventually.of_forall fun y => (Real.exp_pos _).le

/-- The integral of an unnormalized Student t density centred at 0. -/
theorem lintegral_student {a b r : ℝ} (ha : 0 < a) (hb : 0 < b) (hr : 0 < r) :
    ∫⁻ y : ℝ, ENNReal.ofReal ((b + r * y ^ 2) ^ (-(a + 1 / 2))) =
      ENNReal.ofReal (b ^ (-a) * √(π / r) * Real.Gamma a / Real.Gamma (a + 1 / 2)) := by
  have hs : 0 < a + 1 / 2 := by positivity
  have hG := Real.Gamma_pos_of_pos hs
  have key : ∀ y : ℝ, ENNReal.ofReal ((b + r * y ^ 2) ^ (-(a + 1 / 2))) =
      ENNReal.ofReal (1 / Real.Gamma (a + 1 / 2)) *
        ∫⁻ u in Ioi (0 : ℝ), ENNReal.ofReal (u ^ (a + 1 / 2 - 1) *
          Real.exp (-((b + r * y ^ 2) * u))) := by
    intro y
    have hc : 0 < b + r * y ^ 2 := by positivity
    rw [lintegral_gamma hs hc, ← ENNReal.ofReal_mul (by positivity)]
    congr 1
    rw [one_div (b + r * y ^ 2), Real.inv_rpow hc.le, Real.rpow_neg hc.le]
    field_simp
  simp_rw [key]
  rw [lintegral_const_mul' _ _ ENNReal.ofReal_ne_top]
  rw [lintegral_lintegral_swap]
  · have inner : ∀ u ∈ Ioi (0 : ℝ), (∫⁻ y : ℝ, ENNReal.ofReal (u ^ (a + 1 / 2 - 1) *
          Real.exp (-((b + r * y ^ 2) * u)))) =
        ENNReal.ofReal (√(π / r)) * ENNReal.ofReal (u ^ (a - 1) * Real.exp (-(b * u))) := by
      intro u hu
      have hu' : (0 : ℝ) < u := hu
      have e : ∀ y : ℝ, ENNReal.ofReal (u ^ (a + 1 / 2 - 1) *
          Real.exp (-((b + r * y ^ 2) * u))) =
          ENNReal.ofReal (u ^ (a + 1 / 2 - 1) * Real.exp (-(b * u))) *
            ENNReal.ofReal (Real.exp (-(r * u) * y ^ 2)) := by
        intro y
        rw [← ENNReal.ofReal_mul (by positivity), mul_assoc, ← Real.exp_add]
        congr 3
        ring
      simp_rw [e]
      rw [lintegral_const_mul' _ _ ENNReal.ofReal_ne_top, lintegral_gauss (by positivity),
        ← ENNReal.ofReal_mul (by positivity), ← ENNReal.ofReal_mul (by positivity)]
      congr 1
      have e1 : √(π / (r * u)) = √(π / r) * u ^ (-(1 / 2 : ℝ)) := by
        rw [Real.rpow_neg hu'.le, ← Real.sqrt_eq_rpow, ← Real.sqrt_inv, ← Real.sqrt_mul (by positivity)]
        congr 1
        field_simp
      have e2 : u ^ (a + 1 / 2 - 1) * u ^ (-(1 / 2 : ℝ)) = u ^ (a - 1) := by
        rw [← Real.rpow_add hu']
        congr 1
        ring
      rw [e1, ← e2]
      ring
    rw [setLIntegral_congr_fun measurableSet_Ioi inner,
      lintegral_const_mul' _ _ ENNReal.ofReal_ne_top, lintegral_gamma ha hb,
      ← ENNReal.ofReal_mul (by positivity), ← ENNReal.ofReal_mul (by positivity)]
    congr 1
    rw [one_div b, Real.inv_rpow hb.le, Real.rpow_neg hb.le]
    field_simp
  · refine Measurable.aemeasurable ?_
    fun_prop

/-- The integral of an unnormalized Student t density. -/
theorem integral_student {a b r : ℝ} (m : ℝ) (ha : 0 < a) (hb : 0 < b) (hr : 0 < r) :
    ∫ y : ℝ, (b + r * (y - m) ^ 2) ^ (-(a + 1 / 2)) =
      b ^ (-a) * √(π / r) * Real.Gamma a / Real.Gamma (a + 1 / 2) := by
  have e := integral_sub_right_eq_self (μ := volume)
    (fun y : ℝ => (b + r * y ^ 2) ^ (-(a + 1 / 2))) m
  rw [e]
  have hpos : ∀ y : ℝ, 0 < b + r * y ^ 2 := fun y => by positivity
  rw [integral_eq_lintegral_of_nonneg_ae, lintegral_student ha hb hr, ENNReal.toReal_ofReal]
  · have := Real.Gamma_pos_of_pos ha
    have : 0 < Real.Gamma (a + 1 / 2) := Real.Gamma_pos_of_pos (by positivity)
    positivity
  · exact Filter.Eventually.of_forall fun y => (Real.rpow_pos_of_pos (hpos y) _).le
  · refine Measurable.aestronglyMeasurable ?_
    fun_prop

end Cgpm
