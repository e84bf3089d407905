import Verif.Lemmas.LinRegLaw

/-! The predictive density of a linear regression is bounded. -/
namespace Cgpm.Spec.LinReg
open Cgpm Cgpm.LinReg Matrix MeasureTheory ProbabilityTheory
open scoped ENNReal

variable {p : Nat} {h : Hyp p}

theorem gamma_shift {a b τ : ℝ} (ha : 0 < a) (hb : 0 < b) (hτ : 0 < τ) :
    gammaPDFReal a b τ * τ = a / b * gammaPDFReal (a + 1) b τ := by
  unfold gammaPDFReal
  rw [if_pos hτ.le, if_pos hτ.le, Real.Gamma_add_one ha.ne', Real.rpow_add hb, Real.rpow_one,
    show a + 1 - 1 = (a - 1) + 1 by ring, Real.rpow_add hτ, Real.rpow_one]
  have h1 : Real.Gamma a ≠ 0 := (Real.Gamma_pos_of_pos ha).ne'
  field_simp

theorem normalPdf_le (m x : ℝ) {τ : ℝ} (hτ : 0 < τ) : normalPdf m τ⁻¹ x ≤ 1 + τ := by
  unfold normalPdf
  have h1 : Real.exp (-(x - m) ^ 2 / (2 * τ⁻¹)) ≤ 1 := by
    rw [Real.exp_le_one_iff]
    exact div_nonpos_of_nonpos_of_nonneg (by nlinarith [sq_nonneg (x - m)]) (by positivity)
  have h2 : 0 < Real.sqrt (2 * Real.pi * τ⁻¹) := Real.sqrt_pos.mpr (by positivity)
  rw [div_le_iff₀ h2]
  refine h1.trans ?_
  have h3 : 1 ≤ (1 + τ) ^ 2 * (2 * Real.pi * τ⁻¹) := by
    have hpi := Real.two_le_pi
    have : (1 + τ) ^ 2 * (2 * Real.pi * τ⁻¹) = (1 + τ) ^ 2 * (2 * Real.pi) / τ := by
      field_simp
    rw [this, le_div_iff₀ hτ]
    nlinarith [sq_nonneg τ]
  calc (1 : ℝ) = Real.sqrt 1 := Real.sqrt_one.symm
    _ ≤ Real.sqrt ((1 + τ) ^ 2 * (2 * Real.pi * τ⁻¹)) := Real.sqrt_le_sqrt h3
    _ = (1 + τ) * Real.sqrt (2 * Real.pi * τ⁻¹) := by
      rw [Real.sqrt_mul (by positivity), Real.sqrt_sq (by positivity)]

theorem evidence_bounded (hv : ValidHyp h) (q : ℝ × (Fin p → ℝ)) :
    ENNReal.ofReal (evidence h [q]) ≤ 1 + ENNReal.ofReal (h.a / h.b) := by
  rw [← lintegral_evidence hv]
  calc ∫⁻ τ in Set.Ioi 0, ∫⁻ w, ENNReal.ofReal (prior h τ w * likelihood [q] τ w)
      ≤ ∫⁻ τ in Set.Ioi 0, (ENNReal.ofReal (gammaPDFReal h.a h.b τ)
          + ENNReal.ofReal (h.a / h.b) * ENNReal.ofReal (gammaPDFReal (h.a + 1) h.b τ)) := by
        refine setLIntegral_mono' measurableSet_Ioi fun τ hτ => ?_
        have hτ' : (0 : ℝ) < τ := hτ
        calc ∫⁻ w, ENNReal.ofReal (prior h τ w * likelihood [q] τ w)
            ≤ ∫⁻ w, ENNReal.ofReal (prior h τ w) * ENNReal.ofReal (1 + τ) := by
              refine lintegral_mono fun w => ?_
              rw [← ENNReal.ofReal_mul' (by positivity)]
              refine ENNReal.ofReal_le_ofReal (mul_le_mul_of_nonneg_left ?_ ?_)
              · simp only [likelihood, List.map_cons, List.map_nil, List.prod_cons, List.prod_nil,
                  mul_one]
                exact normalPdf_le _ _ hτ'
              · unfold prior
                exact mul_nonneg (gammaPDFReal_nonneg hv.a hv.b τ)
                  (Factor.gauss_pos (hv.V.smul (by positivity))).le
          _ = ENNReal.ofReal (gammaPDFReal h.a h.b τ) * ENNReal.ofReal (1 + τ) := by
              rw [lintegral_mul_const' _ _ ENNReal.ofReal_ne_top, lintegral_prior hv hτ']
          _ = _ := by
              rw [← ENNReal.ofReal_mul (gammaPDFReal_nonneg hv.a hv.b τ), mul_add, mul_one,
                gamma_shift hv.a hv.b hτ', ENNReal.ofReal_add (gammaPDFReal_nonneg hv.a hv.b τ)
                  (mul_nonneg (div_pos hv.a hv.b).le
                    (gammaPDFReal_nonneg (by linarith [hv.a]) hv.b τ)),
                ENNReal.ofReal_mul (div_pos hv.a hv.b).le]
    _ = 1 + ENNReal.ofReal (h.a / h.b) := by
        rw [lintegral_add_left (measurable_gammaPDFReal _ _).ennreal_ofReal, lintegral_gamma hv.a hv.b,
          lintegral_const_mul' _ _ ENNReal.ofReal_ne_top,
          lintegral_gamma (by linarith [hv.a]) hv.b, mul_one]

end Cgpm.Spec.LinReg
