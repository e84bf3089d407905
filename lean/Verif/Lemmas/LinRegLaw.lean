import Verif.Lemmas.MvnLaw
import Verif.Lemmas.LinRegQuery

/-! The law of what a linear regression draws. -/
namespace Cgpm.Spec.LinReg
open Cgpm Cgpm.LinReg Matrix MeasureTheory ProbabilityTheory
open scoped ENNReal

variable {p : Nat} {h : Hyp p}

theorem lintegral_gauss {n : Nat} {S : Matrix (Fin n) (Fin n) ℝ} (hS : S.PosDef) (m : Fin n → ℝ) :
    ∫⁻ w, ENNReal.ofReal (Factor.gauss w m S) = 1 := by
  have h1 := Factor.integral_gauss hS m
  have hi : Integrable fun w => Factor.gauss w m S := by
    by_contra hn
    rw [integral_undef hn] at h1
    exact zero_ne_one h1
  rw [← ofReal_integral_eq_lintegral_ofReal hi (Filter.Eventually.of_forall fun w =>
    (Factor.gauss_pos hS).le), h1, ENNReal.ofReal_one]

theorem lintegral_gamma {a b : ℝ} (ha : 0 < a) (hb : 0 < b) :
    ∫⁻ τ in Set.Ioi 0, ENNReal.ofReal (gammaPDFReal a b τ) = 1 := by
  have h1 := integral_gammaPDF ha hb
  have hi : IntegrableOn (fun τ => gammaPDFReal a b τ) (Set.Ioi 0) := by
    by_contra hn
    rw [integral_undef hn] at h1
    exact zero_ne_one h1
  rw [← ofReal_integral_eq_lintegral_ofReal hi (Filter.Eventually.of_forall fun τ =>
    gammaPDFReal_nonneg ha hb τ), h1, ENNReal.ofReal_one]

theorem lintegral_prior (hv : ValidHyp h) {τ : ℝ} (hτ : 0 < τ) :
    ∫⁻ w, ENNReal.ofReal (prior h τ w) = ENNReal.ofReal (gammaPDFReal h.a h.b τ) := by
  unfold prior
  simp only [ENNReal.ofReal_mul (gammaPDFReal_nonneg hv.a hv.b τ)]
  rw [lintegral_const_mul' _ _ ENNReal.ofReal_ne_top, lintegral_gauss (hv.V.smul (by positivity)),
    mul_one]

/-- The evidence, as an integral of non-negative functions. -/
theorem lintegral_evidence (hv : ValidHyp h) (rows : List (ℝ × (Fin p → ℝ))) :
    ∫⁻ τ in Set.Ioi 0, ∫⁻ w, ENNReal.ofReal (prior h τ w * likelihood rows τ w)
      = ENNReal.ofReal (evidence h rows) := by
  have hv' := postHyp_valid hv rows
  rw [setLIntegral_congr_fun (g := fun τ => ENNReal.ofReal (Real.exp (logEv h rows)) *
    ENNReal.ofReal (gammaPDFReal (postHyp h rows).a (postHyp h rows).b τ)) measurableSet_Ioi
      fun τ hτ => by
        simp only [bayes hv rows hτ, ENNReal.ofReal_mul (Real.exp_pos _).le]
        rw [lintegral_const_mul' _ _ ENNReal.ofReal_ne_top, lintegral_prior hv' hτ],
    lintegral_const_mul' _ _ ENNReal.ofReal_ne_top, lintegral_gamma hv'.a hv'.b, mul_one,
    evidence_eq hv]

/-- The joint density of the coefficients and a value given the precision, without inverses of variable
matrices. -/
noncomputable def condPdf (h : Hyp p) (v : Fin p → ℝ) (q : ℝ × (Fin p → ℝ) × ℝ) : ℝ :=
  (Real.exp (-(q.1 / 2) * ((q.2.1 - h.mu) ⬝ᵥ h.V⁻¹ *ᵥ (q.2.1 - h.mu)))
      * Real.sqrt (1 / h.V.det) * Real.sqrt ((q.1 / (2 * Real.pi)) ^ p))
    * (Real.exp (-(q.1 / 2) * (q.2.2 - q.2.1 ⬝ᵥ v) ^ 2) * (q.1 / (2 * Real.pi)) ^ ((1 : ℝ) / 2))

theorem condPdf_eq (hv : ValidHyp h) (v : Fin p → ℝ) {τ : ℝ} (hτ : 0 < τ) (w : Fin p → ℝ) (x : ℝ) :
    condPdf h v (τ, w, x) = Factor.gauss w h.mu (τ⁻¹ • h.V) * normalPdf (w ⬝ᵥ v) τ⁻¹ x := by
  have h1 := likelihood_eq [(x, v)] hτ w
  unfold likelihood at h1
  simp only [List.map_cons, List.map_nil, List.prod_cons, List.prod_nil, mul_one, List.sum_cons,
    List.sum_nil, add_zero, List.length_cons, List.length_nil, zero_add, Nat.cast_one] at h1
  unfold condPdf
  rw [h1, gauss_scaled hv.V hτ]

theorem condPdf_measurable (h : Hyp p) (v : Fin p → ℝ) : Measurable (condPdf h v) := by
  unfold condPdf
  have h1 : Measurable fun q : ℝ × (Fin p → ℝ) × ℝ => q.1 := measurable_fst
  have h2 : Continuous fun q : ℝ × (Fin p → ℝ) × ℝ => q.2.1 - h.mu := by fun_prop
  have h3 : Continuous fun q : ℝ × (Fin p → ℝ) × ℝ => (q.2.1 - h.mu) ⬝ᵥ h.V⁻¹ *ᵥ (q.2.1 - h.mu) :=
    h2.dotProduct (Continuous.matrix_mulVec continuous_const h2)
  have h4 : Continuous fun q : ℝ × (Fin p → ℝ) × ℝ => q.2.2 - q.2.1 ⬝ᵥ v := by
    have : Continuous fun q : ℝ × (Fin p → ℝ) × ℝ => q.2.1 ⬝ᵥ v :=
      Continuous.dotProduct (by fun_prop) continuous_const
    exact Continuous.sub (by fun_prop) this
  have h5 := h3.measurable
  have h6 := h4.measurable
  refine Measurable.mul ?_ ?_
  · refine Measurable.mul (Measurable.mul ?_ measurable_const) ?_
    · exact Real.measurable_exp.comp ((h1.div_const 2).neg.mul h5)
    · exact Real.continuous_sqrt.measurable.comp ((h1.div_const _).pow_const p)
  · refine Measurable.mul ?_ ?_
    · exact Real.measurable_exp.comp ((h1.div_const 2).neg.mul (h6.pow_const 2))
    · exact (h1.div_const _).pow_const _

theorem condPdf_evidence (hv : ValidHyp h) (v : Fin p → ℝ) (x : ℝ) :
    ∫⁻ τ in Set.Ioi 0, ENNReal.ofReal (gammaPDFReal h.a h.b τ)
        * ∫⁻ w, ENNReal.ofReal (condPdf h v (τ, w, x))
      = ENNReal.ofReal (evidence h [(x, v)]) := by
  rw [← lintegral_evidence hv]
  refine setLIntegral_congr_fun measurableSet_Ioi fun τ hτ => ?_
  beta_reduce
  rw [← lintegral_const_mul' _ _ ENNReal.ofReal_ne_top]
  refine lintegral_congr fun w => ?_
  rw [condPdf_eq hv v hτ, ← ENNReal.ofReal_mul (gammaPDFReal_nonneg hv.a hv.b τ)]
  simp [likelihood, prior, mul_assoc]

theorem npNormal_pdf (m : ℝ) {τ : ℝ} (hτ : 0 < τ) {F : ℝ → ℝ≥0∞} (hF : Measurable F) :
    ∫⁻ x, F x ∂npNormal m (Real.sqrt (1 / τ)) = ∫⁻ x, ENNReal.ofReal (normalPdf m τ⁻¹ x) * F x := by
  unfold npNormal
  have h1 : Real.sqrt (1 / τ) ^ 2 = τ⁻¹ := by rw [Real.sq_sqrt (by positivity), one_div]
  have h2 : Real.toNNReal τ⁻¹ ≠ 0 := by
    rw [Ne, Real.toNNReal_eq_zero, not_le]; positivity
  rw [h1, gaussianReal_of_var_ne_zero _ h2,
    lintegral_withDensity_eq_lintegral_mul _ (measurable_gaussianPDF _ _) hF]
  refine lintegral_congr fun x => ?_
  rw [Pi.mul_apply]
  congr 1
  unfold gaussianPDF gaussianPDFReal normalPdf
  rw [Real.coe_toNNReal _ (by positivity)]
  congr 1
  rw [mul_comm, ← div_eq_mul_inv]

theorem npGamma_pdf {a b : ℝ} {H : ℝ → ℝ≥0∞} (hH : Measurable H) (H' : ℝ → ℝ≥0∞)
    (he : ∀ τ, 0 < τ → H' τ = H τ) :
    ∫⁻ τ, H' τ ∂npGamma a (1 / b) = ∫⁻ τ in Set.Ioi 0, ENNReal.ofReal (gammaPDFReal a b τ) * H τ := by
  unfold npGamma gammaMeasure
  rw [one_div_one_div]
  have hm : Measurable (gammaPDF a b) := (measurable_gammaPDFReal a b).ennreal_ofReal
  have h0 : ∀ᵐ τ ∂volume.withDensity (gammaPDF a b), 0 < τ := by
    rw [ae_withDensity_iff hm]
    have : ∀ᵐ τ : ℝ, τ ≠ 0 := by simp [ae_iff]
    filter_upwards [this] with τ h1 h2
    rcases lt_trichotomy τ 0 with h3 | h3 | h3
    · exact absurd (gammaPDF_of_neg h3) h2
    · exact absurd h3 h1
    · exact h3
  rw [lintegral_congr_ae (g := H) (h0.mono fun τ hτ => he τ hτ),
    lintegral_withDensity_eq_lintegral_mul _ hm hH]
  rw [← lintegral_indicator measurableSet_Ioi]
  refine lintegral_congr_ae ?_
  have : ∀ᵐ τ : ℝ, τ ≠ 0 := by simp [ae_iff]
  filter_upwards [this] with τ h1
  rw [Pi.mul_apply]
  by_cases h2 : 0 < τ
  · rw [Set.indicator_of_mem (show τ ∈ Set.Ioi (0 : ℝ) from h2)]; rfl
  · rw [Set.indicator_of_notMem (show τ ∉ Set.Ioi (0 : ℝ) from h2), gammaPDF_of_neg (lt_of_le_of_ne (not_lt.mp h2) h1), zero_mul]

/-- The law of a value drawn in the way of the code. -/
theorem E_predictive {factor : Root} (hf : factor.Good) (hv : ValidHyp h) (v : Fin p → ℝ)
    {F : ℝ → ℝ≥0∞} (hF : Measurable F) :
    ((Obj.parameterDraws factor h.a h.b h.mu h.V).bind fun q =>
      Draws.draw (npNormal (v ⬝ᵥ q.2) (Real.sqrt q.1)) fun x => .pure x).E F
      = ∫⁻ x, F x * ENNReal.ofReal (evidence h [(x, v)]) := by
  have hc := (condPdf_measurable h v).ennreal_ofReal
  have hK : Measurable fun q : ℝ × (Fin p → ℝ) × ℝ => ENNReal.ofReal (condPdf h v q) * F q.2.2 :=
    hc.mul (hF.comp (measurable_snd.comp measurable_snd))
  have hg : Measurable fun τ : ℝ => ENNReal.ofReal (gammaPDFReal h.a h.b τ) :=
    (measurable_gammaPDFReal _ _).ennreal_ofReal
  have hnn : ∀ (τ : ℝ) (w : Fin p → ℝ), 0 < τ → 0 ≤ Factor.gauss w h.mu (τ⁻¹ • h.V) :=
    fun τ w hτ => (Factor.gauss_pos (hv.V.smul (by positivity))).le
  have hH : Measurable fun τ : ℝ => ∫⁻ q : (Fin p → ℝ) × ℝ,
      ENNReal.ofReal (condPdf h v (τ, q)) * F q.2 := hK.lintegral_prod_right'
  unfold Obj.parameterDraws
  simp only [Draws.bind, Draws.E]
  rw [npGamma_pdf hH]
  · have e1 : ∀ τ : ℝ, ENNReal.ofReal (gammaPDFReal h.a h.b τ)
        * ∫⁻ q : (Fin p → ℝ) × ℝ, ENNReal.ofReal (condPdf h v (τ, q)) * F q.2
        = ∫⁻ x, ENNReal.ofReal (gammaPDFReal h.a h.b τ)
          * ((∫⁻ w, ENNReal.ofReal (condPdf h v (τ, w, x))) * F x) := by
      intro τ
      have hm : Measurable fun q : (Fin p → ℝ) × ℝ => ENNReal.ofReal (condPdf h v (τ, q)) * F q.2 :=
        hK.comp (measurable_const.prodMk measurable_id)
      rw [lintegral_const_mul' _ _ ENNReal.ofReal_ne_top, Measure.volume_eq_prod,
        lintegral_prod_symm _ hm.aemeasurable]
      congr 1
      refine lintegral_congr fun x => ?_
      show ∫⁻ w, ENNReal.ofReal (condPdf h v (τ, w, x)) * F x = _
      refine lintegral_mul_const _ ?_
      exact hc.comp (measurable_const.prodMk (measurable_id.prodMk measurable_const))
    simp only [e1]
    have hm2 : Measurable fun q : ℝ × ℝ => ENNReal.ofReal (gammaPDFReal h.a h.b q.1)
        * ((∫⁻ w, ENNReal.ofReal (condPdf h v (q.1, w, q.2))) * F q.2) := by
      refine (hg.comp measurable_fst).mul (Measurable.mul ?_ (hF.comp measurable_snd))
      have : Measurable fun q : (ℝ × ℝ) × (Fin p → ℝ) =>
          ENNReal.ofReal (condPdf h v (q.1.1, q.2, q.1.2)) :=
        hc.comp ((measurable_fst.comp measurable_fst).prodMk
          (measurable_snd.prodMk (measurable_snd.comp measurable_fst)))
      exact this.lintegral_prod_right'
    rw [lintegral_lintegral_swap hm2.aemeasurable]
    refine lintegral_congr fun x => ?_
    rw [← condPdf_evidence hv v x]
    have hm3 : Measurable fun τ : ℝ => ENNReal.ofReal (gammaPDFReal h.a h.b τ)
        * ∫⁻ w, ENNReal.ofReal (condPdf h v (τ, w, x)) := by
      refine hg.mul ?_
      have : Measurable fun q : ℝ × (Fin p → ℝ) => ENNReal.ofReal (condPdf h v (q.1, q.2, x)) :=
        hc.comp (measurable_fst.prodMk (measurable_snd.prodMk measurable_const))
      exact this.lintegral_prod_right'
    rw [mul_comm, ← lintegral_mul_const _ hm3]
    refine lintegral_congr fun τ => ?_
    rw [mul_assoc]
  · intro τ hτ
    rw [Draws.E_bind, Draws.E_bind]
    simp only [Draws.E]
    have hN : ∀ w : Fin p → ℝ, ∫⁻ x, F x ∂npNormal (v ⬝ᵥ w) (Real.sqrt (1 / τ))
        = ∫⁻ x, ENNReal.ofReal (normalPdf (w ⬝ᵥ v) τ⁻¹ x) * F x := fun w => by
      rw [npNormal_pdf _ hτ hF, dotProduct_comm]
    simp only [hN]
    have hmN : Measurable fun w : Fin p → ℝ =>
        ∫⁻ x, ENNReal.ofReal (normalPdf (w ⬝ᵥ v) τ⁻¹ x) * F x := by
      have hd : Continuous fun q : (Fin p → ℝ) × ℝ => q.1 ⬝ᵥ v :=
        Continuous.dotProduct continuous_fst continuous_const
      have : Measurable fun q : (Fin p → ℝ) × ℝ =>
          ENNReal.ofReal (normalPdf (q.1 ⬝ᵥ v) τ⁻¹ q.2) * F q.2 := by
        refine Measurable.mul (Measurable.ennreal_ofReal ?_) (hF.comp measurable_snd)
        unfold normalPdf
        exact (Continuous.div_const (Real.continuous_exp.comp ((((continuous_snd.sub hd).pow 2).neg).div_const _)) _).measurable
      exact this.lintegral_prod_right'
    have hm : Measurable fun q : (Fin p → ℝ) × ℝ => ENNReal.ofReal (condPdf h v (τ, q)) * F q.2 :=
      hK.comp (measurable_const.prodMk measurable_id)
    have hS : ((1 / τ) • h.V).PosDef := hv.V.smul (by positivity)
    rw [E_npMultivariateNormal hf h.mu hS hmN, one_div, Measure.volume_eq_prod,
      lintegral_prod _ hm.aemeasurable]
    refine lintegral_congr fun w => ?_
    rw [← lintegral_const_mul' _ _ ENNReal.ofReal_ne_top]
    refine lintegral_congr fun x => ?_
    rw [condPdf_eq hv v hτ, ENNReal.ofReal_mul (hnn τ w hτ), mul_assoc]

/-- The predictive density is measurable, in the value and the covariates. -/
theorem evidence_measurable (hv : ValidHyp h) :
    Measurable fun q : ℝ × (Fin p → ℝ) => evidence h [q] := by
  have hQ : ∀ q : ℝ × (Fin p → ℝ), postPrec h [q] = h.V⁻¹ + Matrix.vecMulVec q.2 q.2 := by
    intro q
    unfold postPrec
    congr 1
    ext i j
    rw [Matrix.mul_apply]
    simp [covs, Matrix.vecMulVec_apply]
  have hdet : Continuous fun q : ℝ × (Fin p → ℝ) => (postPrec h [q]).det := by
    simp only [hQ]
    exact (continuous_const.add (continuous_snd.matrix_vecMulVec continuous_snd)).matrix_det
  have hdot : Continuous fun q : ℝ × (Fin p → ℝ) => h.mu ⬝ᵥ q.2 :=
    Continuous.dotProduct continuous_const continuous_snd
  have hrate : Measurable fun q : ℝ × (Fin p → ℝ) => postRate h [q] := by
    have : (fun q : ℝ × (Fin p → ℝ) => postRate h [q]) = fun q => h.b
        + 1 / 2 * (h.V⁻¹.det / (postPrec h [q]).det) * (q.1 - h.mu ⬝ᵥ q.2) ^ 2 :=
      funext fun q => postRate_single hv q.1 q.2
    rw [this]
    exact measurable_const.add ((measurable_const.mul (measurable_const.div hdet.measurable)).mul
      ((measurable_fst.sub hdot.measurable).pow_const 2))
  simp only [evidence_eq hv, logEv, calcLogZ, List.length_cons, List.length_nil]
  refine Real.measurable_exp.comp (Measurable.sub (measurable_const.add (Measurable.sub
    (measurable_const.add ?_) (measurable_const.mul (Real.measurable_log.comp hrate))))
      measurable_const)
  exact Real.measurable_log.comp (Real.continuous_sqrt.measurable.comp
    (measurable_const.div hdet.measurable))

end Cgpm.Spec.LinReg
