import Verif.Spec.RegDraws
import Verif.Lemmas.GaussInt
import Verif.Lemmas.StateDraws
import Mathlib.MeasureTheory.Constructions.Pi

/-! The law of `rng.multivariate_normal` is the multivariate normal density. -/
namespace Cgpm
open Matrix MeasureTheory ProbabilityTheory
open Cgpm.Spec.Factor (gauss)
open scoped ENNReal

theorem npNormal_std : npNormal 0 1 = volume.withDensity (gaussianPDF 0 1) := by
  unfold npNormal
  rw [one_pow, Real.toNNReal_one, gaussianReal_of_var_ne_zero _ one_ne_zero]

theorem E_npStandardNormal {n : Nat} {F : (Fin n → ℝ) → ℝ≥0∞} (hF : Measurable F) :
    (npStandardNormal n).E F = ∫⁻ z, (∏ i, gaussianPDF 0 1 (z i)) * F z := by
  induction n with
  | zero =>
    unfold npStandardNormal
    simp only [Draws.E, Finset.univ_eq_empty, Finset.prod_empty, one_mul]
    rw [lintegral_unique]
    have : (volume : Measure (Fin 0 → ℝ)) Set.univ = 1 := by simp [volume_pi]
    rw [this, mul_one]
    exact congrArg F (Subsingleton.elim _ _)
  | succ n ih =>
    have hc : Measurable fun q : ℝ × (Fin n → ℝ) => (Fin.cons q.1 q.2 : Fin (n + 1) → ℝ) := by
      refine measurable_pi_iff.mpr fun i => ?_
      refine Fin.cases ?_ (fun j => ?_) i
      · simpa using measurable_fst
      · simp only [Fin.cons_succ]
        exact (measurable_pi_apply j).comp measurable_snd
    have hm : ∀ z : ℝ, Measurable fun zs : Fin n → ℝ => F (Fin.cons z zs) := fun z =>
      hF.comp (hc.comp (measurable_const.prodMk measurable_id))
    have hprod : Measurable fun q : Fin n → ℝ => ∏ i, gaussianPDF 0 1 (q i) :=
      Finset.measurable_prod _ fun i _ => (measurable_gaussianPDF 0 1).comp (measurable_pi_apply i)
    unfold npStandardNormal
    simp only [Draws.E]
    have e1 : ∀ z : ℝ, ((npStandardNormal n).bind fun zs =>
        (Draws.pure (Fin.cons z zs) : Draws (Fin (n + 1) → ℝ))).E F
        = ∫⁻ zs, (∏ i, gaussianPDF 0 1 (zs i)) * F (Fin.cons z zs) := fun z => by
      rw [Draws.E_bind]
      exact ih (hm z)
    have hin : Measurable fun q : ℝ × (Fin n → ℝ) =>
        (∏ i, gaussianPDF 0 1 (q.2 i)) * F (Fin.cons q.1 q.2) :=
      (hprod.comp measurable_snd).mul (hF.comp hc)
    simp only [e1]
    rw [npNormal_std, lintegral_withDensity_eq_lintegral_mul _ (measurable_gaussianPDF 0 1)
      hin.lintegral_prod_right']
    have e2 := (volume_preserving_piFinSuccAbove (fun _ : Fin (n + 1) => ℝ) 0).symm
    rw [← e2.lintegral_comp_emb (MeasurableEquiv.measurableEmbedding _)]
    rw [Measure.volume_eq_prod, lintegral_prod _ (by
      refine Measurable.aemeasurable ?_
      exact (((Finset.measurable_prod _ fun i _ => (measurable_gaussianPDF 0 1).comp
        (measurable_pi_apply i)).mul hF).comp (MeasurableEquiv.measurable _)))]
    refine lintegral_congr fun z => ?_
    rw [Pi.mul_apply, ← lintegral_const_mul' (gaussianPDF 0 1 z) _ ENNReal.ofReal_ne_top]
    refine lintegral_congr fun zs => ?_
    have e3 : (MeasurableEquiv.piFinSuccAbove (fun _ : Fin (n + 1) => ℝ) 0).symm (z, zs)
        = (Fin.cons z zs : Fin (n + 1) → ℝ) := by
      simp [MeasurableEquiv.piFinSuccAbove]
      rfl
    rw [e3, Fin.prod_univ_succ]
    simp only [Fin.cons_zero, Fin.cons_succ]
    rw [mul_assoc]

theorem prod_std {n : Nat} (z : Fin n → ℝ) :
    ∏ i, gaussianPDF 0 1 (z i)
      = ENNReal.ofReal (Real.exp (-(1 / 2) * (z ⬝ᵥ z)) / Real.sqrt ((2 * Real.pi) ^ n)) := by
  unfold gaussianPDF
  rw [← ENNReal.ofReal_prod_of_nonneg fun i _ => gaussianPDFReal_nonneg _ _ _]
  congr 1
  unfold gaussianPDFReal
  rw [Finset.prod_mul_distrib, ← Real.exp_sum, Finset.prod_const, Finset.card_univ, Fintype.card_fin,
    mul_comm, div_eq_mul_inv]
  congr 1
  · congr 1
    unfold dotProduct
    rw [Finset.mul_sum]
    refine Finset.sum_congr rfl fun i _ => ?_
    simp
    ring
  · rw [NNReal.coe_one, mul_one, inv_pow]
    congr 1
    symm
    rw [Real.sqrt_eq_iff_mul_self_eq (by positivity) (by positivity), ← mul_pow,
      Real.mul_self_sqrt (by positivity)]

theorem lintegral_toLin {n : Nat} {M : Matrix (Fin n) (Fin n) ℝ} (hM : M.det ≠ 0)
    {F : (Fin n → ℝ) → ℝ≥0∞} (hF : Measurable F) :
    ∫⁻ x, F (M *ᵥ x) = ENNReal.ofReal |M.det|⁻¹ * ∫⁻ x, F x := by
  have hm : Measurable (Matrix.toLin' M) := (LinearMap.continuous_of_finiteDimensional _).measurable
  have h := lintegral_map (μ := volume) hF hm
  rw [Real.map_matrix_volume_pi_eq_smul_volume_pi hM, lintegral_smul_measure] at h
  simp only [Matrix.toLin'_apply] at h
  rw [← h, abs_inv, smul_eq_mul]

theorem gauss_continuous {n : Nat} (m : Fin n → ℝ) (S : Matrix (Fin n) (Fin n) ℝ) :
    Continuous fun w : Fin n → ℝ => gauss w m S := by
  unfold gauss
  refine Continuous.div_const ?_ _
  refine Real.continuous_exp.comp (continuous_const.mul ?_)
  have h1 : Continuous fun w : Fin n → ℝ => w - m := by fun_prop
  exact h1.dotProduct (Continuous.matrix_mulVec continuous_const h1)

/-- The law of `rng.multivariate_normal`. -/
theorem E_npMultivariateNormal {factor : Root} (hf : factor.Good) {n : Nat} (m : Fin n → ℝ)
    {S : Matrix (Fin n) (Fin n) ℝ} (hS : S.PosDef) {F : (Fin n → ℝ) → ℝ≥0∞} (hF : Measurable F) :
    (npMultivariateNormal factor m S).E F = ∫⁻ w, ENNReal.ofReal (gauss w m S) * F w := by
  have hA := hf n S hS.posSemidef
  set A := factor n S with hAdef
  have hdet : A.det * A.det = S.det := by rw [← hA, Matrix.det_mul, Matrix.det_transpose]
  have hpos := hS.det_pos
  have hA0 : A.det ≠ 0 := fun h => by rw [h] at hdet; simp at hdet; exact hpos.ne hdet
  have hu : IsUnit A.det := isUnit_iff_ne_zero.mpr hA0
  have habs : |A.det| = Real.sqrt S.det := by rw [← hdet, ← sq, Real.sqrt_sq_eq_abs]
  unfold npMultivariateNormal
  rw [Draws.E_bind]
  simp only [Draws.E, ← hAdef]
  have hmA : Measurable fun z : Fin n → ℝ => m + A *ᵥ z := by
    have : Continuous fun z : Fin n → ℝ => m + A *ᵥ z :=
      continuous_const.add (Continuous.matrix_mulVec continuous_const continuous_id)
    exact this.measurable
  refine (E_npStandardNormal (F := fun z => F (m + A *ᵥ z)) (hF.comp hmA)).trans ?_
  have hK : ∀ w : Fin n → ℝ, ENNReal.ofReal (gauss w m S)
      = ENNReal.ofReal |A.det|⁻¹ * ∏ i, gaussianPDF 0 1 ((A⁻¹ *ᵥ (w - m)) i) := by
    intro w
    rw [prod_std, ← ENNReal.ofReal_mul (by positivity)]
    congr 1
    unfold gauss
    have hq : (w - m) ⬝ᵥ S⁻¹ *ᵥ (w - m) = (A⁻¹ *ᵥ (w - m)) ⬝ᵥ (A⁻¹ *ᵥ (w - m)) := by
      rw [← hA, Matrix.mul_inv_rev, ← Matrix.mulVec_mulVec, Matrix.dotProduct_mulVec,
        ← Matrix.transpose_nonsing_inv, Matrix.vecMul_transpose]
    rw [hq, Fintype.card_fin, Real.sqrt_mul (by positivity), habs]
    have : 0 < Real.sqrt S.det := Real.sqrt_pos.mpr hpos
    field_simp
  have hint : Measurable fun w : Fin n → ℝ => ENNReal.ofReal (gauss w m S) * F w :=
    (gauss_continuous m S).measurable.ennreal_ofReal.mul hF
  have h1 : ∫⁻ w, ENNReal.ofReal (gauss w m S) * F w
      = ∫⁻ w, ENNReal.ofReal (gauss (m + w) m S) * F (m + w) :=
    (lintegral_add_left_eq_self (fun w => ENNReal.ofReal (gauss w m S) * F w) m).symm
  have h2 := lintegral_toLin hA0 (F := fun w => ENNReal.ofReal (gauss (m + w) m S) * F (m + w))
    (hint.comp (measurable_const.add measurable_id))
  have h3 : ∀ z : Fin n → ℝ, ENNReal.ofReal (gauss (m + A *ᵥ z) m S) * F (m + A *ᵥ z)
      = ENNReal.ofReal |A.det|⁻¹ * ((∏ i, gaussianPDF 0 1 (z i)) * F (m + A *ᵥ z)) := by
    intro z
    rw [hK, mul_assoc]
    have : A⁻¹ *ᵥ (m + A *ᵥ z - m) = z := by
      rw [add_sub_cancel_left, Matrix.mulVec_mulVec, Matrix.nonsing_inv_mul _ hu, Matrix.one_mulVec]
    rw [this]
  simp only [h3] at h2
  rw [lintegral_const_mul' _ _ ENNReal.ofReal_ne_top, ← h1] at h2
  have hc0 : ENNReal.ofReal |A.det|⁻¹ ≠ 0 := by
    rw [Ne, ENNReal.ofReal_eq_zero, not_le]
    have := abs_pos.mpr hA0
    positivity
  exact (ENNReal.mul_right_inj hc0 ENNReal.ofReal_ne_top).mp h2

end Cgpm
