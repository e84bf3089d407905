import Verif.Lemmas.Gauss
import Mathlib.Analysis.Matrix.Order
import Mathlib.MeasureTheory.Measure.Lebesgue.Basic
import Mathlib.MeasureTheory.Integral.Pi
import Mathlib.Analysis.SpecialFunctions.Gaussian.GaussianIntegral

/-! The multivariate normal density integrates to one. -/
namespace Cgpm.Spec.Factor
open Matrix MeasureTheory
open scoped MatrixOrder ComplexOrder Matrix.Norms.L2Operator

variable {ι : Type} [Fintype ι] [DecidableEq ι]

theorem posDef_factor {A : Matrix ι ι ℝ} (h : A.PosDef) :
    ∃ B : Matrix ι ι ℝ, A = Bᵀ * B := by
  obtain ⟨B, hB⟩ := CStarAlgebra.nonneg_iff_eq_star_mul_self.mp h.posSemidef.nonneg
  exact ⟨B, by simpa [Matrix.star_eq_conjTranspose] using hB⟩

theorem integral_toLin {M : Matrix ι ι ℝ} (hM : M.det ≠ 0) (f : (ι → ℝ) → ℝ) :
    ∫ x, f (M *ᵥ x) = |M.det|⁻¹ * ∫ x, f x := by
  have he : MeasurableEmbedding (Matrix.toLin' M) := by
    have := (LinearEquiv.ofIsUnitDet (f := Matrix.toLin' M) (v := Pi.basisFun ℝ ι)
      (v' := Pi.basisFun ℝ ι) (by
        rw [LinearMap.toMatrix_eq_toMatrix', LinearMap.toMatrix'_toLin']
        exact isUnit_iff_ne_zero.mpr hM)).toContinuousLinearEquiv.toHomeomorph.measurableEmbedding
    exact this
  have h := he.integral_map (μ := volume) f
  rw [Real.map_matrix_volume_pi_eq_smul_volume_pi hM, integral_smul_measure] at h
  rw [ENNReal.toReal_ofReal (abs_nonneg _)] at h
  simp only [Matrix.toLin'_apply] at h
  rw [← h, abs_inv, smul_eq_mul]

theorem integral_quad {A : Matrix ι ι ℝ} (hA : A.PosDef) (m : ι → ℝ) :
    ∫ x : ι → ℝ, Real.exp (-(1 / 2) * ((x - m) ⬝ᵥ A *ᵥ (x - m)))
      = Real.sqrt ((2 * Real.pi) ^ Fintype.card ι / A.det) := by
  obtain ⟨B, rfl⟩ := posDef_factor hA
  have hd := hA.det_pos
  rw [Matrix.det_mul, Matrix.det_transpose] at hd
  have hB : B.det ≠ 0 := fun h => by simp [h] at hd
  rw [integral_sub_right_eq_self (μ := volume)
    (fun x : ι → ℝ => Real.exp (-(1 / 2) * (x ⬝ᵥ (Bᵀ * B) *ᵥ x))) m]
  have hq : ∀ x : ι → ℝ, Real.exp (-(1 / 2) * (x ⬝ᵥ (Bᵀ * B) *ᵥ x))
      = (fun y : ι → ℝ => ∏ i, Real.exp (-(1 / 2) * y i ^ 2)) (B *ᵥ x) := by
    intro x
    rw [← Matrix.mulVec_mulVec, Matrix.dotProduct_mulVec, Matrix.vecMul_transpose]
    simp only
    rw [← Real.exp_sum, ← Finset.mul_sum]
    congr 2
    exact Finset.sum_congr rfl fun i _ => (sq _).symm
  have hi := integral_toLin hB fun y : ι → ℝ => ∏ i, Real.exp (-(1 / 2) * y i ^ 2)
  rw [integral_congr_ae (Filter.Eventually.of_forall hq), hi,
    integral_fintype_prod_volume_eq_pow (fun y : ℝ => Real.exp (-(1 / 2) * y ^ 2)),
    integral_gaussian, Matrix.det_mul, Matrix.det_transpose, show Real.pi / (1 / 2) = 2 * Real.pi by ring,
    ← sq, Real.sqrt_div (by positivity), Real.sqrt_sq_eq_abs, div_eq_inv_mul]
  congr 1
  symm
  rw [Real.sqrt_eq_iff_mul_self_eq (by positivity) (by positivity), ← mul_pow,
    Real.mul_self_sqrt (by positivity)]

/-- The normal density integrates to one, in any dimension. -/
theorem integral_gauss {S : Matrix ι ι ℝ} (hS : S.PosDef) (m : ι → ℝ) :
    ∫ x : ι → ℝ, gauss x m S = 1 := by
  unfold gauss
  rw [integral_div, integral_quad hS.inv, div_eq_one_iff_eq]
  · rw [Matrix.det_nonsing_inv, Ring.inverse_eq_inv']
    have := hS.det_pos
    congr 1
    field_simp
  · have := hS.det_pos
    positivity

end Cgpm.Spec.Factor
