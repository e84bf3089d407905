import Verif.Spec.Factor
import Mathlib.LinearAlgebra.Matrix.SchurComplement
import Mathlib.Probability.Distributions.Gaussian.Real

/-
The multivariate normal density: renaming of the coordinates, factorisation by the Schur complement,
one coordinate.
-/
namespace Cgpm.Spec.Factor
open Matrix
variable {ι κ : Type} [Fintype ι] [Fintype κ] [DecidableEq ι] [DecidableEq κ]

theorem gauss_equiv (e : ι ≃ κ) (x m : κ → ℝ) (S : Matrix κ κ ℝ) :
    gauss (x ∘ e) (m ∘ e) (S.submatrix e e) = gauss x m S := by
  unfold gauss
  have h1 : (x ∘ e - m ∘ e) = (x - m) ∘ e := rfl
  rw [h1, Matrix.inv_submatrix_equiv, Matrix.det_submatrix_equiv_self, Fintype.card_congr e]
  congr 3
  rw [Matrix.submatrix_mulVec_equiv]
  simp [dotProduct, Function.comp_def]
  exact Fintype.sum_equiv e _ _ (fun _ => rfl)

theorem gauss_pos {x m : ι → ℝ} {S : Matrix ι ι ℝ} (hS : S.PosDef) : 0 < gauss x m S := by
  unfold gauss
  have := hS.det_pos
  positivity

/-- The Schur complement of a positive definite matrix is positive definite. -/
theorem schur_posDef {A : Matrix ι ι ℝ} {B : Matrix ι κ ℝ} {D : Matrix κ κ ℝ}
    (h : (fromBlocks A B Bᵀ D).PosDef) : D.PosDef ∧ (A - B * D⁻¹ * Bᵀ).PosDef := by
  have hD : D.PosDef := by
    have := h.submatrix (e := Sum.inr) Sum.inr_injective
    exact this
  refine ⟨hD, ?_⟩
  have hA : A.IsHermitian := by
    have := (h.submatrix (e := Sum.inl) Sum.inl_injective).1
    exact this
  have := hD.isUnit.invertible
  have hs : (B * D⁻¹ * Bᵀ).IsHermitian := by
    have := isHermitian_mul_mul_conjTranspose B hD.1.inv
    rwa [conjTranspose_eq_transpose_of_trivial] at this
  refine .of_dotProduct_mulVec_pos (hA.sub hs) ?_
  intro x hx
  have h0 : Sum.elim x (-((D⁻¹ * Bᵀ) *ᵥ x)) ≠ 0 := by
    intro e
    apply hx
    funext i
    exact congrFun e (Sum.inl i)
  have h1 := h.dotProduct_mulVec_pos h0
  have h2 := schur_complement_eq₂₂ A B x (-((D⁻¹ * Bᵀ) *ᵥ x)) hD.1
  rw [conjTranspose_eq_transpose_of_trivial] at h2
  rw [dotProduct_mulVec, h2, add_neg_cancel, dotProduct_zero, zero_add, ← dotProduct_mulVec] at h1
  exact h1

theorem schur_quad {A : Matrix ι ι ℝ} {B : Matrix ι κ ℝ} {D : Matrix κ κ ℝ}
    (h : (fromBlocks A B Bᵀ D).PosDef) (a : ι → ℝ) (b : κ → ℝ) :
    Sum.elim a b ⬝ᵥ (fromBlocks A B Bᵀ D)⁻¹ *ᵥ Sum.elim a b
      = (a - (B * D⁻¹) *ᵥ b) ⬝ᵥ (A - B * D⁻¹ * Bᵀ)⁻¹ *ᵥ (a - (B * D⁻¹) *ᵥ b)
        + b ⬝ᵥ D⁻¹ *ᵥ b := by
  obtain ⟨hD, hS⟩ := schur_posDef h
  set S := A - B * D⁻¹ * Bᵀ with hSdef
  set u := S⁻¹ *ᵥ (a - (B * D⁻¹) *ᵥ b) with hu
  set w := D⁻¹ *ᵥ (b - Bᵀ *ᵥ u) with hw
  have hDu : IsUnit D.det := (Matrix.isUnit_iff_isUnit_det _).1 hD.isUnit
  have hSu : IsUnit S.det := (Matrix.isUnit_iff_isUnit_det _).1 hS.isUnit
  have hFu : IsUnit (fromBlocks A B Bᵀ D).det := (Matrix.isUnit_iff_isUnit_det _).1 h.isUnit
  have e1 : S *ᵥ u = a - (B * D⁻¹) *ᵥ b := by
    rw [hu, mulVec_mulVec, Matrix.mul_nonsing_inv _ hSu, one_mulVec]
  have e2 : D *ᵥ w = b - Bᵀ *ᵥ u := by
    rw [hw, mulVec_mulVec, Matrix.mul_nonsing_inv _ hDu, one_mulVec]
  have e3 : fromBlocks A B Bᵀ D *ᵥ Sum.elim u w = Sum.elim a b := by
    rw [fromBlocks_mulVec]
    congr 1
    · have : A *ᵥ u = S *ᵥ u + (B * D⁻¹ * Bᵀ) *ᵥ u := by
        rw [← add_mulVec, hSdef, sub_add_cancel]
      simp only [Sum.elim_comp_inl, Sum.elim_comp_inr]
      rw [this, e1, hw, mulVec_sub, mulVec_sub]
      simp only [mulVec_mulVec, Matrix.mul_assoc]
      abel
    · simp only [Sum.elim_comp_inl, Sum.elim_comp_inr]
      rw [e2]; abel
  have e4 : (fromBlocks A B Bᵀ D)⁻¹ *ᵥ Sum.elim a b = Sum.elim u w := by
    rw [← e3, mulVec_mulVec, Matrix.nonsing_inv_mul _ hFu, one_mulVec]
  have e6 : Sum.elim a b ⬝ᵥ Sum.elim u w = a ⬝ᵥ u + b ⬝ᵥ w := by simp [dotProduct]
  rw [e4, e6]
  have hDt : (D⁻¹)ᵀ = D⁻¹ := by
    rw [transpose_nonsing_inv]
    have := hD.1
    rw [IsHermitian, conjTranspose_eq_transpose_of_trivial] at this
    rw [this]
  have e5 : b ⬝ᵥ w = b ⬝ᵥ D⁻¹ *ᵥ b - ((B * D⁻¹) *ᵥ b) ⬝ᵥ u := by
    rw [hw, mulVec_sub, dotProduct_sub]
    congr 1
    rw [mulVec_mulVec, dotProduct_mulVec, ← mulVec_transpose, transpose_mul, hDt,
      transpose_transpose]
  rw [e5, sub_dotProduct]
  ring

/-- The joint density is the conditional density times the marginal density. -/
theorem gauss_schur {A : Matrix ι ι ℝ} {B : Matrix ι κ ℝ} {D : Matrix κ κ ℝ}
    (h : (fromBlocks A B Bᵀ D).PosDef) (a ma : ι → ℝ) (b mb : κ → ℝ) :
    gauss (Sum.elim a b) (Sum.elim ma mb) (fromBlocks A B Bᵀ D)
      = gauss a (ma + (B * D⁻¹) *ᵥ (b - mb)) (A - B * D⁻¹ * Bᵀ) * gauss b mb D := by
  obtain ⟨hD, hS⟩ := schur_posDef h
  unfold gauss
  have e : Sum.elim a b - Sum.elim ma mb = Sum.elim (a - ma) (b - mb) := by
    funext i; cases i <;> rfl
  rw [e, schur_quad h]
  have := hD.isUnit.invertible
  rw [det_fromBlocks₂₂, invOf_eq_nonsing_inv]
  have e2 : a - (ma + (B * D⁻¹) *ᵥ (b - mb)) = a - ma - (B * D⁻¹) *ᵥ (b - mb) := by abel
  rw [e2, Fintype.card_sum, mul_add, Real.exp_add, div_mul_div_comm]
  congr 1
  have h1 := hD.det_pos
  have h2 := hS.det_pos
  rw [← Real.sqrt_mul (by positivity), pow_add]
  congr 1
  ring

/-- In one coordinate it is the normal density. -/
theorem gauss_unique [Unique ι] (x m : ι → ℝ) (S : Matrix ι ι ℝ) (v : NNReal)
    (hv : (v : ℝ) = S default default) (h0 : v ≠ 0) :
    gauss x m S = ProbabilityTheory.gaussianPDFReal (m default) v (x default) := by
  unfold gauss ProbabilityTheory.gaussianPDFReal
  have h1 : (v : ℝ) ≠ 0 := by simpa using h0
  have hdet : S.det = v := by rw [Matrix.det_unique S, hv]
  have hinv : S⁻¹ default default = (v : ℝ)⁻¹ := by
    rw [Matrix.inv_def, Matrix.smul_apply, hdet, Matrix.adjugate_subsingleton]
    simp
  have hq : (x - m) ⬝ᵥ S⁻¹ *ᵥ (x - m) = (v : ℝ)⁻¹ * (x default - m default) ^ 2 := by
    simp only [dotProduct, mulVec, Fintype.sum_unique, hinv, Pi.sub_apply]
    ring
  rw [hq, hdet]
  simp only [Fintype.card_unique, pow_one]
  rw [div_eq_inv_mul]
  congr 2
  field_simp

end Cgpm.Spec.Factor
