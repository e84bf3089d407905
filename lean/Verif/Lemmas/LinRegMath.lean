import Verif.Lemmas.GaussInt
import Verif.Lemmas.Student
import Verif.Model.LinReg
import Mathlib.LinearAlgebra.Matrix.SchurComplement
import Mathlib.Probability.Distributions.Gamma

/-! The conjugate update of a Bayesian linear regression. -/
namespace Cgpm.LinReg
open Matrix MeasureTheory

variable {ι κ : Type} [Fintype ι] [Fintype κ] [DecidableEq κ]

theorem gram_posDef {P : Matrix κ κ ℝ} (hP : P.PosDef) (X : Matrix ι κ ℝ) :
    (P + Xᵀ * X).PosDef := by
  have h := Matrix.posSemidef_conjTranspose_mul_self X
  rw [Matrix.conjTranspose_eq_transpose_of_trivial] at h
  exact hP.add_posSemidef h

theorem quad_expand {P : Matrix κ κ ℝ} (hP : Pᵀ = P) (w m : κ → ℝ) :
    (w - m) ⬝ᵥ P *ᵥ (w - m) = w ⬝ᵥ P *ᵥ w - 2 * (w ⬝ᵥ P *ᵥ m) + m ⬝ᵥ P *ᵥ m := by
  have h : m ⬝ᵥ P *ᵥ w = w ⬝ᵥ P *ᵥ m := by
    rw [Matrix.dotProduct_mulVec, ← Matrix.mulVec_transpose, hP, dotProduct_comm]
  rw [Matrix.mulVec_sub, sub_dotProduct, dotProduct_sub, dotProduct_sub, h]
  ring

/-- Completing the square. -/
theorem conj_quad {P : Matrix κ κ ℝ} (hP : P.PosDef) (X : Matrix ι κ ℝ) (y : ι → ℝ)
    (mu mun w : κ → ℝ) (hm : (P + Xᵀ * X) *ᵥ mun = P *ᵥ mu + Xᵀ *ᵥ y) :
    (w - mu) ⬝ᵥ P *ᵥ (w - mu) + (y - X *ᵥ w) ⬝ᵥ (y - X *ᵥ w)
      = (w - mun) ⬝ᵥ (P + Xᵀ * X) *ᵥ (w - mun)
        + (mu ⬝ᵥ P *ᵥ mu + y ⬝ᵥ y - mun ⬝ᵥ (P + Xᵀ * X) *ᵥ mun) := by
  have t1 : Pᵀ = P := by
    have := hP.isHermitian.eq
    rwa [Matrix.conjTranspose_eq_transpose_of_trivial] at this
  have t2 : (P + Xᵀ * X)ᵀ = P + Xᵀ * X := by
    rw [Matrix.transpose_add, t1, Matrix.transpose_mul, Matrix.transpose_transpose]
  rw [quad_expand t1, quad_expand t2, hm, Matrix.add_mulVec, dotProduct_add, dotProduct_add]
  have e1 : w ⬝ᵥ (Xᵀ * X) *ᵥ w = (X *ᵥ w) ⬝ᵥ (X *ᵥ w) := by
    rw [← Matrix.mulVec_mulVec, Matrix.dotProduct_mulVec, Matrix.vecMul_transpose]
  have e2 : w ⬝ᵥ Xᵀ *ᵥ y = (X *ᵥ w) ⬝ᵥ y := by
    rw [Matrix.dotProduct_mulVec, Matrix.vecMul_transpose]
  rw [e1, e2, sub_dotProduct, dotProduct_sub, dotProduct_sub, dotProduct_comm y (X *ᵥ w)]
  ring

/-- The posterior rate is at least the prior rate. -/
theorem conj_rate {P : Matrix κ κ ℝ} (hP : P.PosDef) (X : Matrix ι κ ℝ) (y : ι → ℝ)
    (mu mun : κ → ℝ) (hm : (P + Xᵀ * X) *ᵥ mun = P *ᵥ mu + Xᵀ *ᵥ y) :
    0 ≤ mu ⬝ᵥ P *ᵥ mu + y ⬝ᵥ y - mun ⬝ᵥ (P + Xᵀ * X) *ᵥ mun := by
  have h := conj_quad hP X y mu mun mun hm
  rw [sub_self, zero_dotProduct, zero_add] at h
  rw [← h]
  have h1 := hP.posSemidef.dotProduct_mulVec_nonneg (mun - mu)
  simp only [star_trivial] at h1
  have h2 : 0 ≤ (y - X *ᵥ mun) ⬝ᵥ (y - X *ᵥ mun) :=
    Finset.sum_nonneg fun i _ => mul_self_nonneg _
  linarith

end Cgpm.LinReg
