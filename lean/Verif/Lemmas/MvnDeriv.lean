import Verif.Spec.Mvn
import Mathlib.Analysis.Calculus.Deriv.Comp
import Mathlib.Analysis.Calculus.Deriv.Mul
import Mathlib.Analysis.Calculus.Deriv.Pow
import Mathlib.Analysis.Calculus.Deriv.Polynomial
import Mathlib.Analysis.SpecialFunctions.Log.Deriv
import Mathlib.Analysis.Matrix.LDL
import Mathlib.LinearAlgebra.Matrix.Charpoly.Coeff
import Mathlib.LinearAlgebra.Matrix.Block

/-
Lemmas for C83: derivatives of the determinant and of the inverse of a matrix; the Cholesky factor.
-/
namespace Cgpm.Mvn
open Matrix

variable {n : Nat}

theorem det_differentiable :
    Differentiable ℝ fun M : Fin n → Fin n → ℝ => (Matrix.of M).det := by
  simp only [Matrix.det_apply]
  refine Differentiable.fun_sum fun σ _ => ?_
  refine Differentiable.const_smul (f := fun M : Fin n → Fin n → ℝ => ∏ i, Matrix.of M (σ i) i) ?_ _
  intro M
  exact (HasFDerivAt.finsetProd (u := Finset.univ)
    (g := fun i (M : Fin n → Fin n → ℝ) => Matrix.of M (σ i) i) fun i _ =>
      (show DifferentiableAt ℝ (fun M : Fin n → Fin n → ℝ => M (σ i) i) M from
        differentiableAt_pi.1 (differentiableAt_pi.1 differentiableAt_id _) _).hasFDerivAt).differentiableAt

/-- Jacobi's formula along a line. -/
theorem det_line {S : Matrix (Fin n) (Fin n) ℝ} (h : S.det ≠ 0) (D : Matrix (Fin n) (Fin n) ℝ) :
    HasDerivAt (fun s : ℝ => (S + s • D).det) (S.det * (S⁻¹ * D).trace) 0 := by
  have hu : IsUnit S.det := isUnit_iff_ne_zero.2 h
  have e : (fun s : ℝ => (S + s • D).det) = fun s => S.det * (1 + (S⁻¹ * D).trace * s +
      ((det (1 + (Polynomial.X : Polynomial ℝ) • (S⁻¹ * D).map Polynomial.C)).divX.divX.eval s) * s ^ 2) := by
    funext s
    rw [← det_one_add_smul, ← det_mul, Matrix.mul_add, Matrix.mul_one, Matrix.mul_smul,
      Matrix.mul_nonsing_inv_cancel_left _ _ hu]
  rw [e]
  have h1 := ((((hasDerivAt_id (0 : ℝ)).const_mul (S⁻¹ * D).trace).const_add 1).add
    ((Polynomial.hasDerivAt ((det (1 + (Polynomial.X : Polynomial ℝ) •
      (S⁻¹ * D).map Polynomial.C)).divX.divX) (0 : ℝ)).mul (hasDerivAt_pow 2 (0 : ℝ)))).const_mul S.det
  refine h1.congr_deriv ?_
  simp

/-- Jacobi's formula. -/
theorem det_fderiv {S : Fin n → Fin n → ℝ} (h : (Matrix.of S).det ≠ 0) (D : Fin n → Fin n → ℝ) :
    fderiv ℝ (fun M : Fin n → Fin n → ℝ => (Matrix.of M).det) S D =
      (Matrix.of S).det * ((Matrix.of S)⁻¹ * Matrix.of D).trace := by
  have h1 := (det_differentiable (n := n) S).hasFDerivAt
  have h2 : HasDerivAt (fun s : ℝ => S + s • D) D 0 := by
    have := ((hasDerivAt_id (0 : ℝ)).smul_const D).const_add S
    simpa using this
  have h1' : HasFDerivAt (fun M : Fin n → Fin n → ℝ => (Matrix.of M).det)
      (fderiv ℝ (fun M : Fin n → Fin n → ℝ => (Matrix.of M).det) S) (S + (0 : ℝ) • D) := by
    simpa using h1
  have h3 := h1'.comp_hasDerivAt (0 : ℝ) h2
  exact h3.unique (det_line h (Matrix.of D))

theorem inv_differentiableAt {S : Fin n → Fin n → ℝ} (h : (Matrix.of S).det ≠ 0) (i j : Fin n) :
    DifferentiableAt ℝ (fun M : Fin n → Fin n → ℝ => (Matrix.of M)⁻¹ i j) S := by
  have e : (fun M : Fin n → Fin n → ℝ => (Matrix.of M)⁻¹ i j) = fun M =>
      ((Matrix.of M).det)⁻¹ * ((Matrix.of M).updateRow j (Pi.single i 1)).det := by
    funext M
    rw [Matrix.inv_def, Matrix.smul_apply, Matrix.adjugate_apply, Ring.inverse_eq_inv', smul_eq_mul]
  rw [e]
  refine DifferentiableAt.mul ((det_differentiable S).inv h) ?_
  refine DifferentiableAt.comp (g := fun M : Fin n → Fin n → ℝ => (Matrix.of M).det)
    (f := fun M : Fin n → Fin n → ℝ =>
      (fun r s => (Matrix.of M).updateRow j (Pi.single i 1) r s : Fin n → Fin n → ℝ)) S
    (det_differentiable _) ?_
  refine differentiableAt_pi.2 fun r => differentiableAt_pi.2 fun s => ?_
  by_cases hr : r = j
  · simp only [Matrix.updateRow_apply, hr, if_true]
    exact differentiableAt_const _
  · simp only [Matrix.updateRow_apply, hr, if_false]
    exact (differentiableAt_pi.1 (differentiableAt_pi.1 differentiableAt_id _) _)

section
variable {E : Type} [NormedAddCommGroup E] [NormedSpace ℝ E]

theorem entries_hasFDerivAt {S : E → Matrix (Fin n) (Fin n) ℝ} {S' : Fin n → Fin n → E →L[ℝ] ℝ} {e : E}
    (hS : ∀ r s, HasFDerivAt (fun e => S e r s) (S' r s) e) :
    HasFDerivAt (fun e => (fun r s => S e r s : Fin n → Fin n → ℝ))
      (ContinuousLinearMap.pi fun r => ContinuousLinearMap.pi fun s => S' r s) e :=
  hasFDerivAt_pi.2 fun r => hasFDerivAt_pi.2 fun s => hS r s

/-- The derivative of the logarithm of the determinant. -/
theorem logdet_hasFDerivAt {S : E → Matrix (Fin n) (Fin n) ℝ} {S' : Fin n → Fin n → E →L[ℝ] ℝ} {e : E}
    (hS : ∀ r s, HasFDerivAt (fun e => S e r s) (S' r s) e) (h : 0 < (S e).det) :
    ∃ L : E →L[ℝ] ℝ, HasFDerivAt (fun e => Real.log (S e).det) L e ∧
      ∀ v, L v = ((S e)⁻¹ * Matrix.of fun r s => S' r s v).trace := by
  have h1 : HasFDerivAt (fun e => (S e).det) _ e :=
    HasFDerivAt.comp (g := fun M : Fin n → Fin n → ℝ => (Matrix.of M).det) (f := fun e r s => S e r s) e
      (det_differentiable (n := n) (fun r s => S e r s)).hasFDerivAt (entries_hasFDerivAt hS)
  refine ⟨_, h1.log h.ne', fun v => ?_⟩
  have := det_fderiv (S := fun r s => S e r s) h.ne' (fun r s => S' r s v)
  have hv : (fderiv ℝ (fun M : Fin n → Fin n → ℝ => (Matrix.of M).det) (fun r s => S e r s))
      ((ContinuousLinearMap.pi fun r => ContinuousLinearMap.pi fun s => S' r s) v)
      = (S e).det * ((S e)⁻¹ * Matrix.of fun r s => S' r s v).trace := this
  rw [_root_.smul_apply, ContinuousLinearMap.comp_apply, smul_eq_mul, hv, inv_mul_cancel_left₀ h.ne']

/-- The derivative of the inverse. -/
theorem inv_hasFDerivAt {S : E → Matrix (Fin n) (Fin n) ℝ} {S' : Fin n → Fin n → E →L[ℝ] ℝ} {e : E}
    (hS : ∀ r s, HasFDerivAt (fun e => S e r s) (S' r s) e) (h : ∀ᶠ e' in nhds e, (S e').det ≠ 0) :
    ∃ N' : Fin n → Fin n → E →L[ℝ] ℝ, (∀ r s, HasFDerivAt (fun e => (S e)⁻¹ r s) (N' r s) e) ∧
      ∀ v, (Matrix.of fun r s => N' r s v) = -((S e)⁻¹ * (Matrix.of fun r s => S' r s v) * (S e)⁻¹) := by
  have h0 : (S e).det ≠ 0 := h.self_of_nhds
  have hN : ∀ r s, ∃ L : E →L[ℝ] ℝ, HasFDerivAt (fun e => (S e)⁻¹ r s) L e := fun r s =>
    ⟨_, HasFDerivAt.comp (g := fun M : Fin n → Fin n → ℝ => (Matrix.of M)⁻¹ r s)
      (f := fun e r s => S e r s) e
      (inv_differentiableAt (S := fun r s => S e r s) h0 r s).hasFDerivAt (entries_hasFDerivAt hS)⟩
  choose N' hN' using hN
  refine ⟨N', hN', fun v => ?_⟩
  have key : (Matrix.of fun r s => S' r s v) * (S e)⁻¹ + S e * (Matrix.of fun r s => N' r s v) = 0 := by
    ext r s
    have h1 : HasFDerivAt (fun e => ∑ k, S e r k * (S e)⁻¹ k s) _ e :=
      HasFDerivAt.fun_sum fun k (_ : k ∈ Finset.univ) => (hS r k).mul (hN' k s)
    have h2 : HasFDerivAt (fun e => ∑ k, S e r k * (S e)⁻¹ k s) (0 : E →L[ℝ] ℝ) e := by
      refine (hasFDerivAt_const ((1 : Matrix (Fin n) (Fin n) ℝ) r s) e).congr_of_eventuallyEq ?_
      filter_upwards [h] with e' he
      rw [← Matrix.mul_nonsing_inv _ (isUnit_iff_ne_zero.2 he)]
      rfl
    have h3 := congrArg (fun L : E →L[ℝ] ℝ => L v) (h1.unique h2)
    simp only [_root_.sum_apply, _root_.add_apply,
      _root_.smul_apply, smul_eq_mul, _root_.zero_apply,
      Finset.sum_add_distrib] at h3
    simp only [Matrix.add_apply, Matrix.mul_apply, Matrix.of_apply, Matrix.zero_apply]
    rw [← h3, add_comm]
    congr 1
    exact Finset.sum_congr rfl fun k _ => mul_comm _ _
  have hu : IsUnit (S e).det := isUnit_iff_ne_zero.2 h0
  have := congrArg (fun M => (S e)⁻¹ * M) key
  simp only [Matrix.mul_add, Matrix.mul_zero, Matrix.nonsing_inv_mul_cancel_left _ _ hu] at this
  rw [Matrix.mul_assoc]
  exact eq_neg_of_add_eq_zero_right this

/-- The derivative of the quadratic form. -/
theorem quad_hasFDerivAt {A : E → Fin n → ℝ} {A' : Fin n → E →L[ℝ] ℝ}
    {S : E → Matrix (Fin n) (Fin n) ℝ} {S' : Fin n → Fin n → E →L[ℝ] ℝ} {e : E}
    (hA : ∀ r, HasFDerivAt (fun e => A e r) (A' r) e)
    (hS : ∀ r s, HasFDerivAt (fun e => S e r s) (S' r s) e) (h : ∀ᶠ e' in nhds e, (S e').det ≠ 0)
    (hsym : (S e)ᵀ = S e) :
    ∃ L : E →L[ℝ] ℝ, HasFDerivAt (fun e => A e ⬝ᵥ (S e)⁻¹ *ᵥ A e) L e ∧
      ∀ v, L v = 2 * (((S e)⁻¹ *ᵥ A e) ⬝ᵥ fun r => A' r v) -
        ((S e)⁻¹ *ᵥ A e) ⬝ᵥ ((Matrix.of fun r s => S' r s v) *ᵥ ((S e)⁻¹ *ᵥ A e)) := by
  obtain ⟨N', hN, hN'⟩ := inv_hasFDerivAt hS h
  have h1 : HasFDerivAt (fun e => ∑ r, A e r * ∑ s, (S e)⁻¹ r s * A e s) _ e :=
    HasFDerivAt.fun_sum fun r (_ : r ∈ Finset.univ) => (hA r).mul
      (HasFDerivAt.fun_sum fun s (_ : s ∈ Finset.univ) => (hN r s).mul (hA s))
  refine ⟨_, h1, fun v => ?_⟩
  have hNsym : ((S e)⁻¹)ᵀ = (S e)⁻¹ := by rw [Matrix.transpose_nonsing_inv, hsym]
  have e1 : A e ⬝ᵥ ((S e)⁻¹ *ᵥ fun r => A' r v) = ((S e)⁻¹ *ᵥ A e) ⬝ᵥ fun r => A' r v := by
    rw [Matrix.dotProduct_mulVec, ← Matrix.mulVec_transpose, hNsym]
  have e2 : A e ⬝ᵥ ((Matrix.of fun r s => N' r s v) *ᵥ A e) =
      -(((S e)⁻¹ *ᵥ A e) ⬝ᵥ ((Matrix.of fun r s => S' r s v) *ᵥ ((S e)⁻¹ *ᵥ A e))) := by
    rw [hN', Matrix.neg_mulVec, dotProduct_neg, ← Matrix.mulVec_mulVec, ← Matrix.mulVec_mulVec]
    rw [Matrix.dotProduct_mulVec (A e), ← Matrix.mulVec_transpose, hNsym]
  have e3 : (fun r => A' r v) ⬝ᵥ ((S e)⁻¹ *ᵥ A e) = ((S e)⁻¹ *ᵥ A e) ⬝ᵥ fun r => A' r v :=
    dotProduct_comm _ _
  have : 2 * (((S e)⁻¹ *ᵥ A e) ⬝ᵥ fun r => A' r v) -
        ((S e)⁻¹ *ᵥ A e) ⬝ᵥ ((Matrix.of fun r s => S' r s v) *ᵥ ((S e)⁻¹ *ᵥ A e))
      = A e ⬝ᵥ ((S e)⁻¹ *ᵥ fun r => A' r v) + A e ⬝ᵥ ((Matrix.of fun r s => N' r s v) *ᵥ A e) +
        (fun r => A' r v) ⬝ᵥ ((S e)⁻¹ *ᵥ A e) := by
    rw [e1, e2, e3]; ring
  rw [this]
  simp only [_root_.sum_apply, _root_.add_apply,
      _root_.smul_apply, smul_eq_mul, dotProduct, Matrix.mulVec, Matrix.of_apply]
  rw [← Finset.sum_add_distrib, ← Finset.sum_add_distrib]
  refine Finset.sum_congr rfl fun r _ => ?_
  rw [Finset.sum_add_distrib]
  have : ∑ s, A e s * (N' r s) v = ∑ s, (N' r s) v * A e s :=
    Finset.sum_congr rfl fun s _ => mul_comm _ _
  rw [this]
  ring

end

/-! ### The Cholesky factor -/

theorem cholesky_exists (S : Matrix (Fin n) (Fin n) ℝ) (hS : S.PosDef) :
    ∃ U : Matrix (Fin n) (Fin n) ℝ, (∀ i j, j < i → U i j = 0) ∧ (∀ i, 0 < U i i) ∧ Uᵀ * U = S := by
  let L := LDL.lower hS
  have hinv : IsUnit (LDL.lowerInv hS) := isUnit_of_invertible _
  have hLu : IsUnit L.det := by
    have : IsUnit L := by
      show IsUnit (LDL.lowerInv hS)⁻¹
      exact (Matrix.isUnit_nonsing_inv_iff).2 hinv
    exact (Matrix.isUnit_iff_isUnit_det _).1 this
  have htri : ∀ i j, i < j → L i j = 0 := by
    have h1 : BlockTriangular (LDL.lowerInv hS) OrderDual.toDual := fun i j hij =>
      LDL.lowerInv_triangular hS hij
    have h2 := blockTriangular_inv_of_blockTriangular h1
    exact fun i j hij => h2 hij
  have hdiag : ∀ i, L i i ≠ 0 := by
    have h1 : L.det = ∏ i, L i i := Matrix.det_of_lowerTriangular L fun i j hij => htri i j hij
    rw [h1] at hLu
    intro i h
    exact hLu.ne_zero (Finset.prod_eq_zero (Finset.mem_univ i) h)
  have hd : ∀ i, 0 < LDL.diagEntries hS i := by
    have h1 : (LDL.diag hS).PosDef := by
      rw [LDL.diag_eq_lowerInv_conj hS]
      exact (Matrix.IsUnit.posDef_star_right_conjugate_iff hinv).2 hS
    intro i
    have := h1.diag_pos (i := i)
    simpa [LDL.diag] using this
  refine ⟨Matrix.of fun i j => (SignType.sign (L i i) : ℝ) * Real.sqrt (LDL.diagEntries hS i) * L j i,
    fun i j hij => ?_, fun i => ?_, ?_⟩
  · rw [Matrix.of_apply, htri j i hij, mul_zero]
  · rw [Matrix.of_apply, mul_right_comm, sign_mul_self]
    exact mul_pos (abs_pos.2 (hdiag i)) (Real.sqrt_pos.2 (hd i))
  · conv_rhs => rw [← LDL.lower_conj_diag hS]
    ext i j
    rw [LDL.diag, Matrix.mul_apply, Matrix.mul_apply]
    simp only [Matrix.transpose_apply, Matrix.of_apply,
      Matrix.mul_diagonal, Matrix.conjTranspose_apply, star_trivial]
    refine Finset.sum_congr rfl fun k _ => ?_
    have h1 : (SignType.sign (L k k) : ℝ) * (SignType.sign (L k k) : ℝ) = 1 := by
      rcases lt_or_gt_of_ne (hdiag k) with h | h
      · rw [sign_neg h]; norm_num
      · rw [sign_pos h]; norm_num
    have h2 := Real.mul_self_sqrt (hd k).le
    calc _ = ((SignType.sign (L k k) : ℝ) * (SignType.sign (L k k) : ℝ)) *
          (Real.sqrt (LDL.diagEntries hS k) * Real.sqrt (LDL.diagEntries hS k)) * (L i k * L j k) := by ring
      _ = L i k * LDL.diagEntries hS k * L j k := by rw [h1, h2]; ring

theorem chol_facts {S U : Matrix (Fin n) (Fin n) ℝ} (htri : ∀ i j, j < i → U i j = 0)
    (hpos : ∀ i, 0 < U i i) (hU : Uᵀ * U = S) :
    (∀ y, choSolve U y = S⁻¹ *ᵥ y) ∧ (covCholesky U).inverse = S⁻¹ ∧
      (covCholesky U).logsqrtdet = 1 / 2 * Real.log S.det := by
  have h1 : ∀ y, choSolve U y = S⁻¹ *ᵥ y := by
    intro y
    unfold choSolve
    rw [← hU, Matrix.mul_inv_rev, Matrix.mulVec_mulVec]
  refine ⟨h1, ?_, ?_⟩
  · ext i j
    show choSolve U (fun k => (1 : Matrix (Fin n) (Fin n) ℝ) k j) i = _
    rw [h1, Matrix.mulVec, dotProduct]
    conv_rhs => rw [← Matrix.mul_one S⁻¹, Matrix.mul_apply]
  · show ∑ i, Real.log (U i i) = _
    have hd : U.det = ∏ i, U i i := Matrix.det_of_upperTriangular fun i j hij => htri i j hij
    rw [← hU, Matrix.det_mul, Matrix.det_transpose, hd, ← Real.log_prod (fun i _ => (hpos i).ne'),
      Real.log_mul, ]
    · ring
    all_goals exact (Finset.prod_pos fun i _ => hpos i).ne'

end Cgpm.Mvn
