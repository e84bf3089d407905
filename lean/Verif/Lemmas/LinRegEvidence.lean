import Verif.Lemmas.LinRegDensity

/-! The evidence of a Bayesian linear regression and its predictive density. -/
namespace Cgpm.Spec.LinReg
open Cgpm Cgpm.LinReg Matrix MeasureTheory

variable {p : Nat} {h : Hyp p}

theorem integral_gammaPDF {a b : ℝ} (ha : 0 < a) (hb : 0 < b) :
    ∫ τ in Set.Ioi 0, ProbabilityTheory.gammaPDFReal a b τ = 1 := by
  have e : ∀ τ ∈ Set.Ioi (0 : ℝ), ProbabilityTheory.gammaPDFReal a b τ
      = b ^ a / Real.Gamma a * (τ ^ (a - 1) * Real.exp (-(b * τ))) := by
    intro τ hτ
    unfold ProbabilityTheory.gammaPDFReal
    rw [if_pos (le_of_lt hτ)]
    ring
  rw [setIntegral_congr_fun measurableSet_Ioi e, integral_const_mul,
    Real.integral_rpow_mul_exp_neg_mul_Ioi ha hb]
  have := Real.Gamma_pos_of_pos ha
  rw [Real.div_rpow zero_le_one hb.le, Real.one_rpow]
  have hb' : 0 < b ^ a := Real.rpow_pos_of_pos hb _
  field_simp

theorem integral_prior_inner (hv : ValidHyp h) {τ : ℝ} (hτ : 0 < τ) :
    ∫ w, prior h τ w = ProbabilityTheory.gammaPDFReal h.a h.b τ := by
  unfold prior
  rw [integral_const_mul, Factor.integral_gauss (hv.V.smul (by positivity)), mul_one]

/-- The prior integrates to one. -/
theorem integral_prior (hv : ValidHyp h) : ∫ τ in Set.Ioi 0, ∫ w, prior h τ w = 1 := by
  rw [setIntegral_congr_fun measurableSet_Ioi fun τ hτ => integral_prior_inner hv hτ,
    integral_gammaPDF hv.a hv.b]

/-- The evidence is what the code computes. -/
theorem evidence_eq (hv : ValidHyp h) (rows : List (ℝ × (Fin p → ℝ))) :
    evidence h rows = Real.exp (logEv h rows) := by
  unfold evidence
  rw [setIntegral_congr_fun (g := fun τ => Real.exp (logEv h rows) *
    ∫ w, prior (postHyp h rows) τ w) measurableSet_Ioi fun τ hτ => by
      simp only [bayes hv rows hτ]; rw [integral_const_mul],
    integral_const_mul, integral_prior (postHyp_valid hv rows), mul_one]

theorem evidence_pos (hv : ValidHyp h) (rows : List (ℝ × (Fin p → ℝ))) : 0 < evidence h rows := by
  rw [evidence_eq hv]; exact Real.exp_pos _

theorem likelihood_perm {l l' : List (ℝ × (Fin p → ℝ))} (hp : l.Perm l') (τ : ℝ) (w : Fin p → ℝ) :
    likelihood l τ w = likelihood l' τ w := (hp.map _).prod_eq

theorem evidence_perm {l l' : List (ℝ × (Fin p → ℝ))} (hp : l.Perm l') :
    evidence h l = evidence h l' := by
  unfold evidence
  simp only [likelihood_perm hp]

theorem logEv_perm (hv : ValidHyp h) {l l' : List (ℝ × (Fin p → ℝ))} (hp : l.Perm l') :
    logEv h l = logEv h l' := by
  have := evidence_perm (h := h) hp
  rwa [evidence_eq hv, evidence_eq hv, Real.exp_eq_exp] at this

theorem likelihood_append (l l' : List (ℝ × (Fin p → ℝ))) (τ : ℝ) (w : Fin p → ℝ) :
    likelihood (l ++ l') τ w = likelihood l τ w * likelihood l' τ w := by
  unfold likelihood
  rw [List.map_append, List.prod_append]

/-- The evidence of more rows, given some rows, is their evidence under the posterior. -/
theorem evidence_append (hv : ValidHyp h) (l l' : List (ℝ × (Fin p → ℝ))) :
    evidence h (l ++ l') = evidence h l * evidence (postHyp h l) l' := by
  rw [evidence_eq hv l]
  unfold evidence
  rw [← integral_const_mul]
  refine setIntegral_congr_fun measurableSet_Ioi fun τ hτ => ?_
  rw [← integral_const_mul]
  congr 1
  funext w
  rw [likelihood_append, ← mul_assoc, bayes hv l hτ, mul_assoc]

/-- The density of a new row is the mixture of the normal densities under the posterior. -/
theorem predictive_mixture (hv : ValidHyp h) (rows : List (ℝ × (Fin p → ℝ))) (y : ℝ)
    (x : Fin p → ℝ) :
    evidence h (rows ++ [(y, x)]) / evidence h rows
      = ∫ τ in Set.Ioi 0, ∫ w, prior (postHyp h rows) τ w * normalPdf (w ⬝ᵥ x) τ⁻¹ y := by
  rw [evidence_append hv, mul_div_cancel_left₀ _ (evidence_pos hv rows).ne']
  unfold evidence likelihood
  simp

/-- The posterior rate after one row. -/
theorem postRate_single (hv : ValidHyp h) (y : ℝ) (x : Fin p → ℝ) :
    postRate h [(y, x)] = h.b + 1 / 2 * (h.V⁻¹.det / (postPrec h [(y, x)]).det)
      * (y - h.mu ⬝ᵥ x) ^ 2 := by
  have hP := postPrec_posDef hv [(y, x)]
  have hu : IsUnit (postPrec h [(y, x)]).det := isUnit_iff_ne_zero.mpr hP.det_pos.ne'
  set Q := postPrec h [(y, x)] with hQ
  have hX : (covs [(y, x)])ᵀ * covs [(y, x)] = Matrix.vecMulVec x x := by
    ext i j
    rw [Matrix.mul_apply]
    simp [covs, Matrix.vecMulVec_apply]
  have hXy : (covs [(y, x)])ᵀ *ᵥ ys [(y, x)] = y • x := by
    ext i
    simp [covs, ys, Matrix.mulVec, dotProduct, mul_comm]
  have hQe : Q = h.V⁻¹ + Matrix.vecMulVec x x := by rw [hQ]; unfold postPrec; rw [hX]
  have hVi : h.V⁻¹ = Q + Matrix.vecMulVec (-x) x := by
    rw [hQe, Matrix.neg_vecMulVec]; abel
  set z := Q⁻¹ *ᵥ x with hz
  have hQz : Q *ᵥ z = x := by
    rw [hz, Matrix.mulVec_mulVec, Matrix.mul_nonsing_inv _ hu, Matrix.one_mulVec]
  set s := x ⬝ᵥ z with hs
  -- the determinant lemma
  have hdet : h.V⁻¹.det = Q.det * (1 - s) := by
    rw [hVi, Matrix.vecMulVec_eq Unit, Matrix.det_add_replicateCol_mul_replicateRow hu]
    congr 1
    rw [Matrix.det_unique, Matrix.add_apply, Matrix.one_apply_eq, Matrix.mul_assoc,
      ← Matrix.replicateCol_mulVec, Matrix.replicateRow_mul_replicateCol_apply,
      Matrix.mulVec_neg, dotProduct_neg, ← sub_eq_add_neg]
  have hratio : h.V⁻¹.det / Q.det = 1 - s := by
    rw [hdet, mul_comm, mul_div_assoc, div_self hP.det_pos.ne', mul_one]
  -- the mean
  have hmean : postMean h [(y, x)] = h.mu + (y - h.mu ⬝ᵥ x) • z := by
    unfold postMean
    rw [hXy, ← hQ]
    have : h.V⁻¹ *ᵥ h.mu + y • x = Q *ᵥ (h.mu + (y - h.mu ⬝ᵥ x) • z) := by
      rw [Matrix.mulVec_add, Matrix.mulVec_smul, hQz, hVi, Matrix.add_mulVec, add_assoc]
      congr 1
      rw [Matrix.vecMulVec_mulVec, op_smul_eq_smul, sub_smul, smul_neg, dotProduct_comm x]
      abel
    rw [this, Matrix.mulVec_mulVec, Matrix.nonsing_inv_mul _ hu, Matrix.one_mulVec]
  have hq := post_quad hv [(y, x)] (postMean h [(y, x)])
  rw [sub_self, zero_dotProduct, mul_zero, add_zero] at hq
  rw [← hq, hmean, hratio]
  have e1 : h.mu + (y - h.mu ⬝ᵥ x) • z - h.mu = (y - h.mu ⬝ᵥ x) • z := by abel
  have e2 : z ⬝ᵥ h.V⁻¹ *ᵥ z = s - s ^ 2 := by
    rw [hVi, Matrix.add_mulVec, hQz, dotProduct_add, Matrix.vecMulVec_mulVec, op_smul_eq_smul,
      dotProduct_smul, dotProduct_neg, dotProduct_comm z x, ← hs, smul_eq_mul]
    ring
  have e3 : (h.mu + (y - h.mu ⬝ᵥ x) • z) ⬝ᵥ x = h.mu ⬝ᵥ x + (y - h.mu ⬝ᵥ x) * s := by
    rw [add_dotProduct, smul_dotProduct, smul_eq_mul, dotProduct_comm z x]
  rw [e1, Matrix.mulVec_smul, smul_dotProduct, dotProduct_smul, e2]
  simp only [List.map_cons, List.map_nil, List.sum_cons, List.sum_nil, e3, smul_eq_mul]
  ring

theorem postPrec_single (y y' : ℝ) (x : Fin p → ℝ) :
    postPrec h [(y, x)] = postPrec h [(y', x)] := by
  unfold postPrec
  congr 1

/-- The predictive density of a prior integrates to one. -/
theorem integral_single (hv : ValidHyp h) (x : Fin p → ℝ) :
    ∫ y : ℝ, evidence h [(y, x)] = 1 := by
  set Q := postPrec h [(0, x)] with hQ
  have hQd : 0 < Q.det := (postPrec_posDef hv _).det_pos
  have hVd := hv.V.inv.det_pos
  set r := 1 / 2 * (h.V⁻¹.det / Q.det) with hr
  have hr0 : 0 < r := by positivity
  have ha := hv.a
  have hb := hv.b
  have hG := Real.Gamma_pos_of_pos ha
  have hG' : 0 < Real.Gamma (h.a + 1 / 2) := Real.Gamma_pos_of_pos (by positivity)
  have e : ∀ y : ℝ, evidence h [(y, x)] = Real.exp (-1 / 2 * Real.log (2 * Real.pi)
      + gammaln (h.a + 1 / 2) + Real.log (Real.sqrt (1 / Q.det)) - calcLogZ h.a h.b h.V⁻¹)
      * (h.b + r * (y - h.mu ⬝ᵥ x) ^ 2) ^ (-(h.a + 1 / 2)) := by
    intro y
    have h1 := postRate_single hv y x
    have h2 := postRate_pos hv [(y, x)]
    rw [postPrec_single y 0 x, ← hQ, ← hr] at h1
    rw [evidence_eq hv]
    unfold logEv
    rw [postPrec_single y 0 x, ← hQ, h1]
    rw [h1] at h2
    rw [Real.rpow_def_of_pos h2, ← Real.exp_add]
    congr 1
    unfold calcLogZ
    simp only [List.length_cons, List.length_nil, zero_add, Nat.cast_one]
    ring
  simp only [e]
  rw [integral_const_mul, integral_student _ ha hb hr0, Real.exp_sub, Real.exp_add, Real.exp_add]
  unfold calcLogZ gammaln
  rw [Real.exp_sub, Real.exp_add, Real.exp_log hG, Real.exp_log hG', Real.exp_log (by positivity),
    Real.exp_log (by positivity)]
  have e1 : Real.exp (-1 / 2 * Real.log (2 * Real.pi)) = 1 / Real.sqrt (2 * Real.pi) := by
    rw [Real.sqrt_eq_rpow, one_div, ← Real.rpow_neg (by positivity),
      Real.rpow_def_of_pos (by positivity)]
    congr 1; ring
  have e2 : Real.exp (h.a * Real.log h.b) = h.b ^ h.a := by
    rw [Real.rpow_def_of_pos hb, mul_comm]
  have e3 : Real.sqrt (Real.pi / r) = Real.sqrt (2 * Real.pi) * Real.sqrt Q.det
      / Real.sqrt (h.V⁻¹.det) := by
    rw [← Real.sqrt_mul (by positivity), ← Real.sqrt_div (by positivity), hr]
    congr 1
    field_simp
  rw [e1, e2, e3, Real.rpow_neg hb.le, Real.sqrt_div zero_le_one, Real.sqrt_div zero_le_one,
    Real.sqrt_one]
  have hba : 0 < h.b ^ h.a := Real.rpow_pos_of_pos hb _
  have p1 : 0 < Real.sqrt (2 * Real.pi) := by positivity
  have p2 : 0 < Real.sqrt Q.det := by positivity
  have p3 : 0 < Real.sqrt h.V⁻¹.det := by positivity
  field_simp

/-- The predictive density integrates to one. -/
theorem integral_predictive (hv : ValidHyp h) (rows : List (ℝ × (Fin p → ℝ))) (x : Fin p → ℝ) :
    ∫ y : ℝ, evidence h (rows ++ [(y, x)]) / evidence h rows = 1 := by
  have : ∀ y : ℝ, evidence h (rows ++ [(y, x)]) / evidence h rows
      = evidence (postHyp h rows) [(y, x)] := fun y => by
    rw [evidence_append hv, mul_div_cancel_left₀ _ (evidence_pos hv rows).ne']
  simp only [this]
  exact integral_single (postHyp_valid hv rows) x

end Cgpm.Spec.LinReg
