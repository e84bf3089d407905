import Verif.Lemmas.LinRegMath
import Verif.Spec.LinReg

/-! The posterior of a Bayesian linear regression, its evidence and its predictive density. -/
namespace Cgpm.Spec.LinReg
open Cgpm Cgpm.LinReg Matrix MeasureTheory

variable {p : Nat}

/-- The matrix of the covariates. -/
def covs (rows : List (ℝ × (Fin p → ℝ))) : Matrix (Fin rows.length) (Fin p) ℝ :=
  Matrix.of fun i j => rows[i].2 j

/-- The vector of the values. -/
def ys (rows : List (ℝ × (Fin p → ℝ))) : Fin rows.length → ℝ := fun i => rows[i].1

/-- The posterior precision matrix. -/
noncomputable def postPrec (h : Hyp p) (rows : List (ℝ × (Fin p → ℝ))) : Matrix (Fin p) (Fin p) ℝ :=
  h.V⁻¹ + (covs rows)ᵀ * covs rows

/-- The posterior mean. -/
noncomputable def postMean (h : Hyp p) (rows : List (ℝ × (Fin p → ℝ))) : Fin p → ℝ :=
  (postPrec h rows)⁻¹ *ᵥ (h.V⁻¹ *ᵥ h.mu + (covs rows)ᵀ *ᵥ ys rows)

/-- The posterior rate. -/
noncomputable def postRate (h : Hyp p) (rows : List (ℝ × (Fin p → ℝ))) : ℝ :=
  h.b + 1 / 2 * (h.mu ⬝ᵥ h.V⁻¹ *ᵥ h.mu + ys rows ⬝ᵥ ys rows
    - postMean h rows ⬝ᵥ postPrec h rows *ᵥ postMean h rows)

/-- The posterior parameters. -/
noncomputable def postHyp (h : Hyp p) (rows : List (ℝ × (Fin p → ℝ))) : Hyp p :=
  ⟨h.a + rows.length / 2, postRate h rows, postMean h rows, (postPrec h rows)⁻¹⟩

/-- The logarithm of the evidence, as the code computes it. -/
noncomputable def logEv (h : Hyp p) (rows : List (ℝ × (Fin p → ℝ))) : ℝ :=
  -rows.length / 2 * Real.log (2 * Real.pi)
    + calcLogZ (h.a + rows.length / 2) (postRate h rows) (postPrec h rows)
    - calcLogZ h.a h.b h.V⁻¹

variable {h : Hyp p}

theorem postPrec_posDef (hv : ValidHyp h) (rows : List (ℝ × (Fin p → ℝ))) :
    (postPrec h rows).PosDef := gram_posDef hv.V.inv _

theorem postPrec_mean (hv : ValidHyp h) (rows : List (ℝ × (Fin p → ℝ))) :
    postPrec h rows *ᵥ postMean h rows = h.V⁻¹ *ᵥ h.mu + (covs rows)ᵀ *ᵥ ys rows := by
  unfold postMean
  have hu : IsUnit (postPrec h rows).det :=
    isUnit_iff_ne_zero.mpr (postPrec_posDef hv rows).det_pos.ne'
  rw [Matrix.mulVec_mulVec, Matrix.mul_nonsing_inv _ hu, Matrix.one_mulVec]

theorem postRate_ge (hv : ValidHyp h) (rows : List (ℝ × (Fin p → ℝ))) : h.b ≤ postRate h rows := by
  have := conj_rate hv.V.inv (covs rows) (ys rows) h.mu _ (postPrec_mean hv rows)
  unfold postRate
  have e : postPrec h rows = h.V⁻¹ + (covs rows)ᵀ * covs rows := rfl
  rw [← e] at this
  linarith

theorem postRate_pos (hv : ValidHyp h) (rows : List (ℝ × (Fin p → ℝ))) : 0 < postRate h rows :=
  lt_of_lt_of_le hv.b (postRate_ge hv rows)

theorem postHyp_valid (hv : ValidHyp h) (rows : List (ℝ × (Fin p → ℝ))) :
    ValidHyp (postHyp h rows) where
  a := by
    have := hv.a
    show 0 < h.a + rows.length / 2
    positivity
  b := postRate_pos hv rows
  V := (postPrec_posDef hv rows).inv

/-- The sum of the squared residuals. -/
theorem resid_sum (rows : List (ℝ × (Fin p → ℝ))) (w : Fin p → ℝ) :
    (rows.map fun r => (r.1 - w ⬝ᵥ r.2) ^ 2).sum
      = (ys rows - covs rows *ᵥ w) ⬝ᵥ (ys rows - covs rows *ᵥ w) := by
  rw [← Fin.sum_univ_fun_getElem]
  refine Finset.sum_congr rfl fun i _ => ?_
  rw [sq]
  have : (ys rows - covs rows *ᵥ w) i = rows[i].1 - w ⬝ᵥ rows[i].2 := by
    show rows[i].1 - (fun j => rows[i].2 j) ⬝ᵥ w = _
    rw [dotProduct_comm]
  rw [this]; rfl

theorem post_quad (hv : ValidHyp h) (rows : List (ℝ × (Fin p → ℝ))) (w : Fin p → ℝ) :
    h.b + 1 / 2 * ((w - h.mu) ⬝ᵥ h.V⁻¹ *ᵥ (w - h.mu)
        + (rows.map fun r => (r.1 - w ⬝ᵥ r.2) ^ 2).sum)
      = postRate h rows
        + 1 / 2 * ((w - postMean h rows) ⬝ᵥ postPrec h rows *ᵥ (w - postMean h rows)) := by
  have := conj_quad hv.V.inv (covs rows) (ys rows) h.mu _ w (postPrec_mean hv rows)
  rw [resid_sum, this]
  unfold postRate
  have e : postPrec h rows = h.V⁻¹ + (covs rows)ᵀ * covs rows := rfl
  rw [← e]
  ring

theorem likelihood_eq (rows : List (ℝ × (Fin p → ℝ))) {τ : ℝ} (hτ : 0 < τ) (w : Fin p → ℝ) :
    likelihood rows τ w = Real.exp (-(τ / 2) * (rows.map fun r => (r.1 - w ⬝ᵥ r.2) ^ 2).sum)
      * (τ / (2 * Real.pi)) ^ ((rows.length : ℝ) / 2) := by
  unfold likelihood
  induction rows with
  | nil => simp
  | cons r rows ih =>
    have hp : 0 < τ / (2 * Real.pi) := by positivity
    rw [List.map_cons, List.prod_cons, ih, List.map_cons, List.sum_cons, List.length_cons]
    have e1 : normalPdf (w ⬝ᵥ r.2) τ⁻¹ r.1
        = Real.exp (-(τ / 2) * (r.1 - w ⬝ᵥ r.2) ^ 2) * (τ / (2 * Real.pi)) ^ ((1 : ℝ) / 2) := by
      unfold normalPdf
      rw [← Real.sqrt_eq_rpow, div_eq_mul_inv, ← Real.sqrt_inv]
      congr 2
      · field_simp
      · field_simp
    have e2 : (((rows.length + 1 : ℕ) : ℝ)) / 2 = 1 / 2 + (rows.length : ℝ) / 2 := by
      push_cast; ring
    rw [e1, e2, Real.rpow_add hp, mul_add, Real.exp_add]
    ring

theorem gauss_scaled {V : Matrix (Fin p) (Fin p) ℝ} (hV : V.PosDef) {τ : ℝ} (hτ : 0 < τ)
    (w m : Fin p → ℝ) :
    Factor.gauss w m (τ⁻¹ • V) = Real.exp (-(τ / 2) * ((w - m) ⬝ᵥ V⁻¹ *ᵥ (w - m)))
      * Real.sqrt (1 / V.det) * Real.sqrt ((τ / (2 * Real.pi)) ^ p) := by
  unfold Factor.gauss
  have hd := hV.det_pos
  have hu : IsUnit V.det := isUnit_iff_ne_zero.mpr hd.ne'
  have hinv : (τ⁻¹ • V)⁻¹ = τ • V⁻¹ := by
    refine Matrix.inv_eq_left_inv ?_
    rw [Matrix.smul_mul, Matrix.mul_smul, smul_smul, mul_inv_cancel₀ hτ.ne', one_smul,
      Matrix.nonsing_inv_mul _ hu]
  rw [hinv, Matrix.smul_mulVec, dotProduct_smul, smul_eq_mul, Matrix.det_smul, Fintype.card_fin,
    div_eq_mul_inv, ← Real.sqrt_inv, mul_assoc (Real.exp _), ← Real.sqrt_mul (by positivity)]
  congr 2
  · ring
  · rw [div_pow, inv_pow]
    field_simp

/-- Bayes' rule: prior times likelihood is evidence times posterior. -/
theorem bayes (hv : ValidHyp h) (rows : List (ℝ × (Fin p → ℝ))) {τ : ℝ} (hτ : 0 < τ)
    (w : Fin p → ℝ) :
    prior h τ w * likelihood rows τ w
      = Real.exp (logEv h rows) * prior (postHyp h rows) τ w := by
  have hv' := postHyp_valid hv rows
  have hP := postPrec_posDef hv rows
  unfold prior
  rw [gauss_scaled hv.V hτ, gauss_scaled hv'.V hτ, likelihood_eq rows hτ]
  unfold ProbabilityTheory.gammaPDFReal
  rw [if_pos hτ.le, if_pos hτ.le]
  have hG : 0 < Real.Gamma h.a := Real.Gamma_pos_of_pos hv.a
  have hG' : 0 < Real.Gamma (h.a + rows.length / 2) := Real.Gamma_pos_of_pos hv'.a
  have hb := hv.b
  have hb' := postRate_pos hv rows
  have hd := hv.V.det_pos
  have hdP := hP.det_pos
  have hz : Real.exp (logEv h rows) = (2 * Real.pi) ^ (-(rows.length : ℝ) / 2)
      * (Real.Gamma (h.a + rows.length / 2) * Real.sqrt (1 / (postPrec h rows).det)
          / postRate h rows ^ (h.a + rows.length / 2))
      / (Real.Gamma h.a * Real.sqrt (1 / h.V⁻¹.det) / h.b ^ h.a) := by
    have hZ : ∀ (a b : ℝ) (A : Matrix (Fin p) (Fin p) ℝ), 0 < Real.Gamma a → 0 < b → 0 < A.det →
        Real.exp (calcLogZ a b A) = Real.Gamma a * Real.sqrt (1 / A.det) / b ^ a := by
      intro a b A h1 h2 h3
      unfold calcLogZ gammaln
      rw [Real.exp_sub, Real.exp_add, Real.exp_log h1, Real.exp_log (by positivity),
        Real.rpow_def_of_pos h2, mul_comm a]
    unfold logEv
    rw [Real.exp_sub, Real.exp_add, hZ _ _ _ hG' hb' hdP, hZ _ _ _ hG hb hv.V.inv.det_pos,
      Real.rpow_def_of_pos (x := 2 * Real.pi) (by positivity), mul_comm (Real.log (2 * Real.pi))]
  rw [hz]
  have hq := post_quad hv rows w
  have hVi : ((postHyp h rows).V)⁻¹ = postPrec h rows := by
    show ((postPrec h rows)⁻¹)⁻¹ = _
    exact Matrix.nonsing_inv_nonsing_inv _ (isUnit_iff_ne_zero.mpr hdP.ne')
  have hVd : (postHyp h rows).V.det = 1 / (postPrec h rows).det := by
    show ((postPrec h rows)⁻¹).det = _
    rw [Matrix.det_nonsing_inv, Ring.inverse_eq_inv', one_div]
  rw [hVi, hVd]
  have hVd2 : h.V⁻¹.det = 1 / h.V.det := by
    rw [Matrix.det_nonsing_inv, Ring.inverse_eq_inv', one_div]
  rw [hVd2, one_div_one_div, one_div_one_div]
  show _ = _ * (postRate h rows ^ (h.a + (rows.length : ℝ) / 2)
      / Real.Gamma (h.a + (rows.length : ℝ) / 2)
      * τ ^ (h.a + (rows.length : ℝ) / 2 - 1) * Real.exp (-(postRate h rows * τ))
      * (Real.exp (-(τ / 2) * ((w - postMean h rows) ⬝ᵥ postPrec h rows *ᵥ (w - postMean h rows)))
        * _ * _))
  have hexp : Real.exp (-(h.b * τ)) * Real.exp (-(τ / 2) * ((w - h.mu) ⬝ᵥ h.V⁻¹ *ᵥ (w - h.mu)))
      * Real.exp (-(τ / 2) * (rows.map fun r => (r.1 - w ⬝ᵥ r.2) ^ 2).sum)
      = Real.exp (-(postRate h rows * τ)) * Real.exp (-(τ / 2) *
        ((w - postMean h rows) ⬝ᵥ postPrec h rows *ᵥ (w - postMean h rows))) := by
    rw [← Real.exp_add, ← Real.exp_add, ← Real.exp_add]
    congr 1
    linear_combination (-τ) * hq
  have hpow : τ ^ (h.a + (rows.length : ℝ) / 2 - 1)
      = τ ^ (h.a - 1) * τ ^ ((rows.length : ℝ) / 2) := by
    rw [← Real.rpow_add hτ]; ring_nf
  have hpi : (τ / (2 * Real.pi)) ^ ((rows.length : ℝ) / 2)
      = τ ^ ((rows.length : ℝ) / 2) * (2 * Real.pi) ^ (-(rows.length : ℝ) / 2) := by
    rw [Real.div_rpow hτ.le (by positivity), neg_div, Real.rpow_neg (by positivity), div_eq_mul_inv]
  rw [hpow, hpi]
  have hs : Real.sqrt (1 / (postPrec h rows).det) = 1 / Real.sqrt (postPrec h rows).det := by
    rw [Real.sqrt_div zero_le_one, Real.sqrt_one]
  have hsp : 0 < Real.sqrt (postPrec h rows).det := Real.sqrt_pos.mpr hdP
  have hs3 : Real.sqrt (1 / h.V.det) = 1 / Real.sqrt h.V.det := by
    rw [Real.sqrt_div zero_le_one, Real.sqrt_one]
  have hsv : 0 < Real.sqrt h.V.det := Real.sqrt_pos.mpr hd
  have hba : 0 < h.b ^ h.a := Real.rpow_pos_of_pos hb _
  have hbn : 0 < postRate h rows ^ (h.a + (rows.length : ℝ) / 2) := Real.rpow_pos_of_pos hb' _
  rw [hs3, hs]
  generalize Real.Gamma (h.a + (rows.length : ℝ) / 2) = G at *
  generalize Real.exp (-(h.b * τ)) = E1 at *
  generalize Real.exp (-(τ / 2) * ((w - h.mu) ⬝ᵥ h.V⁻¹ *ᵥ (w - h.mu))) = E2 at *
  generalize Real.exp (-(τ / 2) * (rows.map fun r => (r.1 - w ⬝ᵥ r.2) ^ 2).sum) = E3 at *
  generalize Real.exp (-(postRate h rows * τ)) = E4 at *
  generalize Real.exp (-(τ / 2) * ((w - postMean h rows) ⬝ᵥ postPrec h rows *ᵥ
    (w - postMean h rows))) = E5 at *
  field_simp
  linear_combination hexp

end Cgpm.Spec.LinReg
