import Verif.Spec.PrimSimulate
import Verif.Lemmas.Forest
import Verif.Lemmas.PrimNorm
import Mathlib.MeasureTheory.Measure.Prod
import Mathlib.MeasureTheory.Function.JacobianOneDim
import Mathlib.MeasureTheory.Group.Convolution

/-! Laws of compound draws. -/
namespace Cgpm
open Classical MeasureTheory ProbabilityTheory
open scoped ENNReal

namespace Draws
variable {α β : Type}

theorem E_bind (m : Draws α) (f : α → Draws β) (g : β → ℝ≥0∞) :
    (m.bind f).E g = m.E fun a => (f a).E g := by
  induction m with
  | pure a => rfl
  | raise e => rfl
  | draw law k ih => simp only [bind, E, ih]

theorem fails_bind_pure (m : Draws α) (f : α → β) (e : Exn) :
    (m.bind fun a => .pure (f a)).fails e = m.fails e := by
  induction m with
  | pure a => rfl
  | raise e => rfl
  | draw law k ih => simp only [bind, fails, ih]

theorem E_const_mul (m : Draws α) {c : ℝ≥0∞} (hc : c ≠ ⊤) (g : α → ℝ≥0∞) :
    (m.E fun a => c * g a) = c * m.E g := by
  induction m with
  | pure a => rfl
  | raise e => simp [E]
  | draw law k ih => simp only [E, ih]; rw [lintegral_const_mul' _ _ hc]

theorem list_prod_ne_top {l : List ℝ≥0∞} (h : ∀ a ∈ l, a ≠ ⊤) : l.prod ≠ ⊤ := by
  induction l with
  | nil => simp
  | cons a t ih =>
    rw [List.prod_cons]
    exact ENNReal.mul_ne_top (h a List.mem_cons_self)
      (ih fun b hb => h b (List.mem_cons_of_mem _ hb))

/-- Repeated calls are independent. -/
theorem E_many (m : Draws α) : ∀ gs : List (α → ℝ≥0∞),
    (∀ g ∈ gs, (∀ a, g a ≠ ⊤) ∧ m.E g ≠ ⊤) →
    ((m.many gs.length).E fun l => (List.zipWith (fun g a => g a) gs l).prod)
      = (gs.map fun g => m.E g).prod
  | [], _ => by simp [many, E]
  | g :: gs, h => by
    have ih := E_many m gs fun g' hg => h g' (List.mem_cons_of_mem _ hg)
    have hg := h g List.mem_cons_self
    simp only [List.length_cons, many]
    rw [E_bind]
    have : ∀ a, (((m.many gs.length).bind fun l => Draws.pure (a :: l)).E
        fun l => (List.zipWith (fun g a => g a) (g :: gs) l).prod)
        = (gs.map fun g => m.E g).prod * g a := by
      intro a
      rw [E_bind]
      simp only [E, List.zipWith_cons_cons, List.prod_cons]
      rw [E_const_mul _ (hg.1 a), ih, mul_comm]
    simp only [this]
    rw [E_const_mul, List.map_cons, List.prod_cons, mul_comm]
    refine list_prod_ne_top fun a ha => ?_
    obtain ⟨g', hg', rfl⟩ := List.mem_map.mp ha
    exact (h g' (List.mem_cons_of_mem _ hg')).2

theorem lintegral_atoms (w : ℕ → ℝ) (x : ℕ → ℝ) (f : ℝ → ℝ≥0∞) :
    ∫⁻ y, f y ∂(Measure.sum fun n : ℕ => ENNReal.ofReal (w n) • Measure.dirac (x n))
      = ∑' n, ENNReal.ofReal (w n) * f (x n) := by
  rw [lintegral_sum_measure]
  simp only [lintegral_smul_measure, lintegral_dirac, smul_eq_mul]

theorem lintegral_nat (f : ℝ → ℝ≥0∞) :
    ∫⁻ y, f y ∂(Measure.sum fun n : ℕ => Measure.dirac (n : ℝ)) = ∑' n : ℕ, f n := by
  rw [lintegral_sum_measure]
  simp only [lintegral_dirac]

end Draws

/-- The law of a draw whose parameter is itself drawn. -/
theorem lintegral_mix {f : ℝ → ℝ≥0∞} (hf : Measurable f) {k : ℝ → ℝ → ℝ≥0∞}
    (hk : Measurable (Function.uncurry k)) {g : ℝ → ℝ≥0∞} (hg : Measurable g) :
    ∫⁻ m, f m * ∫⁻ x, k m x * g x = ∫⁻ x, g x * ∫⁻ m, f m * k m x := by
  have h1 : ∀ m, f m * ∫⁻ x, k m x * g x = ∫⁻ x, f m * (k m x * g x) := by
    intro m
    rw [lintegral_const_mul]
    exact (hk.comp (measurable_const.prodMk measurable_id)).mul hg
  have h2 : ∀ x, g x * ∫⁻ m, f m * k m x = ∫⁻ m, f m * (k m x * g x) := by
    intro x
    rw [← lintegral_const_mul]
    · refine lintegral_congr fun m => by ring
    · exact hf.mul (hk.comp (measurable_id.prodMk measurable_const))
  simp only [h1, h2]
  refine lintegral_lintegral_swap ?_
  refine Measurable.aemeasurable ?_
  exact (hf.comp measurable_fst).mul (hk.mul (hg.comp measurable_snd))

theorem measurable_gammaPDF (a r : ℝ) : Measurable (gammaPDF a r) :=
  (measurable_gammaPDFReal a r).ennreal_ofReal

theorem measurable_betaPDF' (a b : ℝ) : Measurable (betaPDF a b) :=
  (measurable_betaPDFReal a b).ennreal_ofReal

theorem lintegral_gammaMeasure (a r : ℝ) (F : ℝ → ℝ≥0∞) :
    ∫⁻ m, F m ∂gammaMeasure a r = ∫⁻ m, gammaPDF a r m * F m :=
  lintegral_withDensity_eq_lintegral_mul_non_measurable _ (measurable_gammaPDF a r)
    (Filter.Eventually.of_forall fun _ => ENNReal.ofReal_lt_top) F

theorem lintegral_betaMeasure (a b : ℝ) (F : ℝ → ℝ≥0∞) :
    ∫⁻ m, F m ∂betaMeasure a b = ∫⁻ m, betaPDF a b m * F m :=
  lintegral_withDensity_eq_lintegral_mul_non_measurable _
    (measurable_betaPDFReal a b).ennreal_ofReal
    (Filter.Eventually.of_forall fun _ => ENNReal.ofReal_lt_top) F

theorem lintegral_gaussianReal (m : ℝ) {v : NNReal} (hv : v ≠ 0) (F : ℝ → ℝ≥0∞) :
    ∫⁻ x, F x ∂gaussianReal m v = ∫⁻ x, gaussianPDF m v x * F x := by
  rw [gaussianReal_of_var_ne_zero m hv]
  exact lintegral_withDensity_eq_lintegral_mul_non_measurable _ (measurable_gaussianPDF m v)
    (Filter.Eventually.of_forall fun _ => ENNReal.ofReal_lt_top) F

theorem gammaPDFReal_exp {a r x : ℝ} (ha : 0 < a) (hr : 0 < r) (hx : 0 < x) :
    gammaPDFReal a r x
      = Real.exp (Real.log r * a - gammaln a + Real.log x * (a - 1) - r * x) := by
  rw [gammaPDFReal, if_pos hx.le, Real.rpow_def_of_pos hr, Real.rpow_def_of_pos hx,
    Real.exp_sub, Real.exp_add, Real.exp_sub, exp_gammaln ha, Real.exp_neg]
  field_simp

/-! ### exponential -/

theorem exponential_kernel {A B x : ℝ} (hA : 0 < A) (hB : 0 < B) (hx : 0 ≤ x) :
    ∫⁻ m, gammaPDF A B m * exponentialPDF m x
      = ENNReal.ofReal (Real.exp (gammaLogZ (A + 1) (B + x) - gammaLogZ A B)) := by
  have hBx : 0 < B + x := by positivity
  have h : ∀ᵐ m : ℝ, gammaPDF A B m * exponentialPDF m x
      = ENNReal.ofReal (Real.exp (gammaLogZ (A + 1) (B + x) - gammaLogZ A B))
        * gammaPDF (A + 1) (B + x) m := by
    filter_upwards [Measure.ae_ne volume (0 : ℝ)] with m hm
    rcases lt_or_gt_of_ne hm with hm | hm
    · rw [gammaPDF_of_neg hm, gammaPDF_of_neg hm, zero_mul, mul_zero]
    · rw [exponentialPDF_of_nonneg hx, gammaPDF, gammaPDF, gammaPDFReal_exp hA hB hm,
        gammaPDFReal_exp (by positivity) hBx hm, ← ENNReal.ofReal_mul (Real.exp_pos _).le,
        ← ENNReal.ofReal_mul (Real.exp_pos _).le]
      congr 1
      have hmm : m = Real.exp (Real.log m) := (Real.exp_log hm).symm
      conv_lhs => arg 2; arg 1; rw [hmm]
      rw [← Real.exp_add, ← Real.exp_add, ← Real.exp_add]
      congr 1
      unfold gammaLogZ
      ring
  rw [lintegral_congr_ae h, lintegral_const_mul _ (measurable_gammaPDF _ _),
    lintegral_gammaPDF_eq_one (by positivity) hBx, mul_one]

theorem measurable_exponentialPDF_uncurry :
    Measurable (Function.uncurry fun m x : ℝ => exponentialPDF m x) := by
  have : (Function.uncurry fun m x : ℝ => exponentialPDF m x)
      = fun p : ℝ × ℝ => ENNReal.ofReal (if 0 ≤ p.2 then p.1 * Real.exp (-(p.1 * p.2)) else 0) := by
    funext p
    exact exponentialPDF_eq p.1 p.2
  rw [this]
  refine Measurable.ennreal_ofReal (Measurable.ite ?_ (by fun_prop) measurable_const)
  exact measurableSet_le measurable_const measurable_snd

theorem exponential_E {A B : ℝ} (hA : 0 < A) (hB : 0 < B) {g : ℝ → ℝ≥0∞} (hg : Measurable g) :
    ∫⁻ m, ∫⁻ x, g x ∂npExponential (1 / m) ∂npGamma A (1 / B)
      = ∫⁻ x, g x * (if x < 0 then 0
          else ENNReal.ofReal (Real.exp (gammaLogZ (A + 1) (B + x) - gammaLogZ A B))) := by
  unfold npGamma npExponential
  simp only [one_div_one_div]
  rw [lintegral_gammaMeasure]
  have h : ∀ m, ∫⁻ x, g x ∂expMeasure m = ∫⁻ x, exponentialPDF m x * g x := fun m => by
    exact lintegral_gammaMeasure 1 m g
  simp only [h]
  rw [lintegral_mix (measurable_gammaPDF A B) measurable_exponentialPDF_uncurry hg]
  refine lintegral_congr fun x => ?_
  split
  · rename_i hx
    simp [exponentialPDF_of_neg hx]
  · rename_i hx
    rw [exponential_kernel hA hB (not_lt.mp hx)]

/-! ### geometric -/

theorem betaPDFReal_exp {a b x : ℝ} (ha : 0 < a) (hb : 0 < b) (hx : 0 < x) (hx1 : x < 1) :
    betaPDFReal a b x
      = Real.exp (Real.log x * (a - 1) + Real.log (1 - x) * (b - 1) - betaln a b) := by
  rw [betaPDFReal, if_pos ⟨hx, hx1⟩, Real.rpow_def_of_pos hx, Real.rpow_def_of_pos (by linarith),
    Real.exp_sub, Real.exp_add]
  have : Real.exp (betaln a b) = ProbabilityTheory.beta a b := by
    unfold betaln ProbabilityTheory.beta
    rw [Real.exp_sub, Real.exp_add, exp_gammaln ha, exp_gammaln hb, exp_gammaln (by positivity)]
  rw [this]
  ring

theorem geometric_kernel {A B : ℝ} (hA : 0 < A) (hB : 0 < B) (n : ℕ) :
    ∫⁻ m, betaPDF A B m * ENNReal.ofReal ((1 - m) ^ n * m)
      = ENNReal.ofReal (Real.exp (betaln (A + 1) (B + n) - betaln A B)) := by
  have hBn : 0 < B + (n : ℝ) := by positivity
  have h : ∀ᵐ m : ℝ, betaPDF A B m * ENNReal.ofReal ((1 - m) ^ n * m)
      = ENNReal.ofReal (Real.exp (betaln (A + 1) (B + n) - betaln A B))
        * betaPDF (A + 1) (B + n) m := by
    refine Filter.Eventually.of_forall fun m => ?_
    rcases le_or_gt m 0 with hm | hm
    · rw [betaPDF_eq_zero_of_nonpos hm, betaPDF_eq_zero_of_nonpos hm, zero_mul, mul_zero]
    rcases le_or_gt 1 m with hm1 | hm1
    · rw [betaPDF_eq_zero_of_one_le hm1, betaPDF_eq_zero_of_one_le hm1, zero_mul, mul_zero]
    · have h1 : 0 < 1 - m := by linarith
      rw [betaPDF, betaPDF, betaPDFReal_exp hA hB hm hm1,
        betaPDFReal_exp (by positivity) hBn hm hm1, ← ENNReal.ofReal_mul (Real.exp_pos _).le,
        ← ENNReal.ofReal_mul (Real.exp_pos _).le]
      congr 1
      have e : (1 - m) ^ n * m = Real.exp (n * Real.log (1 - m) + Real.log m) := by
        rw [Real.exp_add, Real.exp_log hm, Real.exp_nat_mul, Real.exp_log h1]
      rw [e, ← Real.exp_add, ← Real.exp_add]
      congr 1
      ring
  rw [lintegral_congr_ae h, lintegral_const_mul _ (measurable_betaPDF' _ _),
    lintegral_betaPDF_eq_one (by positivity) hBn, mul_one]

theorem geometric_E {A B : ℝ} (hA : 0 < A) (hB : 0 < B) (g : ℝ → ℝ≥0∞) :
    ∫⁻ m, ∫⁻ x, g (x - 1) ∂npGeometric m ∂npBeta A B
      = ∑' n : ℕ, g n * ENNReal.ofReal (Real.exp (betaln (A + 1) (B + n) - betaln A B)) := by
  unfold npGeometric npBeta
  simp only [Draws.lintegral_atoms, add_sub_cancel_right]
  rw [lintegral_betaMeasure]
  have h1 : ∀ m, betaPDF A B m * ∑' n : ℕ, ENNReal.ofReal ((1 - m) ^ n * m) * g n
      = ∑' n : ℕ, g n * (betaPDF A B m * ENNReal.ofReal ((1 - m) ^ n * m)) := by
    intro m
    rw [← ENNReal.tsum_mul_left]
    refine tsum_congr fun n => by ring
  have hm : ∀ n : ℕ, Measurable fun m : ℝ => betaPDF A B m * ENNReal.ofReal ((1 - m) ^ n * m) :=
    fun n => (measurable_betaPDFReal _ _).ennreal_ofReal.mul
      (Measurable.ennreal_ofReal (by fun_prop))
  simp only [h1]
  rw [lintegral_tsum fun n => ((hm n).const_mul _).aemeasurable]
  refine tsum_congr fun n => ?_
  rw [lintegral_const_mul _ (hm n), geometric_kernel hA hB]

/-! ### poisson -/

theorem poisson_weight {A B : ℝ} (hA : 0 < A) (hB : 0 < B) (n : ℕ) :
    Real.Gamma (A + n) / (Real.Gamma A * n.factorial) * (B / (B + 1)) ^ A * (1 - B / (B + 1)) ^ n
      = Real.exp (gammaLogZ (A + n) (B + 1) - gammaLogZ A B - gammaln (n + 1)) := by
  have hAn : 0 < A + (n : ℝ) := by positivity
  have hn1 : 0 < (n : ℝ) + 1 := by positivity
  have hB1 : 0 < B + 1 := by positivity
  unfold gammaLogZ
  have e2 : gammaln (A + n) - (A + n) * Real.log (B + 1) - (gammaln A - A * Real.log B)
      - gammaln (n + 1)
      = gammaln (A + n) - gammaln A - gammaln (n + 1)
        + (Real.log B - Real.log (B + 1)) * A - n * Real.log (B + 1) := by ring
  rw [e2, Real.exp_sub, Real.exp_add, Real.exp_sub, Real.exp_sub, exp_gammaln hAn, exp_gammaln hA,
    exp_gammaln hn1, ← Real.log_div hB.ne' hB1.ne', ← Real.rpow_def_of_pos (by positivity),
    mul_comm (n : ℝ), ← Real.rpow_def_of_pos hB1, Real.rpow_natCast, Real.Gamma_nat_eq_factorial,
    show 1 - B / (B + 1) = 1 / (B + 1) by field_simp; ring, one_div, inv_pow]
  field_simp

theorem poisson_E {A B : ℝ} (hA : 0 < A) (hB : 0 < B) (g : ℝ → ℝ≥0∞) :
    ∫⁻ x, g x ∂npNegativeBinomial A (B / (B + 1))
      = ∑' n : ℕ, g n * ENNReal.ofReal
          (Real.exp (gammaLogZ (A + n) (B + 1) - gammaLogZ A B - gammaln (n + 1))) := by
  unfold npNegativeBinomial
  rw [Draws.lintegral_atoms]
  refine tsum_congr fun n => ?_
  rw [poisson_weight hA hB, mul_comm]

/-! ### beta -/

theorem beta_E {a b : ℝ} (ha : 0 < a) (hb : 0 < b) (g : ℝ → ℝ≥0∞) :
    ∫⁻ x, g x ∂npBeta a b
      = ∫⁻ x, g x * (if 0 < x ∧ x < 1 then ENNReal.ofReal (Real.exp
          ((a - 1) * Real.log x + (b - 1) * Real.log (1 - x) - betaln a b)) else 0) := by
  unfold npBeta
  rw [lintegral_betaMeasure]
  refine lintegral_congr fun x => ?_
  split
  · rename_i h
    rw [betaPDF, betaPDFReal_exp ha hb h.1 h.2, mul_comm]
    congr 3
    ring
  · rename_i h
    rw [betaPDF, betaPDFReal, if_neg h]
    simp

/-! ### normal -/

theorem lintegral_gauss_gauss (m : ℝ) (v w : NNReal) {g : ℝ → ℝ≥0∞} (hg : Measurable g) :
    ∫⁻ y, ∫⁻ x, g x ∂gaussianReal y w ∂gaussianReal m v = ∫⁻ x, g x ∂gaussianReal m (v + w) := by
  have h := gaussianReal_conv_gaussianReal (m₁ := m) (m₂ := 0) (v₁ := v) (v₂ := w)
  rw [add_zero] at h
  rw [← h, Measure.lintegral_conv hg]
  refine lintegral_congr fun y => ?_
  have e := gaussianReal_map_const_add (μ := 0) (v := w) y
  rw [zero_add] at e
  rw [← e, lintegral_map hg (measurable_const_add y)]

theorem gaussianPDFReal_exp {m V x : ℝ} (hV : 0 < V) :
    gaussianPDFReal m (Real.toNNReal V) x
      = Real.exp (-(1 / 2) * (LOG2PI + Real.log V) - (x - m) ^ 2 / (2 * V)) := by
  have e : Real.sqrt (2 * Real.pi * V) = Real.exp ((1 / 2) * (LOG2PI + Real.log V)) := by
    rw [Real.sqrt_eq_rpow, Real.rpow_def_of_pos (by positivity), Real.log_mul (by positivity) hV.ne',
      Real.log_mul (by norm_num) Real.pi_pos.ne', LOG2PI]
    congr 1; ring
  rw [gaussianPDFReal, Real.coe_toNNReal _ hV.le, e, ← Real.exp_neg, ← Real.exp_add]
  congr 1
  ring

/-- The predictive density of a normal component, as `normalPredictive` computes it. -/
noncomputable def studentLog (m r s nu x : ℝ) : ℝ :=
  -(1 / 2) * LOG2PI + normalLogZ (r + 1) (s + r / (r + 1) * (x - m) ^ 2) (nu + 1) - normalLogZ r s nu

theorem normal_kernel {m r s nu x : ℝ} (hr : 0 < r) (hs : 0 < s) (hnu : 0 < nu) :
    ∫⁻ rho, gammaPDF (nu / 2) (s / 2) rho
        * gaussianPDF m (Real.toNNReal ((r + 1) / (r * rho))) x
      = ENNReal.ofReal (Real.exp (studentLog m r s nu x)) := by
  have hc : 0 < s + r / (r + 1) * (x - m) ^ 2 := by positivity
  have h : ∀ᵐ rho : ℝ, gammaPDF (nu / 2) (s / 2) rho
        * gaussianPDF m (Real.toNNReal ((r + 1) / (r * rho))) x
      = ENNReal.ofReal (Real.exp (studentLog m r s nu x))
        * gammaPDF ((nu + 1) / 2) ((s + r / (r + 1) * (x - m) ^ 2) / 2) rho := by
    filter_upwards [Measure.ae_ne volume (0 : ℝ)] with rho hm
    rcases lt_or_gt_of_ne hm with hm | hm
    · rw [gammaPDF_of_neg hm, gammaPDF_of_neg hm, zero_mul, mul_zero]
    · rw [gammaPDF, gammaPDF, gaussianPDF, gammaPDFReal_exp (by positivity) (by positivity) hm,
        gammaPDFReal_exp (by positivity) (by positivity) hm, gaussianPDFReal_exp (by positivity),
        ← ENNReal.ofReal_mul (Real.exp_pos _).le, ← ENNReal.ofReal_mul (Real.exp_pos _).le,
        ← Real.exp_add, ← Real.exp_add]
      congr 2
      unfold studentLog normalLogZ
      rw [Real.log_div (x := r + 1) (y := r * rho) (by positivity) (by positivity),
        Real.log_mul hr.ne' hm.ne', Real.log_div hs.ne' (by norm_num), Real.log_div hc.ne' (by norm_num), LOG2PI]
      field_simp
      ring
  rw [lintegral_congr_ae h, lintegral_const_mul _ (measurable_gammaPDF _ _),
    lintegral_gammaPDF_eq_one (by positivity) (by positivity), mul_one]

theorem normal_E {m r s nu : ℝ} (hr : 0 < r) (hs : 0 < s) (hnu : 0 < nu) {g : ℝ → ℝ≥0∞}
    (hg : Measurable g) :
    ∫⁻ rho, ∫⁻ mu, ∫⁻ x, g x ∂npNormal mu (rho ^ (-(1 / 2) : ℝ))
        ∂npNormal m (1 / (rho * r) ^ (1 / 2 : ℝ)) ∂npGamma (nu / 2) (2 / s)
      = ∫⁻ x, g x * ENNReal.ofReal (Real.exp (studentLog m r s nu x)) := by
  unfold npGamma npNormal
  rw [one_div_div, lintegral_gammaMeasure]
  have h : ∀ᵐ rho : ℝ, gammaPDF (nu / 2) (s / 2) rho *
      ∫⁻ mu, ∫⁻ x, g x ∂gaussianReal mu (Real.toNNReal ((rho ^ (-(1 / 2) : ℝ)) ^ 2))
        ∂gaussianReal m (Real.toNNReal ((1 / (rho * r) ^ (1 / 2 : ℝ)) ^ 2))
      = gammaPDF (nu / 2) (s / 2) rho *
        ∫⁻ x, gaussianPDF m (Real.toNNReal ((r + 1) / (r * rho))) x * g x := by
    filter_upwards [Measure.ae_ne volume (0 : ℝ)] with rho hm
    rcases lt_or_gt_of_ne hm with hm | hm
    · rw [gammaPDF_of_neg hm, zero_mul, zero_mul]
    · have e1 : (rho ^ (-(1 / 2) : ℝ)) ^ 2 = 1 / rho := by
        rw [← Real.rpow_natCast, ← Real.rpow_mul hm.le, one_div]
        norm_num
        exact Real.rpow_neg_one rho
      have e2 : (1 / (rho * r) ^ (1 / 2 : ℝ)) ^ 2 = 1 / (rho * r) := by
        rw [div_pow, one_pow, ← Real.rpow_natCast, ← Real.rpow_mul (by positivity)]
        norm_num
      have e3 : Real.toNNReal (1 / (rho * r)) + Real.toNNReal (1 / rho)
          = Real.toNNReal ((r + 1) / (r * rho)) := by
        rw [← Real.toNNReal_add (by positivity) (by positivity)]
        congr 1
        field_simp
        ring
      have hv : Real.toNNReal ((r + 1) / (r * rho)) ≠ 0 := by
        rw [Ne, Real.toNNReal_eq_zero, not_le]; positivity
      rw [e1, e2, lintegral_gauss_gauss _ _ _ hg, e3, lintegral_gaussianReal _ hv]
  rw [lintegral_congr_ae h, lintegral_mix (measurable_gammaPDF _ _) ?_ hg]
  · refine lintegral_congr fun x => ?_
    rw [normal_kernel hr hs hnu]
  · have : Measurable fun p : ℝ × ℝ => (m, Real.toNNReal ((r + 1) / (r * p.1)), p.2) := by fun_prop
    exact measurable_uncurry_gaussianPDF.comp this

/-! ### the exponential of a draw -/

theorem lintegral_comp_exp {g f : ℝ → ℝ≥0∞} :
    ∫⁻ y, g (Real.exp y) * f y
      = ∫⁻ x, g x * (if x ≤ 0 then 0 else ENNReal.ofReal (1 / x) * f (Real.log x)) := by
  have himg : Real.exp '' Set.univ = Set.Ioi 0 := by
    rw [Set.image_univ, Real.range_exp]
  have h := lintegral_image_eq_lintegral_abs_deriv_mul (f := Real.exp) (f' := Real.exp)
    (s := Set.univ) MeasurableSet.univ (fun x _ => (Real.hasDerivAt_exp x).hasDerivWithinAt)
    Real.exp_injective.injOn
    (fun x => g x * (ENNReal.ofReal (1 / x) * f (Real.log x)))
  rw [himg, Measure.restrict_univ] at h
  have h2 : ∫⁻ x, g x * (if x ≤ 0 then 0 else ENNReal.ofReal (1 / x) * f (Real.log x))
      = ∫⁻ x in Set.Ioi 0, g x * (ENNReal.ofReal (1 / x) * f (Real.log x)) := by
    rw [← lintegral_indicator measurableSet_Ioi]
    refine lintegral_congr fun x => ?_
    by_cases hx : x ≤ 0
    · simp [hx, Set.indicator_of_notMem]
    · rw [if_neg hx, Set.indicator_of_mem (by simpa using hx)]
  rw [h2, h]
  refine lintegral_congr fun y => ?_
  rw [abs_of_pos (Real.exp_pos y), Real.log_exp]
  have : ENNReal.ofReal (Real.exp y) * ENNReal.ofReal (1 / Real.exp y) = 1 := by
    rw [← ENNReal.ofReal_mul (Real.exp_pos y).le, mul_one_div_cancel (Real.exp_pos y).ne',
      ENNReal.ofReal_one]
  calc g (Real.exp y) * f y = 1 * (g (Real.exp y) * f y) := (one_mul _).symm
    _ = _ := by rw [← this]; ring

end Cgpm
