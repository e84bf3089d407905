import Verif.Spec.Examples
import Verif.Lemmas.NetBehaves
import Verif.Lemmas.LogSpace
import Verif.Lemmas.MhSafe
import Verif.Props.FactorDraws

/-! The examples as components of a network. -/
namespace Cgpm.Examples
open Cgpm MeasureTheory ProbabilityTheory Classical Cgpm.Props
open scoped ENNReal

theorem measurable_uniformDensity (low high : ℝ) : Measurable (uniformDensity low high) :=
  Measurable.ite ((measurableSet_le measurable_const measurable_id).inter
    (measurableSet_le measurable_id measurable_const)) measurable_const measurable_const

theorem lintegral_uniformDensity (low high : ℝ) (F : ℝ → ℝ≥0∞) (h : low < high) :
    ∫⁻ x, F x * uniformDensity low high x = ∫⁻ u, F u ∂Sampler.npUniform low high := by
  have hc : (ENNReal.ofReal (high - low))⁻¹ ≠ ⊤ := by
    rw [Ne, ENNReal.inv_eq_top, ENNReal.ofReal_eq_zero, not_le]; linarith
  have e : (fun x => F x * uniformDensity low high x)
      = (Set.Icc low high).indicator fun x => F x * (ENNReal.ofReal (high - low))⁻¹ := by
    funext x
    unfold uniformDensity Set.indicator
    by_cases hx : x ∈ Set.Icc low high
    · rw [if_pos hx, if_pos (show low ≤ x ∧ x ≤ high from hx)]
    · rw [if_neg hx, if_neg (show ¬ (low ≤ x ∧ x ≤ high) from hx), mul_zero]
  rw [e, lintegral_indicator measurableSet_Icc, lintegral_mul_const' _ _ hc]
  unfold Sampler.npUniform
  rw [lintegral_smul_measure, smul_eq_mul, mul_comm]
  congr 1
  exact setLIntegral_congr Ico_ae_eq_Icc.symm

theorem uniform_prob {low high : ℝ} (h : low < high) : Sampler.npUniform low high Set.univ = 1 := by
  unfold Sampler.npUniform
  rw [Measure.smul_apply, Measure.restrict_apply MeasurableSet.univ, Set.univ_inter, Real.volume_Ico,
    smul_eq_mul]
  refine ENNReal.inv_mul_cancel ?_ ENNReal.ofReal_ne_top
  rw [Ne, ENNReal.ofReal_eq_zero, not_le]; linarith

theorem mass_uniform {loc scale : ℝ} (h : 0 < scale) (x : ℝ) :
    mass (uniformLogpdf loc scale x) = uniformDensity loc (loc + scale) x ∧
      (uniformLogpdf loc scale x = .ninf ∨ ∃ r, uniformLogpdf loc scale x = .fin r) := by
  unfold uniformLogpdf uniformDensity
  rw [if_neg (not_le.mpr h)]
  split
  · refine ⟨?_, .inr ⟨_, rfl⟩⟩
    show ENNReal.ofReal (Real.exp (-Real.log scale)) = _
    rw [Real.exp_neg, Real.exp_log h, add_sub_cancel_left, ENNReal.ofReal_inv_of_pos h]
  · exact ⟨rfl, .inl rfl⟩

/-- An example with one output, as a component. -/
theorem behaves_example {e : Example} {o : Nat} (ho : e.outputs = [o]) {μ : Nat → Measure ℝ}
    [∀ v, SigmaFinite (μ v)] (hμ : μ o = volume) {p : (Nat → ℝ) → ℝ≥0∞} (hm : Measurable p)
    (hscope : ∀ x y : Nat → ℝ, (∀ v, v = o ∨ v ∈ e.inputs → x v = y v) → p x = p y)
    (htotal : ∀ x : Nat → ℝ, ∫⁻ t, p (Function.update x o t) = 1)
    (hlog : ∀ x : Nat → ℝ, ∃ r, e.logpdf [(o, x o)] [] (e.inputs.map fun v => (v, x v)) = .ok r ∧
      (r = .ninf ∨ ∃ y, r = .fin y) ∧ mass r = p x)
    (hsim : ∀ (x : Nat → ℝ) (G : Dict Nat ℝ → ℝ≥0∞), Measurable (fun t => G [(o, t)]) →
      (e.simulate [o] [] (e.inputs.map fun v => (v, x v))).E G
        = ∫⁻ t, G [(o, t)] * p (Function.update x o t)) (rowid : Option Row) :
    Net.Behaves μ rowid e.net e.draws p := by
  have hins : ∀ x : Nat → ℝ, Net.lookDict e.inputs (Net.lookAt e.inputs.toFinset x)
      = e.inputs.map fun v => (v, x v) := by
    intro x
    rw [Props.lookDict_lookAt]
    congr 1
    rw [List.filter_eq_self]
    intro v hv
    simpa using hv
  refine Net.behaves_single (o := o) ho hm hscope (by rw [hμ]; exact htotal) ?_ ?_
  · intro x
    obtain ⟨r, h1, h2, h3⟩ := hlog x
    have e1 : Net.lookDict e.outputs (Net.lookAt {o} x) = [(o, x o)] := by
      rw [ho]; simp [Net.lookDict, Net.lookAt]
    have e2 : (Net.lookDict e.net.inputs (Net.lookAt e.net.inputs.toFinset x))
      = e.inputs.map fun v => (v, x v) := hins x
    rcases h2 with rfl | ⟨y, rfl⟩
    · refine ⟨⊥, ?_, ?_⟩
      · simp only [Example.net, e1, hins, h1]
      · rw [← h3]; simp [mass, pr]
    · refine ⟨((y : ℝ) : LogP), ?_, ?_⟩
      · simp only [Example.net, e1, hins, h1]
      · rw [← h3]; rfl
  · intro x g hg
    rw [hμ]
    have e0 : Net.lookDict e.outputs (Net.lookAt ∅ x) = [] := by
      rw [ho]; simp [Net.lookDict, Net.lookAt]
    have hd : e.draws rowid [o] (Net.lookAt ∅ x) (Net.lookAt e.net.inputs.toFinset x)
        = (e.simulate [o] [] (e.inputs.map fun v => (v, x v))).bind fun d =>
          .pure fun v => (d.get? v).getD 0 := by
      show (e.simulate [o] (Net.lookDict e.outputs (Net.lookAt ∅ x))
        (Net.lookDict e.inputs (Net.lookAt e.inputs.toFinset x))).bind _ = _
      rw [e0, hins]
    rw [hd, Draws.E_bind, Draws.E_bind]
    have hfill : ∀ y : ℝ, Net.fillWith x [(o, (Dict.get? [(o, y)] o).getD 0)]
        = Function.update x o y := by
      intro y
      rw [Net.fillWith_single]
      simp [Dict.get?]
    have hE := hsim x (fun d => (Draws.ofExcept (e.net.simulate
        (fun v => (d.get? v).getD 0) rowid [o] (Net.lookAt ∅ x)
        (Net.lookAt e.net.inputs.toFinset x))).E fun d => g (Net.fillWith x d)) (by
      show Measurable fun y => g (Net.fillWith x [(o, (Dict.get? [(o, y)] o).getD 0)])
      simp only [hfill]
      exact hg.comp (measurable_update x))
    refine hE.trans (lintegral_congr fun y => ?_)
    congr 1
    show g (Net.fillWith x [(o, (Dict.get? [(o, y)] o).getD 0)]) = _
    rw [hfill]

theorem toNNReal_sq_ne {s : ℝ} (h : 0 < s) : Real.toNNReal (s ^ 2) ≠ 0 := by
  rw [Ne, Real.toNNReal_eq_zero, not_le]; positivity

theorem lintegral_normal (m : ℝ) {s : ℝ} (h : 0 < s) {F : ℝ → ℝ≥0∞} (hF : Measurable F) :
    ∫⁻ x, F x ∂npNormal m s = ∫⁻ x, normalDensity m s x * F x := by
  unfold npNormal normalDensity
  rw [gaussianReal_of_var_ne_zero _ (toNNReal_sq_ne h),
    lintegral_withDensity_eq_lintegral_mul _ (measurable_gaussianPDF _ _) hF]
  rfl

theorem normalCall_E (m : ℝ) {s : ℝ} (h : 0 < s) {F : ℝ → ℝ≥0∞} (hF : Measurable F) :
    (normalCall m s).E F = ∫⁻ x, normalDensity m s x * F x := by
  unfold normalCall
  rw [if_neg (not_lt.mpr h.le)]
  exact lintegral_normal m h hF

theorem lintegral_normalDensity (m : ℝ) {s : ℝ} (h : 0 < s) : ∫⁻ x, normalDensity m s x = 1 :=
  lintegral_gaussianPDF_eq_one m (toNNReal_sq_ne h)

theorem mass_normal {x m s : ℝ} (h : 0 < s) (r : ℝ)
    (hr : r = -((x - m) / s) ^ 2 / 2 - Real.log (2 * Real.pi) / 2 - Real.log s) :
    ENNReal.ofReal (Real.exp r) = normalDensity m s x := by
  unfold normalDensity gaussianPDF gaussianPDFReal
  congr 1
  rw [Real.coe_toNNReal _ (by positivity), hr, Real.sqrt_mul' _ (by positivity), Real.sqrt_sq h.le,
    sub_sub, Real.exp_sub, Real.exp_add, Real.exp_log h, div_eq_mul_inv, mul_comm]
  have e : Real.exp (Real.log (2 * Real.pi) / 2) = √(2 * Real.pi) := by
    rw [Real.exp_half, Real.exp_log (by positivity)]
  rw [e]
  congr 2
  field_simp

end Cgpm.Examples
