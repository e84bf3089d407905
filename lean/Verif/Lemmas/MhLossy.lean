import Verif.Lemmas.MhTargets

/-!
An iteration on an interval, of constant target: the uniform density is not invariant.
-/
namespace Cgpm.Sampler
open Cgpm Classical MeasureTheory ProbabilityTheory
open scoped ENNReal

/-- A proposal of density `c x * k x y`, with `k` symmetric and `c` larger where less of the proposal
is made: no multiple of the uniform density results from it. -/
theorem lossy {μ : Measure ℝ} [IsFiniteMeasure μ] {k : ℝ → ℝ → ℝ≥0∞}
    (hk : Measurable fun z : ℝ × ℝ => k z.1 z.2) (hsym : ∀ x y, k x y = k y x)
    {c : ℝ → ℝ≥0∞} (hc : Measurable c) {B : Set ℝ} (hB : MeasurableSet B) (h1 : μ B ≠ 0)
    (h2 : μ Bᶜ ≠ 0) {a q0 : ℝ≥0∞} (hq0 : q0 ≠ ⊤) (ha : ∀ x ∈ B, a ≤ c x) (ha' : ∀ x ∈ Bᶜ, c x ≤ a)
    (hat : a ≠ ⊤) (hkt : ∀ x, ∫⁻ y, k x y ∂μ ≤ 1)
    (hq : ∀ x ∈ B, c x * ∫⁻ y, k x y ∂μ < q0) (hq' : ∀ x ∈ Bᶜ, q0 ≤ c x * ∫⁻ y, k x y ∂μ)
    (K : ℝ≥0∞) (hK : ∀ g : ℝ → ℝ≥0∞, Measurable g →
      ∫⁻ x, c x * (∫⁻ y, k x y * g y ∂μ) ∂μ = K * ∫⁻ x, g x ∂μ) : False := by
  have hkx : ∀ x, Measurable (k x) := fun x => hk.comp (measurable_const.prodMk measurable_id)
  set kB : ℝ → ℝ≥0∞ := fun x => ∫⁻ y in B, k x y ∂μ with hkB
  set kC : ℝ → ℝ≥0∞ := fun x => ∫⁻ y in Bᶜ, k x y ∂μ with hkC
  have mB : Measurable kB := hk.lintegral_prod_right'
  have mC : Measurable kC := hk.lintegral_prod_right'
  have hsum : ∀ x, kB x + kC x = ∫⁻ y, k x y ∂μ := fun x => lintegral_add_compl _ hB
  have hind : ∀ (U : Set ℝ), MeasurableSet U → ∀ x,
      ∫⁻ y, k x y * U.indicator (fun _ => 1) y ∂μ = ∫⁻ y in U, k x y ∂μ := by
    intro U hU x
    rw [← lintegral_indicator hU]
    refine lintegral_congr fun y => ?_
    by_cases hy : y ∈ U
    · rw [Set.indicator_of_mem hy, Set.indicator_of_mem hy, mul_one]
    · rw [Set.indicator_of_notMem hy, Set.indicator_of_notMem hy, mul_zero]
  have hmass : ∀ (U : Set ℝ), MeasurableSet U → ∫⁻ x, U.indicator (fun _ => (1 : ℝ≥0∞)) x ∂μ = μ U := by
    intro U hU
    rw [lintegral_indicator hU]
    simp
  have e1 : (∫⁻ x in B, c x * kB x ∂μ) + ∫⁻ x in Bᶜ, c x * kB x ∂μ = K * μ B := by
    have h := hK (B.indicator fun _ => 1) (measurable_const.indicator hB)
    rw [hmass B hB] at h
    simp only [hind B hB] at h
    rw [← h]
    exact lintegral_add_compl _ hB
  have e2 : (∫⁻ x in B, c x * kC x ∂μ) + ∫⁻ x in Bᶜ, c x * kC x ∂μ = K * μ Bᶜ := by
    have h := hK (Bᶜ.indicator fun _ => 1) (measurable_const.indicator hB.compl)
    rw [hmass _ hB.compl] at h
    simp only [hind _ hB.compl] at h
    rw [← h]
    exact lintegral_add_compl _ hB
  set F := ∫⁻ x in B, kC x ∂μ with hF
  have hF' : ∫⁻ x in Bᶜ, kB x ∂μ = F := by
    simp only [hF, hkB, hkC]
    rw [lintegral_lintegral_swap hk.aemeasurable]
    exact lintegral_congr fun x => lintegral_congr fun y => hsym y x
  have hFt : F ≠ ⊤ := by
    refine ne_top_of_le_ne_top (measure_ne_top μ B) ?_
    calc F ≤ ∫⁻ _ in B, 1 ∂μ := lintegral_mono fun x =>
          (le_add_self.trans (hsum x).le).trans (hkt x)
      _ = μ B := by simp
  have f1 : a * F ≤ ∫⁻ x in B, c x * kC x ∂μ := by
    rw [hF, ← lintegral_const_mul _ mC]
    exact setLIntegral_mono (hc.mul mC) fun x hx => by gcongr; exact ha x hx
  have f2 : ∫⁻ x in Bᶜ, c x * kB x ∂μ ≤ a * F := by
    rw [← hF', ← lintegral_const_mul _ mB]
    exact setLIntegral_mono (mB.const_mul a) fun x hx => by gcongr; exact ha' x hx
  have haF : a * F ≠ ⊤ := ENNReal.mul_ne_top hat hFt
  -- on B
  have g1 : K * μ B ≤ ∫⁻ x in B, c x * (kB x + kC x) ∂μ := by
    rw [← e1, show ∫⁻ x in B, c x * (kB x + kC x) ∂μ
      = (∫⁻ x in B, c x * kB x ∂μ) + ∫⁻ x in B, c x * kC x ∂μ by
        simp only [mul_add]; exact lintegral_add_left (hc.mul mB) _]
    exact add_le_add_right (f2.trans f1) _
  have g2 : ∫⁻ x in B, c x * (kB x + kC x) ∂μ < q0 * μ B := by
    have hle : ∫⁻ x in B, c x * (kB x + kC x) ∂μ ≤ ∫⁻ _ in B, q0 ∂μ :=
      setLIntegral_mono measurable_const fun x hx => by rw [hsum x]; exact (hq x hx).le
    have hconst : ∫⁻ _ in B, q0 ∂μ = q0 * μ B := by simp
    rw [hconst] at hle
    refine lt_of_le_of_ne hle fun heq => ?_
    have hae := ae_eq_of_ae_le_of_lintegral_le (μ := μ.restrict B)
      (f := fun x => c x * (kB x + kC x)) (g := fun _ => q0)
      (by
        filter_upwards [ae_restrict_mem hB] with x hx
        rw [hsum x]; exact (hq x hx).le)
      (by rw [heq]; exact ENNReal.mul_ne_top hq0 (measure_ne_top _ _))
      measurable_const.aemeasurable (by rw [heq, hconst])
    have hfalse : ∀ᵐ x ∂μ.restrict B, False := by
      filter_upwards [hae, ae_restrict_mem hB] with x hx hxB
      rw [hsum x] at hx
      exact absurd hx (hq x hxB).ne
    have h8 : μ.restrict B = 0 := by simpa [ae_iff] using hfalse
    exact h1 (by simpa using congrArg (fun m => m Set.univ) h8)
  have hlt : K < q0 := by
    have := lt_of_le_of_lt g1 g2
    by_contra hcon
    exact absurd this (not_lt.mpr (by gcongr; exact not_lt.mp hcon))
  -- off B
  have g3 : q0 * μ Bᶜ ≤ ∫⁻ x in Bᶜ, c x * (kB x + kC x) ∂μ := by
    have hconst : ∫⁻ _ in Bᶜ, q0 ∂μ = q0 * μ Bᶜ := by simp
    rw [← hconst]
    exact setLIntegral_mono (hc.mul (mB.add mC)) fun x hx => by rw [hsum x]; exact hq' x hx
  have g4 : ∫⁻ x in Bᶜ, c x * (kB x + kC x) ∂μ ≤ K * μ Bᶜ := by
    rw [← e2, show ∫⁻ x in Bᶜ, c x * (kB x + kC x) ∂μ
      = (∫⁻ x in Bᶜ, c x * kB x ∂μ) + ∫⁻ x in Bᶜ, c x * kC x ∂μ by
        simp only [mul_add]; exact lintegral_add_left (hc.mul mB) _]
    exact add_le_add_left (f2.trans f1) _
  have hlt2 : q0 * μ Bᶜ ≤ K * μ Bᶜ := g3.trans g4
  have : K * μ Bᶜ < q0 * μ Bᶜ := by
    rw [mul_comm, mul_comm q0]
    exact ENNReal.mul_lt_mul_right h2 (measure_ne_top _ _) hlt
  exact absurd hlt2 (not_le.mpr this)

/-- Closer to the middle of the interval more of the proposal is inside. -/
theorem hit_strict {l h j x y : ℝ} (hj : 0 < j) (hx : l < x) (hxy : x < y) (hy : y ≤ (l + h) / 2) :
    hit ⟨(l : EReal), (h : EReal)⟩ x j < hit ⟨(l : EReal), (h : EReal)⟩ y j := by
  have hv : Real.toNNReal (j ^ 2) ≠ 0 := by rw [Ne, Real.toNNReal_eq_zero, not_le]; positivity
  have hset : {z : ℝ | (⟨(l : EReal), (h : EReal)⟩ : Domain).inside z} = Set.Ioo l h := by
    ext z
    simp [Domain.inside]
  have hlh : l ≤ h := by linarith
  set v := Real.toNNReal (j ^ 2) with hvd
  have hcont : Continuous (gaussianPDFReal 0 v) := by
    unfold gaussianPDFReal
    fun_prop
  have hZ : ∀ w, hit ⟨(l : EReal), (h : EReal)⟩ w j
      = ENNReal.ofReal (∫ u in (l - w)..(h - w), gaussianPDFReal 0 v u) := by
    intro w
    unfold hit npNormal
    rw [hset, gaussianReal_apply_eq_integral _ hv]
    congr 1
    rw [integral_Ioc_eq_integral_Ioo.symm, ← intervalIntegral.integral_of_le hlh,
      ← intervalIntegral.integral_comp_sub_right (fun u => gaussianPDFReal 0 v u) w]
    refine intervalIntegral.integral_congr fun u _ => ?_
    unfold gaussianPDFReal
    simp
  rw [hZ, hZ]
  have hii : ∀ a b : ℝ, IntervalIntegrable (gaussianPDFReal 0 v) volume a b := fun a b =>
    hcont.intervalIntegrable a b
  have hsplit : (∫ u in (l - y)..(h - y), gaussianPDFReal 0 v u)
      - ∫ u in (l - x)..(h - x), gaussianPDFReal 0 v u
      = ∫ u in (l - y)..(l - x), (gaussianPDFReal 0 v u - gaussianPDFReal 0 v (u + (h - l))) := by
    have hc2 : Continuous fun u => gaussianPDFReal 0 v (u + (h - l)) := by fun_prop
    rw [intervalIntegral.integral_sub (hii _ _) (hc2.intervalIntegrable _ _),
      intervalIntegral.integral_comp_add_right (fun u => gaussianPDFReal 0 v u) (h - l),
      show l - y + (h - l) = h - y by ring, show l - x + (h - l) = h - x by ring]
    have a1 := intervalIntegral.integral_add_adjacent_intervals (hii (l - y) (l - x)) (hii (l - x) (h - x))
    have a2 := intervalIntegral.integral_add_adjacent_intervals (hii (l - y) (h - y)) (hii (h - y) (h - x))
    linarith
  have hpos : 0 < ∫ u in (l - y)..(l - x), (gaussianPDFReal 0 v u - gaussianPDFReal 0 v (u + (h - l))) := by
    refine intervalIntegral.intervalIntegral_pos_of_pos_on ?_ (fun u hu => ?_) (by linarith)
    · exact (hcont.sub (hcont.comp (continuous_id.add continuous_const))).intervalIntegrable _ _
    · have hsq : (u - 0) ^ 2 < (u + (h - l) - 0) ^ 2 := by
        nlinarith [hu.1, hu.2]
      have hv0 : (0 : ℝ) < v := by
        rw [hvd, Real.coe_toNNReal _ (by positivity)]; positivity
      have hexp : Real.exp (-(u + (h - l) - 0) ^ 2 / (2 * v)) < Real.exp (-(u - 0) ^ 2 / (2 * v)) := by
        rw [Real.exp_lt_exp]
        exact div_lt_div_of_pos_right (by linarith) (by positivity)
      unfold gaussianPDFReal
      rw [← mul_sub]
      exact mul_pos (by positivity) (sub_pos.mpr hexp)
  have hnn : 0 ≤ ∫ u in (l - x)..(h - x), gaussianPDFReal 0 v u :=
    intervalIntegral.integral_nonneg (by linarith) fun u _ => gaussianPDFReal_nonneg 0 v u
  refine (ENNReal.ofReal_lt_ofReal_iff (by linarith)).mpr (by linarith)

end Cgpm.Sampler
