import Verif.Lemmas.MhJump
import Mathlib.Algebra.Order.Floor.Ring
import Mathlib.MeasureTheory.Integral.IntervalIntegral.Periodic
import Mathlib.Analysis.SpecialFunctions.Integrals.Basic
import Mathlib.MeasureTheory.Constructions.BorelSpace.Order
import Mathlib.MeasureTheory.Function.Floor

/-!
The proposals of `mh_sample` on the unit interval and on other intervals.
-/
namespace Cgpm.Sampler
open Cgpm Classical MeasureTheory ProbabilityTheory
open scoped ENNReal

theorem measurableSet_inside (D : Domain) : MeasurableSet {x : ℝ | D.inside x} := by
  unfold Domain.inside
  exact (measurableSet_lt measurable_const measurable_coe_real_ereal).inter
    (measurableSet_lt measurable_coe_real_ereal measurable_const)

theorem jumpTrials_E {D : Domain} {x j : ℝ} (hj : 0 < j) (h : ℝ → ℝ≥0∞) : ∀ n,
    (jumpTrials D x j n).E h
      = tries D j n x * ∫⁻ y in {y | D.inside y}, gaussianPDF x (Real.toNNReal (j ^ 2)) y * h y := by
  have hv : Real.toNNReal (j ^ 2) ≠ 0 := by rw [Ne, Real.toNNReal_eq_zero, not_le]; positivity
  have hprob : IsProbabilityMeasure (npNormal x j) := by unfold npNormal; infer_instance
  have hm := measurableSet_inside D
  have hin : ∫⁻ y in {y | D.inside y}, h y ∂npNormal x j
      = ∫⁻ y in {y | D.inside y}, gaussianPDF x (Real.toNNReal (j ^ 2)) y * h y := by
    unfold npNormal
    rw [← lintegral_indicator hm, lintegral_gaussianReal _ hv, ← lintegral_indicator hm]
    refine lintegral_congr fun y => ?_
    by_cases hy : y ∈ {y | D.inside y}
    · rw [Set.indicator_of_mem hy, Set.indicator_of_mem hy]
    · rw [Set.indicator_of_notMem hy, Set.indicator_of_notMem hy, mul_zero]
  intro n
  induction n with
  | zero => simp [jumpTrials, Draws.E, tries]
  | succ n ih =>
    simp only [jumpTrials, Draws.E]
    rw [← lintegral_add_compl _ hm]
    have e1 : ∫⁻ y in {y | D.inside y},
        (if D.inside y then (Draws.pure y : Draws ℝ) else jumpTrials D x j n).E h ∂npNormal x j
        = ∫⁻ y in {y | D.inside y}, h y ∂npNormal x j :=
      setLIntegral_congr_fun hm fun y hy => by
        have hy' : D.inside y := hy
        simp only [if_pos hy', Draws.E]
    have e2 : ∫⁻ y in {y | D.inside y}ᶜ,
        (if D.inside y then (Draws.pure y : Draws ℝ) else jumpTrials D x j n).E h ∂npNormal x j
        = (1 - hit D x j) * (jumpTrials D x j n).E h := by
      rw [setLIntegral_congr_fun hm.compl (g := fun _ => (jumpTrials D x j n).E h) fun y hy => by
        have hy' : ¬ D.inside y := hy
        simp only [if_neg hy'], setLIntegral_const, prob_compl_eq_one_sub hm, mul_comm]
      rfl
    rw [e1, e2, hin, ih]
    unfold tries
    rw [Finset.sum_range_succ', pow_zero, add_mul, one_mul, Finset.sum_congr rfl fun k _ => pow_succ _ k,
      ← Finset.sum_mul, add_comm]
    congr 1
    rw [← mul_assoc, mul_comm (1 - hit D x j)]

theorem hit_eq (D : Domain) {j : ℝ} (hj : 0 < j) (x : ℝ) :
    ∫⁻ y in {y | D.inside y}, gaussianPDF x (Real.toNNReal (j ^ 2)) y = hit D x j := by
  have hv : Real.toNNReal (j ^ 2) ≠ 0 := by rw [Ne, Real.toNNReal_eq_zero, not_le]; positivity
  unfold hit npNormal
  rw [gaussianReal_apply _ hv]

theorem hit_le_one (D : Domain) (x j : ℝ) : hit D x j ≤ 1 := by
  have hprob : IsProbabilityMeasure (npNormal x j) := by unfold npNormal; infer_instance
  exact prob_le_one

/-- A proposal is made unless every trial misses. -/
theorem tries_mul_hit (D : Domain) (x j : ℝ) (n : ℕ) :
    tries D j n x * hit D x j + (1 - hit D x j) ^ n = 1 := by
  induction n with
  | zero => simp [tries]
  | succ n ih =>
    have e : hit D x j + (1 - hit D x j) = 1 := add_tsub_cancel_of_le (hit_le_one D x j)
    have : tries D j (n + 1) x = tries D j n x + (1 - hit D x j) ^ n := by
      unfold tries; rw [Finset.sum_range_succ]
    rw [this, add_mul, pow_succ, add_assoc, ← mul_add, e, mul_one, ih]

theorem measurable_hit (D : Domain) {j : ℝ} (hj : 0 < j) : Measurable fun x => hit D x j := by
  simp only [← hit_eq D hj]
  exact (measurable_gaussianPDF₂ _).lintegral_prod_right'

theorem measurable_tries (D : Domain) {j : ℝ} (hj : 0 < j) (n : ℕ) : Measurable (tries D j n) := by
  unfold tries
  exact Finset.measurable_sum _ fun k _ => (measurable_const.sub (measurable_hit D hj)).pow_const k

theorem tries_ne_top (D : Domain) (j : ℝ) (n : ℕ) (x : ℝ) : tries D j n x ≠ ⊤ := by
  unfold tries
  refine ENNReal.sum_ne_top.mpr fun k _ => ENNReal.pow_ne_top (ne_top_of_le_ne_top ENNReal.one_ne_top
    tsub_le_self)

theorem tries_ne_zero (D : Domain) (j : ℝ) (n : ℕ) (x : ℝ) : tries D j (n + 1) x ≠ 0 := by
  unfold tries
  rw [Finset.sum_range_succ', pow_zero]
  simp

/-! ### The unit interval -/

/-- The fold of the unit interval. -/
noncomputable def unitFold (y : ℝ) : ℝ := if 1 < |y| then |y| - ⌊|y|⌋ else |y|

theorem measurable_unitFold : Measurable unitFold := by
  unfold unitFold
  have h : Measurable fun y : ℝ => |y| := continuous_abs.measurable
  exact Measurable.ite (measurableSet_lt measurable_const h) (measurable_fract.comp h) h

theorem unitFold_fract {y : ℝ} (h : |y| ≠ 1) : unitFold y = Int.fract |y| := by
  unfold unitFold
  split
  · rfl
  · rename_i h1
    have : |y| < 1 := lt_of_le_of_ne (not_lt.mp h1) h
    rw [Int.fract_eq_self.mpr ⟨abs_nonneg y, this⟩]

theorem unitFold_nonneg (y : ℝ) : 0 ≤ unitFold y := by
  unfold unitFold
  split
  · exact Int.fract_nonneg _
  · exact abs_nonneg _

theorem integral_fract (t : ℝ) : ∫ x in t..t + 1, Int.fract x = 1 / 2 := by
  have hp : Function.Periodic (Int.fract : ℝ → ℝ) 1 := fun x => Int.fract_add_one x
  rw [hp.intervalIntegral_add_eq t 0, zero_add]
  have : ∫ x in (0 : ℝ)..1, Int.fract x = ∫ x in (0 : ℝ)..1, x := by
    refine intervalIntegral.integral_congr_ae ?_
    have : ∀ᵐ x : ℝ, x ≠ 1 := by simp [ae_iff]
    filter_upwards [this] with x hx hm
    rw [Set.uIoc_of_le zero_le_one] at hm
    exact Int.fract_eq_self.mpr ⟨hm.1.le, lt_of_le_of_ne hm.2 hx⟩
  rw [this, integral_id]
  norm_num

/-- The mean of the fold of `x + z` for `x` uniform on the unit interval. -/
noncomputable def foldMean (z : ℝ) : ℝ := ∫ x in (0 : ℝ)..1, unitFold (x + z)

theorem foldMean_outside {z : ℝ} (h : z ∉ Set.Ioo (-1 : ℝ) 0) : foldMean z = 1 / 2 := by
  unfold foldMean
  have hae : ∀ᵐ x : ℝ, |x + z| ≠ 1 := by
    have hs : {x : ℝ | |x + z| = 1} ⊆ {1 - z, -1 - z} := by
      intro x hx
      rcases (abs_eq zero_le_one).mp hx with h | h
      · left; linarith
      · right; simp only [Set.mem_singleton_iff]; linarith
    rw [ae_iff]
    simp only [ne_eq, not_not]
    exact measure_mono_null hs ((Set.toFinite _).measure_zero _)
  have e : ∫ x in (0 : ℝ)..1, unitFold (x + z) = ∫ x in (0 : ℝ)..1, Int.fract |x + z| := by
    refine intervalIntegral.integral_congr_ae ?_
    filter_upwards [hae] with x hx _ using unitFold_fract hx
  rw [e]
  by_cases h0 : 0 ≤ z
  · have e2 : ∫ x in (0 : ℝ)..1, Int.fract |x + z| = ∫ x in (0 : ℝ)..1, Int.fract (x + z) := by
      refine intervalIntegral.integral_congr fun x hx => ?_
      rw [Set.uIcc_of_le zero_le_one] at hx
      rw [abs_of_nonneg (by linarith [hx.1])]
    rw [e2, intervalIntegral.integral_comp_add_right (fun x => Int.fract x) z, zero_add, add_comm,
      integral_fract]
  · have h1 : z ≤ -1 := by
      by_contra hc
      exact h ⟨not_le.mp hc, not_le.mp h0⟩
    have e2 : ∫ x in (0 : ℝ)..1, Int.fract |x + z| = ∫ x in (0 : ℝ)..1, Int.fract (-z - x) := by
      refine intervalIntegral.integral_congr fun x hx => ?_
      rw [Set.uIcc_of_le zero_le_one] at hx
      rw [abs_of_nonpos (by linarith [hx.2])]
      congr 1
      ring
    rw [e2, intervalIntegral.integral_comp_sub_left (fun x => Int.fract x) (-z), sub_zero]
    have := integral_fract (-z - 1)
    rwa [sub_add_cancel] at this

theorem foldMean_inside {z : ℝ} (h : z ∈ Set.Ioo (-1 : ℝ) 0) : foldMean z < 1 / 2 := by
  obtain ⟨h1, h2⟩ := h
  unfold foldMean
  have e : ∀ a b : ℝ, 0 ≤ a → b ≤ 1 → a ≤ b →
      ∫ x in a..b, unitFold (x + z) = ∫ x in a..b, |x + z| := by
    intro a b ha hb hab
    refine intervalIntegral.integral_congr fun x hx => ?_
    rw [Set.uIcc_of_le hab] at hx
    unfold unitFold
    have : ¬ 1 < |x + z| := by
      rw [not_lt, abs_le]
      constructor <;> linarith [hx.1, hx.2]
    rw [if_neg this]
  rw [e 0 1 le_rfl le_rfl zero_le_one]
  have hint : ∀ a b : ℝ, IntervalIntegrable (fun x => |x + z|) volume a b := fun a b =>
    (continuous_abs.comp (continuous_id.add continuous_const)).intervalIntegrable a b
  rw [← intervalIntegral.integral_add_adjacent_intervals (hint 0 (-z)) (hint (-z) 1)]
  have e1 : ∫ x in (0 : ℝ)..-z, |x + z| = z ^ 2 / 2 := by
    have : ∫ x in (0 : ℝ)..-z, |x + z| = ∫ x in (0 : ℝ)..-z, (-z - x) := by
      refine intervalIntegral.integral_congr fun x hx => ?_
      rw [Set.uIcc_of_le (by linarith)] at hx
      rw [abs_of_nonpos (by linarith [hx.2])]
      ring
    rw [this, intervalIntegral.integral_comp_sub_left (fun x => x) (-z), integral_id]
    ring
  have e2 : ∫ x in (-z)..1, |x + z| = (1 + z) ^ 2 / 2 := by
    have : ∫ x in (-z)..1, |x + z| = ∫ x in (-z)..1, (x + z) := by
      refine intervalIntegral.integral_congr fun x hx => ?_
      rw [Set.uIcc_of_le (by linarith)] at hx
      rw [abs_of_nonneg (by linarith [hx.1])]
    rw [this, intervalIntegral.integral_comp_add_right (fun x => x) z, integral_id]
    ring
  rw [e1, e2]
  nlinarith

theorem unitFold_le (y : ℝ) : unitFold y ≤ 1 := by
  unfold unitFold
  split
  · exact (Int.fract_lt_one _).le
  · rename_i h; exact not_lt.mp h

theorem foldMean_lintegral (z : ℝ) :
    ∫⁻ x in Set.Ioo (0 : ℝ) 1, ENNReal.ofReal (unitFold (x + z)) = ENNReal.ofReal (foldMean z) := by
  unfold foldMean
  rw [intervalIntegral.integral_of_le zero_le_one, ← ofReal_integral_eq_lintegral_ofReal]
  · congr 1
    exact setIntegral_congr_set Ioo_ae_eq_Ioc
  · refine Integrable.mono' (g := fun _ => (1 : ℝ)) (integrable_const _)
      (measurable_unitFold.comp (measurable_id.add_const z)).aestronglyMeasurable
      (Filter.Eventually.of_forall fun x => ?_)
    rw [Real.norm_eq_abs, abs_of_nonneg (unitFold_nonneg _)]
    exact unitFold_le _
  · exact Filter.Eventually.of_forall fun x => unitFold_nonneg _

/-- A uniform point has, after the fold of a normal jump, a mean below one half. -/
theorem fold_mean_lt {j : ℝ} (hj : 0 < j) :
    ∫⁻ x in Set.Ioo (0 : ℝ) 1, (∫⁻ y, ENNReal.ofReal (unitFold y) ∂npNormal x j) < 1 / 2 := by
  have hv : Real.toNNReal (j ^ 2) ≠ 0 := by rw [Ne, Real.toNNReal_eq_zero, not_le]; positivity
  have hprob : IsProbabilityMeasure (npNormal 0 j) := by unfold npNormal; infer_instance
  have hmF : Measurable fun y => ENNReal.ofReal (unitFold y) := measurable_unitFold.ennreal_ofReal
  have e : ∀ x, ∫⁻ y, ENNReal.ofReal (unitFold y) ∂npNormal x j
      = ∫⁻ z, ENNReal.ofReal (unitFold (x + z)) ∂npNormal 0 j := by
    intro x
    unfold npNormal
    rw [lintegral_gaussianReal _ hv, lintegral_gaussianReal _ hv,
      ← lintegral_add_left_eq_self (fun y => gaussianPDF x _ y * ENNReal.ofReal (unitFold y)) x]
    refine lintegral_congr fun z => ?_
    congr 1
    unfold gaussianPDF gaussianPDFReal
    congr 4
    ring
  have hsw := lintegral_lintegral_swap (μ := volume.restrict (Set.Ioo (0 : ℝ) 1)) (ν := npNormal 0 j)
    (f := fun x z => ENNReal.ofReal (unitFold (x + z)))
    (hmF.comp (measurable_fst.add measurable_snd)).aemeasurable
  rw [lintegral_congr e, hsw]
  simp only [foldMean_lintegral]
  have hle : ∀ z, ENNReal.ofReal (foldMean z) ≤ 1 / 2 := by
    intro z
    have : foldMean z ≤ 1 / 2 := by
      by_cases hz : z ∈ Set.Ioo (-1 : ℝ) 0
      · exact (foldMean_inside hz).le
      · exact (foldMean_outside hz).le
    calc _ ≤ ENNReal.ofReal (1 / 2) := ENNReal.ofReal_le_ofReal this
      _ = 1 / 2 := by rw [ENNReal.ofReal_div_of_pos two_pos]; simp
  have hone : ∫⁻ _, (1 / 2 : ℝ≥0∞) ∂npNormal 0 j = 1 / 2 := by simp
  refine lt_of_le_of_ne ((lintegral_mono hle).trans hone.le) fun hc => ?_
  have hae := ae_eq_of_ae_le_of_lintegral_le (Filter.Eventually.of_forall hle)
    (by rw [hc]; simp) measurable_const.aemeasurable (by rw [hc, hone])
  have hnull : npNormal 0 j (Set.Ioo (-1) 0) = 0 := by
    refine measure_mono_null (fun z hz => ?_) hae
    simp only [Set.mem_compl_iff, Set.mem_setOf_eq]
    intro hcon
    have : ENNReal.ofReal (foldMean z) < ENNReal.ofReal (1 / 2) :=
      (ENNReal.ofReal_lt_ofReal_iff (by norm_num)).mpr (foldMean_inside hz)
    rw [hcon, ENNReal.ofReal_div_of_pos two_pos] at this
    simp at this
  have := gaussianReal_absolutelyContinuous' 0 hv hnull
  simp at this

end Cgpm.Sampler
