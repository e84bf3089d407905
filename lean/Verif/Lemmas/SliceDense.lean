import Verif.Lemmas.SliceBalance
import Mathlib.MeasureTheory.Covering.OneDim

/-! Almost every point above a level has a neighbourhood most of which is above it. -/
namespace Cgpm.Sampler
open Cgpm MeasureTheory Filter Topology
open scoped ENNReal

variable {p : ℝ → ℝ≥0∞} {K : Set ℝ} {D : Domain} {w : ℝ}

/-- Short intervals that begin or end at the point lie to one half in the set. -/
def HalfAt (S : Set ℝ) (x : ℝ) : Prop :=
  ∃ ε : ℝ, 0 < ε ∧ ∀ t : ℝ, 0 < t → t < ε →
    ENNReal.ofReal (t / 2) ≤ volume (S ∩ Set.Icc x (x + t)) ∧
    ENNReal.ofReal (t / 2) ≤ volume (S ∩ Set.Icc (x - t) x)

theorem half_of_ratio {m : ℝ≥0∞} {t : ℝ} (ht : 0 < t) (h : 1 / 2 < m / ENNReal.ofReal t) :
    ENNReal.ofReal (t / 2) ≤ m := by
  have h1 : ENNReal.ofReal t ≠ 0 := by simpa using ht
  have := (ENNReal.lt_div_iff_mul_lt (.inl h1) (.inl ENNReal.ofReal_ne_top)).mp h
  refine le_trans (le_of_eq ?_) this.le
  rw [ENNReal.ofReal_div_of_pos (by norm_num), ENNReal.div_eq_inv_mul, one_div]
  norm_num

theorem ae_halfAt {S : Set ℝ} (hS : MeasurableSet S) : ∀ᵐ x, x ∈ S → HalfAt S x := by
  filter_upwards [(IsUnifLocDoublingMeasure.vitaliFamily (volume : Measure ℝ) 1).ae_tendsto_measure_inter_div_of_measurableSet
    hS] with x hx hxS
  rw [Set.indicator_of_mem hxS, Pi.one_apply] at hx
  have hr := hx.comp (Real.tendsto_Icc_vitaliFamily_right x)
  have hl := hx.comp (Real.tendsto_Icc_vitaliFamily_left x)
  have half : (1 : ℝ≥0∞) / 2 < 1 := by
    rw [one_div]; exact ENNReal.inv_lt_one.mpr (by norm_num)
  have er := hr.eventually (lt_mem_nhds half)
  have el := hl.eventually (lt_mem_nhds half)
  obtain ⟨e1, he1, h1⟩ := mem_nhdsGT_iff_exists_Ioo_subset.mp er
  obtain ⟨e2, he2, h2⟩ := mem_nhdsLT_iff_exists_Ioo_subset.mp el
  have he1' : x < e1 := he1
  have he2' : e2 < x := he2
  refine ⟨min (e1 - x) (x - e2), lt_min (by linarith) (by linarith), fun t ht hte => ⟨?_, ?_⟩⟩
  · have := h1 (show x + t ∈ Set.Ioo x e1 from ⟨by linarith, by linarith [hte.trans_le (min_le_left _ _)]⟩)
    have this : (1 : ℝ≥0∞) / 2 < volume (S ∩ Set.Icc x (x + t)) / volume (Set.Icc x (x + t)) := this
    rw [Real.volume_Icc, add_sub_cancel_left] at this
    exact half_of_ratio ht this
  · have := h2 (show x - t ∈ Set.Ioo e2 x from ⟨by linarith [hte.trans_le (min_le_right _ _)], by linarith⟩)
    have this : (1 : ℝ≥0∞) / 2 < volume (S ∩ Set.Icc (x - t) x) / volume (Set.Icc (x - t) x) := this
    rw [Real.volume_Icc, sub_sub_cancel] at this
    exact half_of_ratio ht this

theorem HalfAt.mono {S T : Set ℝ} (h : S ⊆ T) {x : ℝ} (hx : HalfAt S x) : HalfAt T x := by
  obtain ⟨ε, h0, hε⟩ := hx
  exact ⟨ε, h0, fun t ht hte => ⟨(hε t ht hte).1.trans (measure_mono (Set.inter_subset_inter_left _ h)),
    (hε t ht hte).2.trans (measure_mono (Set.inter_subset_inter_left _ h))⟩⟩

/-- Almost every point is of that kind for every level below it. -/
theorem ae_over_half (hp : Measurable p) :
    ∀ᵐ x, ∀ τ, Over p τ x → HalfAt {y | Over p τ y} x := by
  have h : ∀ᵐ x, ∀ q : ℚ, x ∈ {y | Over p q y} → HalfAt {y | Over p q y} x :=
    ae_all_iff.mpr fun q => ae_halfAt (measurable_over hp measurable_const measurable_id)
  filter_upwards [h] with x hx τ ho
  obtain ⟨q, -, h1, h2⟩ := ENNReal.lt_iff_exists_rat_btwn.mp ho
  refine (hx q h2).mono fun y hy => ?_
  exact h1.trans hy

/-- Every interval around the point, within a larger one, lies to at least a fixed part in the set. -/
theorem half_ratio {S : Set ℝ} {x : ℝ} (hx : HalfAt S x) {a b : ℝ} (ha : a < x) (hb : x < b) :
    ∃ c : ℝ, 0 < c ∧ c ≤ 1 ∧ ∀ a' b', a ≤ a' → a' < x → x < b' → b' ≤ b →
      ENNReal.ofReal (c * (b' - a')) ≤ volume (S ∩ Set.Ico a' b') := by
  obtain ⟨ε, h0, hε⟩ := hx
  have hab : 0 < b - a := by linarith
  refine ⟨min 1 (ε / (b - a)) / 8, by positivity, ?_, fun a' b' h1 h2 h3 h4 => ?_⟩
  · have := min_le_left 1 (ε / (b - a)); linarith
  set t := min ((b' - a') / 4) (ε / 2) with ht
  have ht0 : 0 < t := lt_min (by linarith) (by linarith)
  have hte : t < ε := (min_le_right _ _).trans_lt (by linarith)
  have hc : min 1 (ε / (b - a)) / 8 * (b' - a') ≤ t / 2 := by
    have e1 : min 1 (ε / (b - a)) * (b' - a') ≤ b' - a' := by
      have := mul_le_mul_of_nonneg_right (min_le_left 1 (ε / (b - a))) (by linarith : 0 ≤ b' - a')
      linarith
    have e2 : min 1 (ε / (b - a)) * (b' - a') ≤ ε := by
      calc min 1 (ε / (b - a)) * (b' - a') ≤ ε / (b - a) * (b - a) := by
            refine mul_le_mul (min_le_right _ _) (by linarith) (by linarith) (by positivity)
        _ = ε := div_mul_cancel₀ _ hab.ne'
    have : min 1 (ε / (b - a)) * (b' - a') / 8 ≤ t / 2 := by
      have : min 1 (ε / (b - a)) * (b' - a') / 4 ≤ t := le_min (by linarith) (by linarith)
      linarith
    linarith
  refine (ENNReal.ofReal_le_ofReal hc).trans ?_
  have ht4 : t ≤ (b' - a') / 4 := min_le_left _ _
  by_cases hm : x + t < b'
  · refine (hε t ht0 hte).1.trans (measure_mono (Set.inter_subset_inter_right _ ?_))
    exact fun y hy => ⟨by linarith [hy.1], by linarith [hy.2]⟩
  · refine (hε t ht0 hte).2.trans (measure_mono (Set.inter_subset_inter_right _ ?_))
    exact fun y hy => ⟨by linarith [hy.1], by linarith [hy.2]⟩

end Cgpm.Sampler
