import Verif.Model.Samplers
import Mathlib.MeasureTheory.Measure.Lebesgue.Basic
import Mathlib.MeasureTheory.Integral.Lebesgue.Add
import Mathlib.MeasureTheory.Measure.Prod

/-! The density of the next point of the slice sampler: the shrinking interval. -/
namespace Cgpm.Sampler
open Cgpm MeasureTheory
open scoped ENNReal

variable (p : ℝ → ℝ≥0∞) (K : Set ℝ)

/-- The point is above the level `τ`. -/
def Over (τ y : ℝ) : Prop := ENNReal.ofReal τ < p y

/-- The log density returns at the point, which is not above the level. -/
def Under (τ y : ℝ) : Prop := y ∈ K ∧ p y ≤ ENNReal.ofReal τ

open Classical in
/-- Density of the point to which the shrinking interval leads from `x`, within `n + 1` trials. -/
noncomputable def shrinkDens : ℕ → ℝ → ℝ → ℝ → ℝ → ℝ → ℝ≥0∞
  | 0, τ, a, b, _, x' => (ENNReal.ofReal (b - a))⁻¹ * if x' ∈ Set.Ico a b ∧ Over p τ x' then 1 else 0
  | n + 1, τ, a, b, x, x' => (ENNReal.ofReal (b - a))⁻¹ *
      ((if x' ∈ Set.Ico a b ∧ Over p τ x' then 1 else 0) +
        ∫⁻ y in Set.Ico a b, if Under p K τ y then
          (if x < y then shrinkDens n τ a y x x' else shrinkDens n τ y b x x') else 0)

variable {p K}

theorem shrinkDens_mono (n : ℕ) (τ a b x x' : ℝ) :
    shrinkDens p K n τ a b x x' ≤ shrinkDens p K (n + 1) τ a b x x' := by
  induction n generalizing a b with
  | zero =>
    unfold shrinkDens
    gcongr
    exact le_self_add
  | succ n ih =>
    unfold shrinkDens
    gcongr with y
    split
    · split
      · exact ih _ _
      · exact ih _ _
    · exact le_refl _

theorem shrinkDens_support {n : ℕ} {τ a b x x' : ℝ} (h : ¬ (x' ∈ Set.Ico a b ∧ Over p τ x')) :
    shrinkDens p K n τ a b x x' = 0 := by
  induction n generalizing a b with
  | zero =>
    unfold shrinkDens
    rw [if_neg h, mul_zero]
  | succ n ih =>
    unfold shrinkDens
    rw [if_neg h, zero_add]
    refine mul_eq_zero_of_right _ ?_
    rw [setLIntegral_congr_fun (g := fun _ => 0) measurableSet_Ico fun y hy => ?_, lintegral_zero]
    simp only
    split
    · split
      · exact ih fun h' => h ⟨⟨h'.1.1, h'.1.2.trans hy.2⟩, h'.2⟩
      · exact ih fun h' => h ⟨⟨hy.1.trans h'.1.1, h'.1.2⟩, h'.2⟩
    · rfl

theorem shrinkDens_symm {n : ℕ} {τ a b x x' : ℝ} (hx : x ∈ Set.Ico a b) (hx' : x' ∈ Set.Ico a b)
    (ho : Over p τ x) (ho' : Over p τ x') :
    shrinkDens p K n τ a b x x' = shrinkDens p K n τ a b x' x := by
  induction n generalizing a b with
  | zero =>
    unfold shrinkDens
    rw [if_pos ⟨hx', ho'⟩, if_pos ⟨hx, ho⟩]
  | succ n ih =>
    unfold shrinkDens
    rw [if_pos ⟨hx', ho'⟩, if_pos ⟨hx, ho⟩]
    congr 2
    refine setLIntegral_congr_fun measurableSet_Ico fun y hy => ?_
    by_cases hu : Under p K τ y
    · rw [if_pos hu, if_pos hu]
      have hne : ∀ z, Over p τ z → z ≠ y := by
        rintro z hz rfl
        exact absurd hu.2 (not_le.mpr hz)
      rcases lt_or_gt_of_ne (hne x ho) with h1 | h1
      · rcases lt_or_gt_of_ne (hne x' ho') with h2 | h2
        · rw [if_pos h1, if_pos h2]
          exact ih ⟨hx.1, h1⟩ ⟨hx'.1, h2⟩
        · rw [if_pos h1, if_neg (not_lt.mpr h2.le), shrinkDens_support, shrinkDens_support]
          · exact fun h => absurd h.1.1 (not_le.mpr h1)
          · exact fun h => absurd h.1.2 (not_lt.mpr h2.le)
      · rcases lt_or_gt_of_ne (hne x' ho') with h2 | h2
        · rw [if_neg (not_lt.mpr h1.le), if_pos h2, shrinkDens_support, shrinkDens_support]
          · exact fun h => absurd h.1.2 (not_lt.mpr h1.le)
          · exact fun h => absurd h.1.1 (not_le.mpr h2)
        · rw [if_neg (not_lt.mpr h1.le), if_neg (not_lt.mpr h2.le)]
          exact ih ⟨h1.le, hx.2⟩ ⟨h2.le, hx'.2⟩
    · rw [if_neg hu, if_neg hu]

theorem measurable_over (hp : Measurable p) {Y : Type} [MeasurableSpace Y] {t y : Y → ℝ}
    (ht : Measurable t) (hy : Measurable y) : MeasurableSet {q | Over p (t q) (y q)} :=
  measurableSet_lt ht.ennreal_ofReal (hp.comp hy)

theorem measurable_under (hp : Measurable p) (hK : MeasurableSet K) {Y : Type} [MeasurableSpace Y]
    {t y : Y → ℝ} (ht : Measurable t) (hy : Measurable y) : MeasurableSet {q | Under p K (t q) (y q)} :=
  (hy hK).inter (measurableSet_le (hp.comp hy) ht.ennreal_ofReal)

open Classical in
theorem measurable_shrinkDens (hp : Measurable p) (hK : MeasurableSet K) (n : ℕ) :
    Measurable fun q : ℝ × ℝ × ℝ × ℝ × ℝ => shrinkDens p K n q.1 q.2.1 q.2.2.1 q.2.2.2.1 q.2.2.2.2 := by
  have h1 : Measurable fun q : ℝ × ℝ × ℝ × ℝ × ℝ => q.1 := measurable_fst
  have h2 : Measurable fun q : ℝ × ℝ × ℝ × ℝ × ℝ => q.2.1 := measurable_fst.comp measurable_snd
  have h3 : Measurable fun q : ℝ × ℝ × ℝ × ℝ × ℝ => q.2.2.1 :=
    measurable_fst.comp (measurable_snd.comp measurable_snd)
  have h4 : Measurable fun q : ℝ × ℝ × ℝ × ℝ × ℝ => q.2.2.2.1 :=
    measurable_fst.comp (measurable_snd.comp (measurable_snd.comp measurable_snd))
  have h5 : Measurable fun q : ℝ × ℝ × ℝ × ℝ × ℝ => q.2.2.2.2 :=
    measurable_snd.comp (measurable_snd.comp (measurable_snd.comp measurable_snd))
  have hfirst : Measurable fun q : ℝ × ℝ × ℝ × ℝ × ℝ =>
      (if q.2.2.2.2 ∈ Set.Ico q.2.1 q.2.2.1 ∧ Over p q.1 q.2.2.2.2 then 1 else 0 : ℝ≥0∞) := by
    refine Measurable.ite ?_ measurable_const measurable_const
    exact ((measurableSet_le h2 h5).inter (measurableSet_lt h5 h3)).inter (measurable_over hp h1 h5)
  have hinv : Measurable fun q : ℝ × ℝ × ℝ × ℝ × ℝ => (ENNReal.ofReal (q.2.2.1 - q.2.1))⁻¹ :=
    (h3.sub h2).ennreal_ofReal.inv
  induction n with
  | zero =>
    unfold shrinkDens
    exact hinv.mul hfirst
  | succ n ih =>
    unfold shrinkDens
    refine hinv.mul (hfirst.add ?_)
    have key : ∀ q : ℝ × ℝ × ℝ × ℝ × ℝ, (∫⁻ y in Set.Ico q.2.1 q.2.2.1, if Under p K q.1 y then
        (if q.2.2.2.1 < y then shrinkDens p K n q.1 q.2.1 y q.2.2.2.1 q.2.2.2.2
          else shrinkDens p K n q.1 y q.2.2.1 q.2.2.2.1 q.2.2.2.2) else 0)
        = ∫⁻ y, if y ∈ Set.Ico q.2.1 q.2.2.1 ∧ Under p K q.1 y then
          (if q.2.2.2.1 < y then shrinkDens p K n q.1 q.2.1 y q.2.2.2.1 q.2.2.2.2
            else shrinkDens p K n q.1 y q.2.2.1 q.2.2.2.1 q.2.2.2.2) else 0 := by
      intro q
      rw [← lintegral_indicator measurableSet_Ico]
      refine lintegral_congr fun y => ?_
      unfold Set.indicator
      by_cases h : y ∈ Set.Ico q.2.1 q.2.2.1
      · simp only [h, true_and, if_true]
      · simp only [h, false_and, if_false]
    simp only [key]
    have hf : Measurable fun z : (ℝ × ℝ × ℝ × ℝ × ℝ) × ℝ => z.1 := measurable_fst
    have hs : Measurable fun z : (ℝ × ℝ × ℝ × ℝ × ℝ) × ℝ => z.2 := measurable_snd
    have : Measurable fun z : (ℝ × ℝ × ℝ × ℝ × ℝ) × ℝ =>
        if z.2 ∈ Set.Ico z.1.2.1 z.1.2.2.1 ∧ Under p K z.1.1 z.2 then
          (if z.1.2.2.2.1 < z.2 then shrinkDens p K n z.1.1 z.1.2.1 z.2 z.1.2.2.2.1 z.1.2.2.2.2
            else shrinkDens p K n z.1.1 z.2 z.1.2.2.1 z.1.2.2.2.1 z.1.2.2.2.2) else 0 := by
      refine Measurable.ite ?_ (Measurable.ite ?_ ?_ ?_) measurable_const
      · exact ((measurableSet_le (h2.comp hf) hs).inter (measurableSet_lt hs (h3.comp hf))).inter
          (measurable_under hp hK (h1.comp hf) hs)
      · exact measurableSet_lt (h4.comp hf) hs
      · exact ih.comp ((h1.comp hf).prodMk ((h2.comp hf).prodMk (hs.prodMk
          ((h4.comp hf).prodMk (h5.comp hf)))))
      · exact ih.comp ((h1.comp hf).prodMk (hs.prodMk ((h3.comp hf).prodMk
          ((h4.comp hf).prodMk (h5.comp hf)))))
    exact this.lintegral_prod_right'

end Cgpm.Sampler
