import Verif.Lemmas.MhRun
import Mathlib.Analysis.SpecialFunctions.Gamma.Deriv
import Mathlib.MeasureTheory.Function.SpecialFunctions.Basic

/-!
The log densities that the parameter transitions give to `mh_sample`.
-/
namespace Cgpm.Sampler
open Cgpm Classical MeasureTheory ProbabilityTheory
open scoped ENNReal

theorem inside_half (x : ℝ) : (⟨0, ⊤⟩ : Domain).inside x ↔ 0 < x := by
  unfold Domain.inside
  simp [EReal.coe_pos, EReal.coe_lt_top]

theorem inside_unit (x : ℝ) : (⟨0, 1⟩ : Domain).inside x ↔ x ∈ Set.Ioo (0 : ℝ) 1 := by
  unfold Domain.inside
  rw [Set.mem_Ioo, ← EReal.coe_zero, ← EReal.coe_one, EReal.coe_lt_coe_iff, EReal.coe_lt_coe_iff]

theorem half_set : {x | (⟨0, ⊤⟩ : Domain).inside x} = Set.Ioi (0 : ℝ) := by
  ext x; exact inside_half x

theorem unit_set : {x | (⟨0, 1⟩ : Domain).inside x} = Set.Ioo (0 : ℝ) 1 := by
  ext x; exact inside_unit x

theorem continuousAt_gammaln {s : ℝ} (h : 0 < s) : ContinuousAt gammaln s := by
  unfold gammaln
  refine ContinuousAt.log ?_ (Real.Gamma_pos_of_pos h).ne'
  refine (Real.differentiableAt_Gamma fun m => ?_).continuousAt
  have : (0 : ℝ) ≤ m := m.cast_nonneg
  linarith

theorem betaScore_continuousOn (S : BetaS) {b : ℝ} (h0 : 0 < b) (h1 : b < 1) :
    ContinuousOn (fun s => (beta (betaLogPrior 5 1 1)).score ⟨s, b⟩ S) (Set.Ioi 0) := by
  intro s hs
  have hs : 0 < s := hs
  refine ContinuousAt.continuousWithinAt ?_
  have g1 : ContinuousAt (fun s => gammaln (s * b)) s :=
    (continuousAt_gammaln (mul_pos hs h0)).comp (f := fun s : ℝ => s * b)
      (by fun_prop)
  have g2 : ContinuousAt (fun s => gammaln (s * (1 - b))) s :=
    (continuousAt_gammaln (mul_pos hs (sub_pos.mpr h1))).comp (f := fun s : ℝ => s * (1 - b))
      (by fun_prop)
  have g3 : ContinuousAt (fun s => gammaln (s * b + s * (1 - b))) s :=
    (continuousAt_gammaln (add_pos (mul_pos hs h0) (mul_pos hs (sub_pos.mpr h1)))).comp
      (f := fun s : ℝ => s * b + s * (1 - b)) (by fun_prop)
  simp only [beta, betaLoglik, betaLogPrior, betaln]
  fun_prop

theorem measurable_betaScore (S : BetaS) {b : ℝ} (h0 : 0 < b) (h1 : b < 1) :
    Measurable ((Set.Ioi (0 : ℝ)).piecewise
      (fun s => (beta (betaLogPrior 5 1 1)).score ⟨s, b⟩ S) fun _ => 0) :=
  (betaScore_continuousOn S h0 h1).measurable_piecewise continuousOn_const measurableSet_Ioi

/-! ### The normalising constant of the truncated normal -/

/-- The standard normal distribution function. -/
noncomputable def stdCdf (t : ℝ) : ℝ := (gaussianReal 0 1 (Set.Iic t)).toReal

theorem stdCdf_mono : Monotone stdCdf := fun _ _ h =>
  ENNReal.toReal_mono (measure_ne_top _ _) (measure_mono (Set.Iic_subset_Iic.mpr h))

theorem stdCdf_strict : StrictMono stdCdf := by
  intro a b h
  unfold stdCdf
  rw [ENNReal.toReal_lt_toReal (measure_ne_top _ _) (measure_ne_top _ _),
    ← Set.Iic_union_Ioc_eq_Iic h.le, measure_union (Set.Iic_disjoint_Ioc le_rfl) measurableSet_Ioc]
  refine ENNReal.lt_add_right (measure_ne_top _ _) fun hz => ?_
  have := gaussianReal_absolutelyContinuous' 0 one_ne_zero hz
  rw [Real.volume_Ioc, ENNReal.ofReal_eq_zero] at this
  linarith

theorem npNormal_Iic {mu s : ℝ} (hs : 0 < s) (t : ℝ) :
    (npNormal mu s (Set.Iic t)).toReal = stdCdf ((t - mu) / s) := by
  unfold stdCdf npNormal
  have hv : Real.toNNReal (s ^ 2) = NNReal.mk (s ^ 2) (sq_nonneg s) := by
    ext
    rw [Real.coe_toNNReal _ (sq_nonneg s)]
    rfl
  have h1 := gaussianReal_map_const_mul (μ := 0) (v := 1) s
  have h2 := gaussianReal_map_const_add (μ := s * 0) (v := (NNReal.mk (s ^ 2) (sq_nonneg s)) * 1) mu
  rw [← h1, Measure.map_map (by fun_prop) (by fun_prop)] at h2
  rw [hv, show gaussianReal mu (NNReal.mk (s ^ 2) (sq_nonneg s)) = Measure.map ((mu + ·) ∘ (s * ·)) (gaussianReal 0 1)
    by rw [h2]; simp, Measure.map_apply (by fun_prop) measurableSet_Iic]
  congr 2
  ext x
  simp only [Set.mem_preimage, Function.comp_apply, Set.mem_Iic]
  rw [le_div_iff₀ hs]
  constructor <;> intro h <;> linarith

theorem logZ_eq {l h mu s : ℝ} (hs : 0 < s) :
    normalTruncLogZ l h mu s = Real.log (stdCdf ((h - mu) / s) - stdCdf ((l - mu) / s)) := by
  unfold normalTruncLogZ
  rw [npNormal_Iic hs, npNormal_Iic hs]

theorem logZ_anti {l h mu s t : ℝ} (hs : 0 < s) (hst : s ≤ t) (h1 : l < mu) (h2 : mu < h) :
    normalTruncLogZ l h mu t ≤ normalTruncLogZ l h mu s := by
  have ht : 0 < t := hs.trans_le hst
  rw [logZ_eq hs, logZ_eq ht]
  refine Real.log_le_log ?_ ?_
  · exact sub_pos.mpr (stdCdf_strict (div_lt_div_of_pos_right (by linarith) ht))
  · have e1 : stdCdf ((h - mu) / t) ≤ stdCdf ((h - mu) / s) :=
      stdCdf_mono (div_le_div_of_nonneg_left (by linarith) hs hst)
    have e2 : stdCdf ((l - mu) / s) ≤ stdCdf ((l - mu) / t) := by
      refine stdCdf_mono ?_
      have := div_le_div_of_nonneg_left (show (0 : ℝ) ≤ mu - l by linarith) hs hst
      rw [show l - mu = -(mu - l) by ring, neg_div, neg_div]
      linarith
    linarith

theorem measurable_logZ (l h mu : ℝ) :
    Measurable ((Set.Ioi (0 : ℝ)).piecewise (fun s => normalTruncLogZ l h mu s) fun _ => 0) := by
  have e : (Set.Ioi (0 : ℝ)).piecewise (fun s => normalTruncLogZ l h mu s) (fun _ => 0)
      = (Set.Ioi (0 : ℝ)).piecewise
          (fun s => Real.log (stdCdf ((h - mu) / s) - stdCdf ((l - mu) / s))) fun _ => 0 := by
    funext s
    by_cases hs : s ∈ Set.Ioi (0 : ℝ)
    · rw [Set.piecewise_eq_of_mem _ _ _ hs, Set.piecewise_eq_of_mem _ _ _ hs, logZ_eq hs]
    · rw [Set.piecewise_eq_of_notMem _ _ _ hs, Set.piecewise_eq_of_notMem _ _ _ hs]
  rw [e]
  have hm : Measurable stdCdf := stdCdf_mono.measurable
  exact Measurable.piecewise measurableSet_Ioi
    (Real.measurable_log.comp ((hm.comp (by fun_prop)).sub (hm.comp (by fun_prop)))) measurable_const

end Cgpm.Sampler
