import Verif.Lemmas.RejectDraws
import Verif.Lemmas.SliceChain

/-!
C82: `rejection_sample` returns independent draws from the target, if it is given densities. (Its
documentation asks for log densities; given those it need not return.)
-/
namespace Cgpm.Props
open Cgpm Cgpm.Sampler MeasureTheory Cgpm.Batch
open scoped ENNReal

/-- **C82.** If `proposal_draw_fn` draws from the density `proposal` (known up to a constant, with
respect to any measure), and `proposal` contains `target`, then the `N` samples are independent draws
from the density `target`; in particular the sampler returns `N` samples with probability one. -/
theorem C82_samples {target proposal : ℝ → ℝ} {draw : Draws ℝ} {base : Measure ℝ}
    (ht : Measurable target) (hp : Measurable proposal) (h0 : ∀ x, 0 ≤ target x)
    (hle : ∀ x, target x ≤ proposal x) (hT : ∫⁻ x, ENNReal.ofReal (target x) ∂base ≠ 0)
    (hP : ∫⁻ x, ENNReal.ofReal (proposal x) ∂base ≠ ⊤)
    (hlaw : LawOf (lawWith base proposal) id draw) (N : Nat) {F : List ℝ → ℝ≥0∞}
    (hF : Measurable fun x : Fin N → ℝ => F (List.ofFn x)) :
    rejected target proposal draw N F
      = ∫⁻ x : Fin N → ℝ, F (List.ofFn x) ∂Measure.pi fun _ => lawWith base target := by
  set P := ∫⁻ x, ENNReal.ofReal (proposal x) ∂base with hPd
  set T := ∫⁻ x, ENNReal.ofReal (target x) ∂base with hTd
  have hTP : T ≤ P := lintegral_mono fun x => ENNReal.ofReal_le_ofReal (hle x)
  have hP0 : P ≠ 0 := fun h => hT (le_antisymm (h ▸ hTP) zero_le)
  have hTt : T ≠ ⊤ := ne_top_of_le_ne_top hP hTP
  have hν : IsProbabilityMeasure (lawWith base proposal) := ⟨by
    unfold lawWith
    rw [Measure.smul_apply, withDensity_apply _ MeasurableSet.univ, Measure.restrict_univ, smul_eq_mul]
    exact ENNReal.inv_mul_cancel hP0 hP⟩
  have hω : IsProbabilityMeasure (lawWith base target) := ⟨by
    unfold lawWith
    rw [Measure.smul_apply, withDensity_apply _ MeasurableSet.univ, Measure.restrict_univ, smul_eq_mul]
    exact ENNReal.inv_mul_cancel hT hTt⟩
  have ha : Measurable fun x => ENNReal.ofReal (target x / proposal x) := (ht.div hp).ennreal_ofReal
  have hα : P⁻¹ * T ≠ 0 := mul_ne_zero (ENNReal.inv_ne_zero.mpr hP) hT
  have hacc : ∀ h : ℝ → ℝ≥0∞, Measurable h →
      ∫⁻ x, ENNReal.ofReal (target x / proposal x) * h x ∂lawWith base proposal
        = P⁻¹ * T * ∫⁻ x, h x ∂lawWith base target := by
    intro h hh
    have hah : Measurable fun x => ENNReal.ofReal (target x / proposal x) * h x := ha.mul hh
    unfold lawWith
    rw [lintegral_smul_measure, lintegral_smul_measure,
      lintegral_withDensity_eq_lintegral_mul _ hp.ennreal_ofReal hah,
      lintegral_withDensity_eq_lintegral_mul _ ht.ennreal_ofReal hh, smul_eq_mul, smul_eq_mul,
      mul_assoc, ← mul_assoc T, ENNReal.mul_inv_cancel hT hTt, one_mul]
    congr 1
    refine lintegral_congr fun x => ?_
    simp only [Pi.mul_apply]
    rw [← mul_assoc, ← ENNReal.ofReal_mul ((h0 x).trans (hle x))]
    congr 2
    by_cases hq : proposal x = 0
    · have : target x = 0 := le_antisymm (hq ▸ hle x) (h0 x)
      rw [hq, this, zero_mul]
    · field_simp
  have hF' : MeasL N fun l => F ([] ++ l) := hF
  unfold rejected rejectionSampleDraws
  rw [iSup_congr fun n => rejLoop_E hlaw ht hp h0 hle F n (s := []) (k := N) (N := N)
    (by rw [List.length_nil, Nat.zero_add]) hF',
    rejE_iSup ha (fun x => ENNReal.ofReal_le_one.mpr
    (div_le_one_of_le₀ (hle x) ((h0 x).trans (hle x)))) hα hacc N hF']
  exact seqE_pi _ N hF

/-- **C82.** Given log densities, as its documentation asks, the sampler accepts nothing if the log
densities are negative: it never returns a sample. -/
theorem C82_log_violated {target proposal : ℝ → ℝ} {draw : Draws ℝ} (h : ∀ x, proposal x < 0)
    {N : Nat} (hN : N ≠ 0) : rejected target proposal draw N (fun _ => 1) = 0 := by
  unfold rejected rejectionSampleDraws
  refine le_antisymm (iSup_le fun n => ?_) zero_le
  induction n with
  | zero =>
    unfold rejLoopDraws
    rw [if_neg (by simpa using hN)]
    exact le_rfl
  | succ n ih =>
    unfold rejLoopDraws
    rw [if_neg (by simpa using hN)]
    dsimp only
    rw [Draws.E_bind]
    rw [show (fun x => (Draws.draw (npUniform 0 1) fun u =>
        if proposal x < target x then Draws.raise Exn.assertion
        else if u * proposal x < target x then rejLoopDraws target proposal draw N n ([] ++ [x])
        else rejLoopDraws target proposal draw N n []).E (atSamples fun _ => 1)) = fun _ => 0 from ?_]
    · exact (draws_E_zero draw).le
    · funext x
      unfold Draws.E
      rw [npUniform_unit]
      refine le_antisymm ?_ zero_le
      rw [setLIntegral_congr_fun (g := fun _ => 0) measurableSet_Ioo fun u hu => ?_, lintegral_zero]
      dsimp only
      by_cases h1 : proposal x < target x
      · rw [if_pos h1]; rfl
      · have h2 : ¬ u * proposal x < target x := by
          have := not_lt.mp h1
          nlinarith [h x, hu.1, hu.2]
        rw [if_neg h1, if_neg h2]
        exact le_antisymm ih zero_le

/-! ### A case: the density `x` on the unit interval, with uniform proposals -/

/-- Uniform draws. -/
noncomputable def uniformDraw : Draws ℝ := .draw (npUniform 0 1) .pure

theorem uniform_law : LawOf (lawWith (volume.restrict (Set.Ico (0 : ℝ) 1)) fun _ => 1) id uniformDraw := by
  intro g hg
  unfold uniformDraw Draws.E lawWith npUniform
  simp only [ENNReal.ofReal_one, lintegral_one, Measure.restrict_apply_univ, Real.volume_Ico, sub_zero,
    inv_one, one_smul]
  rw [lintegral_withDensity_eq_lintegral_mul _ measurable_const hg]
  simp [Draws.E]

/-- Three samples of the density `x`: the chance that all are below one half is (1/4)^3; here, that
the sampler returns. -/
example : rejected (fun x => max 0 (min x 1)) (fun _ => 1) uniformDraw 3 (fun _ => 1) = 1 := by
  have hT : ∫⁻ x, ENNReal.ofReal (max 0 (min x 1)) ∂volume.restrict (Set.Ico (0 : ℝ) 1) ≠ 0 := by
    intro h
    have hm : Measurable fun x : ℝ => ENNReal.ofReal (max 0 (min x 1)) :=
      (measurable_const.max (measurable_id.min measurable_const)).ennreal_ofReal
    rw [lintegral_eq_zero_iff hm, Filter.EventuallyEq, ae_restrict_iff' measurableSet_Ico] at h
    have h2 : volume (Set.Ioo (0 : ℝ) 1) = 0 := by
      refine measure_mono_null (fun x hx => ?_) (ae_iff.mp h)
      simp only [Set.mem_ofPred_eq, Classical.not_imp]
      refine ⟨⟨hx.1.le, hx.2⟩, ?_⟩
      simp [hx.1]
    simp at h2
  have hm : Measurable fun x : ℝ => max 0 (min x 1) :=
    measurable_const.max (measurable_id.min measurable_const)
  rw [C82_samples hm measurable_const (fun x => le_max_left _ _)
    (fun x => max_le (by norm_num) (min_le_right _ _)) hT (by simp) uniform_law 3 measurable_const]
  have : IsProbabilityMeasure (lawWith (volume.restrict (Set.Ico (0 : ℝ) 1)) fun x => max 0 (min x 1)) :=
    ⟨by
      unfold lawWith
      rw [Measure.smul_apply, withDensity_apply _ MeasurableSet.univ, Measure.restrict_univ, smul_eq_mul]
      refine ENNReal.inv_mul_cancel hT (ne_top_of_le_ne_top (b := ∫⁻ _ in Set.Ico (0 : ℝ) 1, 1) (by simp)
        (lintegral_mono fun x => ENNReal.ofReal_le_one.mpr (max_le (by norm_num) (min_le_right _ _))))⟩
  simp

/-- A normal density scaled to be below one has a negative logarithm. -/
example : rejected (fun x => -x ^ 2 / 2 - 1) (fun x => -x ^ 2 / 2 - 1) uniformDraw 1 (fun _ => 1) = 0 :=
  C82_log_violated (fun x => by nlinarith [sq_nonneg x]) one_ne_zero

end Cgpm.Props
