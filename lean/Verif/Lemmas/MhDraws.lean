import Verif.Spec.MhDraws
import Verif.Lemmas.PrimSimulate
import Mathlib.MeasureTheory.Measure.Prod
import Mathlib.MeasureTheory.Measure.Haar.NormedSpace
import Mathlib.MeasureTheory.Group.LIntegral

/-!
The Metropolis-Hastings iteration: detailed balance.
-/
namespace Cgpm.Sampler
open Cgpm Classical MeasureTheory ProbabilityTheory
open scoped ENNReal

/-- The probability with which a proposal is accepted. -/
noncomputable def accProb (l : ℝ → ℝ) (x y : ℝ) : ℝ≥0∞ := ENNReal.ofReal (min 1 (Real.exp (l y - l x)))

theorem accProb_le_one (l : ℝ → ℝ) (x y : ℝ) : accProb l x y ≤ 1 := by
  unfold accProb
  rw [← ENNReal.ofReal_one]
  exact ENNReal.ofReal_le_ofReal (min_le_left _ _)

theorem density_accProb (l : ℝ → ℝ) (x y : ℝ) :
    density l x * accProb l x y = density l y * accProb l y x := by
  unfold density accProb
  rw [← ENNReal.ofReal_mul (Real.exp_pos _).le, ← ENNReal.ofReal_mul (Real.exp_pos _).le]
  congr 1
  rw [mul_min_of_nonneg _ _ (Real.exp_pos _).le, mul_min_of_nonneg _ _ (Real.exp_pos _).le,
    ← Real.exp_add, ← Real.exp_add, mul_one, mul_one, add_sub_cancel, add_sub_cancel, min_comm]

theorem measurable_density {l : ℝ → ℝ} (hl : Measurable l) : Measurable (density l) :=
  (Real.measurable_exp.comp hl).ennreal_ofReal

theorem measurable_accProb {l : ℝ → ℝ} (hl : Measurable l) :
    Measurable fun z : ℝ × ℝ => accProb l z.1 z.2 := by
  unfold accProb
  exact (measurable_const.min (Real.measurable_exp.comp
    ((hl.comp measurable_snd).sub (hl.comp measurable_fst)))).ennreal_ofReal

/-- Detailed balance: a proposal whose density `q` is symmetric up to the weight `w`. -/
theorem mh_balance {μ : Measure ℝ} [SFinite μ] {l : ℝ → ℝ} (hl : Measurable l)
    {q : ℝ → ℝ → ℝ≥0∞} (hq : Measurable fun z : ℝ × ℝ => q z.1 z.2)
    {w : ℝ → ℝ≥0∞} (hw : Measurable w)
    (hsym : ∀ᵐ x ∂μ, ∀ᵐ y ∂μ, w x * q x y = w y * q y x) {g : ℝ → ℝ≥0∞} (hg : Measurable g) :
    ∫⁻ x, w x * density l x * (∫⁻ y, q x y * (accProb l x y * g y + (1 - accProb l x y) * g x) ∂μ) ∂μ
      = ∫⁻ x, w x * density l x * ((∫⁻ y, q x y ∂μ) * g x) ∂μ := by
  have ha := measurable_accProb hl
  have hp := measurable_density hl
  have m1 : Measurable fun z : ℝ × ℝ => w z.1 * density l z.1 * (q z.1 z.2 * (accProb l z.1 z.2 * g z.2)) :=
    ((hw.comp measurable_fst).mul (hp.comp measurable_fst)).mul
      (hq.mul (ha.mul (hg.comp measurable_snd)))
  have m2 : Measurable fun z : ℝ × ℝ => w z.1 * density l z.1 * (q z.1 z.2 * (accProb l z.1 z.2 * g z.1)) :=
    ((hw.comp measurable_fst).mul (hp.comp measurable_fst)).mul
      (hq.mul (ha.mul (hg.comp measurable_fst)))
  have hqx : ∀ x, Measurable (q x) := fun x => hq.comp (measurable_const.prodMk measurable_id)
  have hax : ∀ x, Measurable (accProb l x) := fun x => ha.comp (measurable_const.prodMk measurable_id)
  have hswap : ∫⁻ x, ∫⁻ y, w x * density l x * (q x y * (accProb l x y * g y)) ∂μ ∂μ
      = ∫⁻ x, ∫⁻ y, w x * density l x * (q x y * (accProb l x y * g x)) ∂μ ∂μ := by
    rw [lintegral_lintegral_swap m1.aemeasurable]
    refine lintegral_congr_ae ?_
    filter_upwards [hsym] with x hx
    refine lintegral_congr_ae ?_
    filter_upwards [hx] with y hy
    calc w y * density l y * (q y x * (accProb l y x * g x))
        = (w y * q y x) * (density l y * accProb l y x) * g x := by ring
      _ = (w x * q x y) * (density l x * accProb l x y) * g x := by rw [← hy, density_accProb l x y]
      _ = _ := by ring
  have hL : ∀ x, w x * density l x
        * (∫⁻ y, q x y * (accProb l x y * g y + (1 - accProb l x y) * g x) ∂μ)
      = (∫⁻ y, w x * density l x * (q x y * (accProb l x y * g y)) ∂μ)
        + ∫⁻ y, w x * density l x * (q x y * ((1 - accProb l x y) * g x)) ∂μ := by
    intro x
    have h1 : Measurable fun y => q x y * (accProb l x y * g y) := (hqx x).mul ((hax x).mul hg)
    have h2 : Measurable fun y => q x y * ((1 - accProb l x y) * g x) :=
      (hqx x).mul ((measurable_const.sub (hax x)).mul_const _)
    rw [← lintegral_add_left (h1.const_mul _), ← lintegral_const_mul]
    · refine lintegral_congr fun y => ?_
      ring
    · exact (hqx x).mul (((hax x).mul hg).add ((measurable_const.sub (hax x)).mul_const _))
  have hR : ∀ x, w x * density l x * ((∫⁻ y, q x y ∂μ) * g x)
      = (∫⁻ y, w x * density l x * (q x y * (accProb l x y * g x)) ∂μ)
        + ∫⁻ y, w x * density l x * (q x y * ((1 - accProb l x y) * g x)) ∂μ := by
    intro x
    have h1 : Measurable fun y => q x y * (accProb l x y * g x) := (hqx x).mul ((hax x).mul_const _)
    rw [← lintegral_add_left (h1.const_mul _), ← lintegral_mul_const _ (hqx x),
      ← lintegral_const_mul _ ((hqx x).mul_const _)]
    refine lintegral_congr fun y => ?_
    have : accProb l x y * g x + (1 - accProb l x y) * g x = g x := by
      rw [← add_mul, add_tsub_cancel_of_le (accProb_le_one l x y), one_mul]
    rw [← mul_add, ← mul_add, this]
  rw [lintegral_congr hL, lintegral_congr hR, lintegral_add_left, lintegral_add_left, hswap]
  · exact m2.lintegral_prod_right'
  · exact m1.lintegral_prod_right'

theorem npUniform_unit (F : ℝ → ℝ≥0∞) : ∫⁻ u, F u ∂npUniform 0 1 = ∫⁻ u in Set.Ioo 0 1, F u := by
  unfold npUniform
  rw [sub_zero, ENNReal.ofReal_one, inv_one, one_smul]
  exact setLIntegral_congr Ioo_ae_eq_Ico.symm

/-- The uniform draw decides between two values. -/
theorem uniform_choice (c : ℝ) (hc : 0 ≤ c) (v w : ℝ≥0∞) :
    ∫⁻ u in Set.Ioo (0 : ℝ) 1, (if u < c then v else w)
      = ENNReal.ofReal (min 1 c) * v + (1 - ENNReal.ofReal (min 1 c)) * w := by
  have h1 : ∀ u : ℝ, (if u < c then v else w)
      = (Set.Iio c).indicator (fun _ => v) u + (Set.Ici c).indicator (fun _ => w) u := by
    intro u
    by_cases h : u < c
    · rw [if_pos h, Set.indicator_of_mem (show u ∈ Set.Iio c from h),
        Set.indicator_of_notMem (fun hh : u ∈ Set.Ici c => absurd h (not_lt.mpr hh)), add_zero]
    · rw [if_neg h, Set.indicator_of_notMem (show u ∉ Set.Iio c from h),
        Set.indicator_of_mem (show u ∈ Set.Ici c from not_lt.mp h), zero_add]
  rw [lintegral_congr h1, lintegral_add_left (measurable_const.indicator measurableSet_Iio),
    lintegral_indicator measurableSet_Iio, lintegral_indicator measurableSet_Ici,
    setLIntegral_const, setLIntegral_const, Measure.restrict_apply measurableSet_Iio,
    Measure.restrict_apply measurableSet_Ici]
  have e1 : volume (Set.Iio c ∩ Set.Ioo (0 : ℝ) 1) = ENNReal.ofReal (min 1 c) := by
    have : Set.Iio c ∩ Set.Ioo (0 : ℝ) 1 = Set.Ioo 0 (min 1 c) := by
      ext u; simp only [Set.mem_inter_iff, Set.mem_Iio, Set.mem_Ioo, lt_min_iff]; tauto
    rw [this, Real.volume_Ioo, sub_zero]
  have e2 : volume (Set.Ici c ∩ Set.Ioo (0 : ℝ) 1) = 1 - ENNReal.ofReal (min 1 c) := by
    have h2 : volume (Set.Iio c ∩ Set.Ioo (0 : ℝ) 1) + volume (Set.Ici c ∩ Set.Ioo (0 : ℝ) 1) = 1 := by
      rw [← Set.compl_Iio, Set.inter_comm, Set.inter_comm (Set.Iio c)ᶜ, ← Set.diff_eq,
        measure_inter_add_diff _ measurableSet_Iio, Real.volume_Ioo]
      simp
    rw [← e1]
    refine ENNReal.eq_sub_of_add_eq ?_ (by rw [add_comm]; exact h2)
    exact ne_top_of_le_ne_top (by simp) (measure_mono Set.inter_subset_right)
  rw [e1, e2, mul_comm, mul_comm w]

/-- The acceptance test at a point and a proposal of finite log density. -/
theorem accept_E {A : MhArgs} {l : ℝ → ℝ} {s : MhState} {x y : ℝ} (hlag : A.lag ≠ 0)
    (h : ℝ → MhState → ℝ≥0∞) (g : ℝ → ℝ≥0∞)
    (hh : ∀ u s1 s2, mhAccept u y (.fin (l y)) { s with x := x, logp := .fin (l x) } = .ok s1 →
      mhCollect A s1 = .ok s2 → h u (mhTune A s2) = g s1.x) :
    ∫⁻ u, (match mhAccept u y (.fin (l y)) { s with x := x, logp := .fin (l x) } with
          | .error e => (Draws.raise e : Draws MhState)
          | .ok s1 => Draws.ofOutcome ((mhCollect A s1).map (mhTune A))).E (h u) ∂npUniform 0 1
      = accProb l x y * g y + (1 - accProb l x y) * g x := by
  rw [npUniform_unit]
  unfold accProb
  rw [← uniform_choice _ (Real.exp_pos _).le]
  refine setLIntegral_congr_fun measurableSet_Ioo fun u hu => ?_
  have hcol : ∀ s1 : MhState, ∃ s2, mhCollect A s1 = .ok s2 := by
    intro s1
    unfold mhCollect
    rw [if_neg hlag]
    split
    · split <;> exact ⟨_, rfl⟩
    · exact ⟨_, rfl⟩
  have hlog : Fl.log (.fin u) = .ok (.fin (Real.log u)) := by simp [Fl.log, hu.1]
  have hlt : (Fl.fin (Real.log u)).lt ((Fl.fin (l y)).sub (Fl.fin (l x))) ↔ u < Real.exp (l y - l x) := by
    rw [← Real.log_lt_iff_lt_exp hu.1]
    simp only [Fl.lt, Fl.sub, Fl.add, Fl.neg, Fl.toE, ne_eq, reduceCtorEq, not_false_eq_true,
      true_and, EReal.coe_lt_coe_iff, ← sub_eq_add_neg]
  by_cases hu2 : u < Real.exp (l y - l x)
  · have ha : mhAccept u y (.fin (l y)) { s with x := x, logp := .fin (l x) }
        = .ok { s with x := y, logp := .fin (l y), accepted := s.accepted + 1,
                       rate := ((s.accepted : ℝ) + 1) / s.aiters } := by
      unfold mhAccept
      rw [hlog]
      simp only
      rw [if_pos (hlt.mpr hu2)]
    obtain ⟨s2, hs2⟩ := hcol ({ s with
      x := y, logp := .fin (l y), accepted := s.accepted + 1,
      rate := ((s.accepted : ℝ) + 1) / s.aiters } : MhState)
    simp only [ha, hs2, if_pos hu2]
    exact hh u _ _ ha hs2
  · have ha : mhAccept u y (.fin (l y)) { s with x := x, logp := .fin (l x) }
        = .ok { s with x := x, logp := .fin (l x) } := by
      unfold mhAccept
      rw [hlog]
      simp only
      rw [if_neg (fun hc => hu2 (hlt.mp hc))]
    obtain ⟨s2, hs2⟩ := hcol { s with x := x, logp := .fin (l x) }
    simp only [ha, hs2, if_neg hu2]
    exact hh u _ _ ha hs2

theorem mhCollect_x {A : MhArgs} {s s' : MhState} (h : mhCollect A s = .ok s') : s'.x = s.x := by
  unfold mhCollect at h
  split at h
  · split at h
    · cases h
    · split at h <;> cases h <;> rfl
  · cases h; rfl

theorem mhTune_x (A : MhArgs) (s : MhState) : (mhTune A s).x = s.x := by
  unfold mhTune
  split <;> rfl

/-- One iteration in terms of the proposal. -/
theorem iteration_eq {A : MhArgs} {l : ℝ → ℝ} (hA : ∀ x, A.D.inside x → A.f x = .ok (.fin (l x)))
    (hlag : A.lag ≠ 0) (s : MhState) (x : ℝ) (g : ℝ → ℝ≥0∞) :
    iteration A l s x g = (jumpDraws A.D x s.jumpStd).E fun y =>
      if A.D.inside y then accProb l x y * g y + (1 - accProb l x y) * g x else 0 := by
  unfold iteration mhStepDraws
  rw [Draws.E_bind]
  congr 1
  funext y
  by_cases hy : A.D.inside y
  · rw [if_neg (not_not.mpr hy), if_pos hy, hA y hy]
    simp only [Draws.E]
    exact accept_E hlag (fun _ s' => g s'.x) g fun u s1 s2 _ h2 => by
      rw [mhTune_x, mhCollect_x h2]
  · rw [if_pos hy, if_neg hy]
    rfl

end Cgpm.Sampler
