import Verif.Lemmas.MhLossy
import Verif.Lemmas.MhSafe
import Verif.Lemmas.PrimSimulateMore

/-!
C75: the iterations of the parameter inference of the uncollapsed components, and the densities that
they leave invariant.
-/
namespace Cgpm.Props
open Cgpm Cgpm.Sampler MeasureTheory ProbabilityTheory
open scoped ENNReal

theorem iteration_measurable {A : MhArgs} {l : ℝ → ℝ} (hA : Targets A l) (h0 : A.D = ⟨0, ⊤⟩)
    {j : ℝ} (hj : 0 < j) {g : ℝ → ℝ≥0∞} (hg : Measurable g) :
    (∀ x, stepMove A l j g x = ∫⁻ y in Set.Ioi (0 : ℝ), foldPDF (Real.toNNReal (j ^ 2)) x y
      * (accProb l x y * g y + (1 - accProb l x y) * g x)) ∧ Measurable (stepMove A l j g) := by
  have ha := measurable_accProb hA.1
  have hm : ∀ x, Measurable fun y => accProb l x y * g y + (1 - accProb l x y) * g x := fun x => by
    have hax : Measurable (accProb l x) := ha.comp (measurable_const.prodMk measurable_id)
    exact (hax.mul hg).add ((measurable_const.sub hax).mul_const _)
  have e : ∀ x, stepMove A l j g x = ∫⁻ y in Set.Ioi (0 : ℝ), foldPDF (Real.toNNReal (j ^ 2)) x y
      * (accProb l x y * g y + (1 - accProb l x y) * g x) := by
    intro x
    unfold stepMove
    rw [h0]
    rw [jump_half (D := ⟨0, ⊤⟩) le_rfl rfl hj
      (Measurable.ite (measurableSet_inside _) (hm x) measurable_const)]
    refine setLIntegral_congr_fun measurableSet_Ioi fun y hy => ?_
    rw [if_pos ((inside_half y).mpr hy)]
  refine ⟨e, ?_⟩
  rw [show stepMove A l j g = _ from funext e]
  have : Measurable fun z : ℝ × ℝ => foldPDF (Real.toNNReal (j ^ 2)) z.1 z.2
      * (accProb l z.1 z.2 * g z.2 + (1 - accProb l z.1 z.2) * g z.1) :=
    (measurable_foldPDF _).mul ((ha.mul (hg.comp measurable_snd)).add
      ((measurable_const.sub ha).mul (hg.comp measurable_fst)))
  exact this.lintegral_prod_right'

theorem stepMove_invariant {A : MhArgs} {l : ℝ → ℝ} (hA : Targets A l) (h0 : A.D = ⟨0, ⊤⟩)
    {j : ℝ} (hj : 0 < j) {g : ℝ → ℝ≥0∞} (hg : Measurable g) :
    ∫⁻ x in Set.Ioi (0 : ℝ), density l x * stepMove A l j g x
      = ∫⁻ x in Set.Ioi (0 : ℝ), density l x * g x := by
  have hv : Real.toNNReal (j ^ 2) ≠ 0 := by rw [Ne, Real.toNNReal_eq_zero, not_le]; positivity
  have h := mh_balance (μ := volume.restrict (Set.Ioi (0 : ℝ))) hA.1
    (measurable_foldPDF (Real.toNNReal (j ^ 2))) (w := fun _ => 1) measurable_const
    (Filter.Eventually.of_forall fun x => Filter.Eventually.of_forall fun y => by
      rw [one_mul, one_mul, foldPDF_symm]) hg
  simp only [one_mul, foldPDF_total hv] at h
  rw [← h]
  exact lintegral_congr fun x => by rw [(iteration_measurable hA h0 hj hg).1]

/-- **C75.** On the positive numbers: every iteration of `mh_sample`, whatever its jump size and the
other variables of the loop, leaves the density it was given invariant. -/
theorem C75_half {A : MhArgs} {l : ℝ → ℝ} (hA : Targets A l) (h0 : A.D = ⟨0, ⊤⟩) (hlag : A.lag ≠ 0)
    (s : MhState) (hj : 0 < s.jumpStd) : Invariant A.D (density l) (iteration A l s) := by
  intro g hg
  have e : ∀ x, iteration A l s x g = stepMove A l s.jumpStd g x := fun x =>
    iteration_eq hA.2 hlag s x g
  simp only [e]
  rw [h0, half_set]
  exact stepMove_invariant hA h0 hj hg

/-- **C75.** On the positive numbers, an iteration leaves no other density of finite mass invariant:
only multiples of the one it was given. -/
theorem C75_half_only {A : MhArgs} {l : ℝ → ℝ} (hA : Targets A l) (h0 : A.D = ⟨0, ⊤⟩)
    (hlag : A.lag ≠ 0) (s : MhState) (hj : 0 < s.jumpStd) {p : ℝ → ℝ≥0∞} (hp : Measurable p)
    (hfin : ∫⁻ x in Set.Ioi (0 : ℝ), p x ≠ ⊤) (hinv : Invariant A.D p (iteration A l s)) :
    ∃ c : ℝ≥0∞, ∀ᵐ x ∂volume.restrict (Set.Ioi (0 : ℝ)), p x = c * density l x := by
  have hv : Real.toNNReal (s.jumpStd ^ 2) ≠ 0 := by
    rw [Ne, Real.toNNReal_eq_zero, not_le]; positivity
  refine proportional_of_levels fun c hc => ?_
  refine mh_only hA.1 (measurable_foldPDF (Real.toNNReal (s.jumpStd ^ 2)))
    (foldPDF_symm _) (foldPDF_pos hv) (foldPDF_total hv) hp hfin (fun g hg => ?_) c hc
  have h := hinv g hg
  rw [h0, half_set] at h
  rw [← h]
  refine lintegral_congr fun x => ?_
  rw [iteration_eq hA.2 hlag s x g]
  exact congrArg _ ((iteration_measurable hA h0 hj hg).1 x).symm

/-- **C75.** A run of `mh_sample` on the positive numbers that asks for one sample and ends before the
jump size is first tuned: the sample has the density that was given if the starting point has. -/
theorem C75_half_run {A : MhArgs} {l : ℝ → ℝ} (hA : Targets A l) (h0 : A.D = ⟨0, ⊤⟩)
    (hnum : A.num = 1) (hlag : A.lag = 1) (hb : A.burn < 19) {n : ℕ} (hn : A.burn < n)
    {j : ℝ} (hj : 0 < j) :
    Invariant A.D (density l) fun x g => (mhSampleDraws A n x j).E (oneSample g) := by
  intro g hg
  have hc : A.burn + 1 < A.checkevery := by
    unfold MhArgs.checkevery
    exact lt_of_lt_of_le (by omega) (le_max_left _ _)
  have e : ∫⁻ x in {x | A.D.inside x}, density l x * (mhSampleDraws A n x j).E (oneSample g)
      = ∫⁻ x in {x | A.D.inside x}, density l x * (stepMove A l j)^[A.burn + 1] g x :=
    setLIntegral_congr_fun (measurableSet_inside _) fun x hx => by
      simp only [sample_eq hA.2 hnum hlag hc g hn hx j]
  rw [e, h0, half_set]
  have key : ∀ k, Measurable ((stepMove A l j)^[k] g) ∧
      ∫⁻ x in Set.Ioi (0 : ℝ), density l x * (stepMove A l j)^[k] g x
        = ∫⁻ x in Set.Ioi (0 : ℝ), density l x * g x := by
    intro k
    induction k with
    | zero => exact ⟨hg, rfl⟩
    | succ k ih =>
      simp only [Function.iterate_succ_apply']
      exact ⟨(iteration_measurable hA h0 hj ih.1).2, (stepMove_invariant hA h0 hj ih.1).trans ih.2⟩
  exact (key _).2

/-- **C75.** The strength of a beta component, for all data: every iteration of its inference leaves
the density whose logarithm is `logpdf_score`, as a function of the strength, invariant. -/
theorem C75_strength (S : BetaS) {b : ℝ} (hb0 : 0 < b) (hb1 : b < 1) (s : MhState)
    (hj : 0 < s.jumpStd) :
    let score := fun x => (beta (betaLogPrior 5 1 1)).score ⟨x, b⟩ S
    Invariant ⟨0, ⊤⟩ (density score) (iteration (betaStrengthArgs S b) score s) := by
  intro score g hg
  set l := (Set.Ioi (0 : ℝ)).piecewise score fun _ => 0 with hl
  have hin : ∀ x, x ∈ Set.Ioi (0 : ℝ) → l x = score x := fun x hx =>
    Set.piecewise_eq_of_mem _ _ _ hx
  have hT : Targets (betaStrengthArgs S b) l := by
    refine ⟨measurable_betaScore S hb0 hb1, fun x hx => ?_⟩
    have hx' : 0 < x := (inside_half x).mp hx
    rw [hin x hx']
    change betaTarget S x b = _
    unfold betaTarget
    rw [if_neg (not_not.mpr ⟨hx', hb0, hb1⟩)]
    rfl
  have h := C75_half hT rfl one_ne_zero s hj g hg
  have hset := half_set
  change ∫⁻ x in {x | (⟨0, ⊤⟩ : Domain).inside x}, density l x * iteration _ l s x g
    = ∫⁻ x in {x | (⟨0, ⊤⟩ : Domain).inside x}, density l x * g x at h
  rw [hset] at h ⊢
  have e : ∀ x, x ∈ Set.Ioi (0 : ℝ) →
      density l x = density score x ∧ iteration (betaStrengthArgs S b) l s x g
        = iteration (betaStrengthArgs S b) score s x g := fun x hx => by
    unfold density iteration
    rw [hin x hx]
    exact ⟨rfl, rfl⟩
  rw [setLIntegral_congr_fun measurableSet_Ioi fun x hx => by rw [← (e x hx).1, ← (e x hx).2], h]
  exact setLIntegral_congr_fun measurableSet_Ioi fun x hx => by rw [(e x hx).1]

/-- The hypotheses of `C75_strength` are met at the start of `transition_params` of a component of
balance 1/2 that holds a value 1/2. -/
example : (0 : ℝ) < 1 / 2 ∧ (1 / 2 : ℝ) < 1 ∧
    (0 : ℝ) < (⟨1, .fin ((beta (betaLogPrior 5 1 1)).score ⟨1, 1 / 2⟩
      ⟨1, Real.log (1 / 2), Real.log (1 / 2)⟩), 0.5, 0, 1, 0, 1, []⟩ : MhState).jumpStd := by
  norm_num

/-- **C75.** On an interval that is not the unit interval the iteration does not leave the density it
was given invariant, but that density divided by the expected number of trials of the proposal
(which is larger near the ends); up to the runs that raise RuntimeError, with probability
`(1 - hit)^1000`. -/
theorem C75_interval {A : MhArgs} {l : ℝ → ℝ} (hA : Targets A l)
    (h1 : ¬ (A.D.lo = 0 ∧ A.D.hi = 1)) (h2 : ¬ (0 ≤ A.D.lo ∧ A.D.hi = ⊤)) (hlag : A.lag ≠ 0)
    (s : MhState) (hj : 0 < s.jumpStd) {g : ℝ → ℝ≥0∞} (hg : Measurable g) :
    ∫⁻ x in {x | A.D.inside x},
        density l x / tries A.D s.jumpStd 1000 x * iteration A l s x g
      = ∫⁻ x in {x | A.D.inside x}, density l x / tries A.D s.jumpStd 1000 x
          * ((1 - (1 - hit A.D x s.jumpStd) ^ 1000) * g x) := by
  obtain ⟨N, hN, hN1⟩ : ∃ N : ℕ, 1000 = N ∧ N = 999 + 1 := ⟨1000, rfl, rfl⟩
  rw [hN]
  set j := s.jumpStd
  set v := Real.toNNReal (j ^ 2) with hvd
  set D := A.D with hD
  have ht0 : ∀ x, tries D j N x ≠ 0 := by rw [hN1]; exact tries_ne_zero D j 999
  have htt := tries_ne_top D j N
  have hq : Measurable fun z : ℝ × ℝ => tries D j N z.1 * gaussianPDF z.1 v z.2 :=
    ((measurable_tries D hj N).comp measurable_fst).mul (measurable_gaussianPDF₂ v)
  have h := mh_balance (μ := volume.restrict {x | D.inside x}) hA.1
    (q := fun x y => tries D j N x * gaussianPDF x v y) hq
    (w := fun x => (tries D j N x)⁻¹) (measurable_tries D hj N).inv
    (Filter.Eventually.of_forall fun x => Filter.Eventually.of_forall fun y => by
      rw [← mul_assoc, ← mul_assoc, ENNReal.inv_mul_cancel (ht0 x) (htt x),
        ENNReal.inv_mul_cancel (ht0 y) (htt y), gaussianPDF_swap]) hg
  have ha := measurable_accProb hA.1
  have e1 : ∀ x, iteration A l s x g = ∫⁻ y in {y | D.inside y}, tries D j N x * gaussianPDF x v y
      * (accProb l x y * g y + (1 - accProb l x y) * g x) := by
    intro x
    have hax : Measurable (accProb l x) := ha.comp (measurable_const.prodMk measurable_id)
    have hm : Measurable fun y => accProb l x y * g y + (1 - accProb l x y) * g x :=
      (hax.mul hg).add ((measurable_const.sub hax).mul_const _)
    rw [iteration_eq hA.2 hlag]
    unfold jumpDraws
    rw [if_neg (not_lt.mpr hj.le), if_neg h1, if_neg h2, hN, jumpTrials_E hj,
      ← lintegral_const_mul' _ _ (htt x)]
    refine setLIntegral_congr_fun (measurableSet_inside D) fun y hy => ?_
    have hy' : A.D.inside y := hy
    rw [if_pos hy', mul_assoc]
  have e2 : ∀ x, ∫⁻ y in {y | D.inside y}, tries D j N x * gaussianPDF x v y
      = 1 - (1 - hit D x j) ^ N := by
    intro x
    rw [lintegral_const_mul' _ _ (htt x), hit_eq D hj]
    refine ENNReal.eq_sub_of_add_eq ?_ (tries_mul_hit D x j N)
    exact ENNReal.pow_ne_top (ne_top_of_le_ne_top ENNReal.one_ne_top tsub_le_self)
  simp only [e2] at h
  calc _ = ∫⁻ x in {x | D.inside x}, (tries D j N x)⁻¹ * density l x
        * (∫⁻ y in {y | D.inside y}, tries D j N x * gaussianPDF x v y
          * (accProb l x y * g y + (1 - accProb l x y) * g x)) :=
        lintegral_congr fun x => by rw [e1, div_eq_mul_inv, mul_comm (density l x)]
    _ = _ := h
    _ = _ := lintegral_congr fun x => by rw [div_eq_mul_inv, mul_comm (density l x)]

/-- The hypotheses of `C75_interval` are met by the inference of the mean of a normal truncated to
`[-1, 1]`. -/
example : let A := normalTruncMuArgs ⟨1, 0, 0⟩ (-1) 1 1
    (∃ l, Targets A l) ∧ ¬ (A.D.lo = 0 ∧ A.D.hi = 1) ∧ ¬ (0 ≤ A.D.lo ∧ A.D.hi = ⊤) ∧ A.lag ≠ 0 := by
  refine ⟨⟨fun mu => normalTruncLoglik 1 0 0 1 mu, ?_, fun x _ => rfl⟩, ?_, ?_, by decide⟩
  · unfold normalTruncLoglik
    fun_prop
  · rintro ⟨h, -⟩
    have h : ((-1 : ℝ) : EReal) = ((0 : ℝ) : EReal) := h
    rw [EReal.coe_eq_coe_iff] at h
    norm_num at h
  · rintro ⟨-, h⟩
    exact EReal.coe_ne_top _ h

open Classical in
/-- **C75, the unit interval.** There no jump size makes an iteration leave the uniform density
invariant: a uniform point moves to one of mean below one half. -/
theorem C75_unit_violated {A : MhArgs} {c : ℝ} (hA : Targets A fun _ => c) (h0 : A.D = ⟨0, 1⟩)
    (hlag : A.lag ≠ 0) (s : MhState) (hj : 0 < s.jumpStd) :
    ¬ Invariant A.D (density fun _ => c) (iteration A (fun _ => c) s) := by
  intro hinv
  have h := hinv ENNReal.ofReal ENNReal.measurable_ofReal
  rw [h0, unit_set] at h
  have hc0 : ENNReal.ofReal (Real.exp c) ≠ 0 := by
    rw [Ne, ENNReal.ofReal_eq_zero, not_le]; exact Real.exp_pos _
  unfold density at h
  rw [lintegral_const_mul' _ _ ENNReal.ofReal_ne_top, lintegral_const_mul' _ _ ENNReal.ofReal_ne_top]
    at h
  have h := (ENNReal.mul_right_inj hc0 ENNReal.ofReal_ne_top).mp h
  have hacc : ∀ x y, accProb (fun _ => c) x y = 1 := by
    intro x y
    unfold accProb
    simp
  have hle : ∀ x, iteration A (fun _ => c) s x ENNReal.ofReal
      ≤ ∫⁻ y, ENNReal.ofReal (unitFold y) ∂npNormal x s.jumpStd := by
    intro x
    rw [iteration_eq hA.2 hlag, h0]
    unfold jumpDraws
    rw [if_neg (not_lt.mpr hj.le), if_pos ⟨rfl, rfl⟩]
    simp only [Draws.E]
    refine lintegral_mono fun y => ?_
    change (if (⟨0, 1⟩ : Domain).inside (unitFold y) then _ else 0) ≤ _
    by_cases hin : (⟨0, 1⟩ : Domain).inside (unitFold y)
    · rw [if_pos hin, hacc, one_mul, tsub_self, zero_mul, add_zero]
      rfl
    · rw [if_neg hin]
      exact zero_le
  have hhalf : ∫⁻ x in Set.Ioo (0 : ℝ) 1, ENNReal.ofReal x = 1 / 2 := by
    have := foldMean_lintegral 0
    rw [foldMean_outside (by simp)] at this
    rw [ENNReal.ofReal_div_of_pos two_pos] at this
    simp only [add_zero, ENNReal.ofReal_one, ENNReal.ofReal_ofNat] at this
    rw [← this]
    refine setLIntegral_congr_fun measurableSet_Ioo fun x hx => ?_
    unfold unitFold
    rw [abs_of_pos hx.1, if_neg (not_lt.mpr hx.2.le)]
  rw [hhalf] at h
  exact absurd h (ne_of_lt (lt_of_le_of_lt (lintegral_mono hle) (fold_mean_lt hj)))

/-- **C75, the balance of a beta component.** Without data `logpdf_score` does not depend on the
balance (it is uniform), and no iteration of its inference leaves that density invariant. -/
theorem C75_balance_violated {strength : ℝ} (hs : 0 < strength) (s : MhState) (hj : 0 < s.jumpStd) :
    let score := fun b => (beta (betaLogPrior 5 1 1)).score ⟨strength, b⟩ ⟨0, 0, 0⟩
    Targets (betaBalanceArgs ⟨0, 0, 0⟩ strength) score ∧
    ¬ Invariant ⟨0, 1⟩ (density score) (iteration (betaBalanceArgs ⟨0, 0, 0⟩ strength) score s) := by
  intro score
  have hsc : score = fun _ => -Real.log 5 - strength / 5 - betaln 1 1 := by
    funext b
    change (beta (betaLogPrior 5 1 1)).score ⟨strength, b⟩ ⟨0, 0, 0⟩ = _
    simp only [beta, betaLoglik, betaLogPrior]
    push_cast
    ring
  have hT : Targets (betaBalanceArgs ⟨0, 0, 0⟩ strength) score := by
    refine ⟨by rw [hsc]; exact measurable_const, fun x hx => ?_⟩
    have hx' := (inside_unit x).mp hx
    change betaTarget _ strength x = _
    unfold betaTarget
    rw [if_neg (not_not.mpr ⟨hs, hx'.1, hx'.2⟩)]
    rfl
  refine ⟨hT, ?_⟩
  rw [hsc] at hT ⊢
  exact C75_unit_violated hT rfl one_ne_zero s hj

/-- **C75, the other intervals.** There no jump size makes an iteration leave the uniform density
invariant, nor turn it into a multiple of itself (as it would if the runs that raise were evenly
spread). -/
theorem C75_interval_violated {A : MhArgs} {c : ℝ} (hA : Targets A fun _ => c) {l h : ℝ} (hlh : l < h)
    (h0 : A.D = ⟨(l : EReal), (h : EReal)⟩) (h1 : ¬ (l = 0 ∧ h = 1)) (hlag : A.lag ≠ 0) (s : MhState)
    (hj : 0 < s.jumpStd) (K : ℝ≥0∞) :
    ∃ g : ℝ → ℝ≥0∞, Measurable g ∧
      ∫⁻ x in {x | A.D.inside x}, density (fun _ => c) x * iteration A (fun _ => c) s x g
        ≠ K * ∫⁻ x in {x | A.D.inside x}, density (fun _ => c) x * g x := by
  by_contra hno
  push Not at hno
  obtain ⟨N, hN, hN1⟩ : ∃ N : ℕ, 1000 = N ∧ N ≠ 0 := ⟨1000, rfl, by norm_num⟩
  set D := A.D with hD
  set j := s.jumpStd with hjd
  set v := Real.toNNReal (j ^ 2) with hvd
  have hset : {z : ℝ | D.inside z} = Set.Ioo l h := by
    ext z
    rw [h0]
    simp [Domain.inside]
  have d1 : ¬ (D.lo = 0 ∧ D.hi = 1) := by
    rw [h0]
    rintro ⟨e1, e2⟩
    exact h1 ⟨EReal.coe_eq_coe_iff.mp (e1.trans EReal.coe_zero.symm),
      EReal.coe_eq_coe_iff.mp (e2.trans EReal.coe_one.symm)⟩
  have d2 : ¬ (0 ≤ D.lo ∧ D.hi = ⊤) := by
    rw [h0]
    rintro ⟨-, e2⟩
    exact EReal.coe_ne_top _ e2
  have hacc : ∀ x y, accProb (fun _ => c) x y = 1 := by
    intro x y
    unfold accProb
    simp
  have hit1 : ∀ (g : ℝ → ℝ≥0∞) x, iteration A (fun _ => c) s x g
      = tries D j N x * ∫⁻ y in {y | D.inside y}, gaussianPDF x v y * g y := by
    intro g x
    rw [iteration_eq hA.2 hlag]
    unfold jumpDraws
    rw [if_neg (not_lt.mpr hj.le), if_neg d1, if_neg d2, hN, jumpTrials_E hj]
    congr 1
    refine setLIntegral_congr_fun (measurableSet_inside D) fun y hy => ?_
    have hy' : A.D.inside y := hy
    rw [if_pos hy', hacc, one_mul, tsub_self, zero_mul, add_zero]
  have hc0 : ENNReal.ofReal (Real.exp c) ≠ 0 := by
    rw [Ne, ENNReal.ofReal_eq_zero, not_le]; exact Real.exp_pos _
  have hK : ∀ g : ℝ → ℝ≥0∞, Measurable g →
      ∫⁻ x in {x | D.inside x}, tries D j N x * (∫⁻ y in {y | D.inside y}, gaussianPDF x v y * g y)
        = K * ∫⁻ x in {x | D.inside x}, g x := by
    intro g hg
    have h := hno g hg
    unfold density at h
    rw [lintegral_const_mul' _ _ ENNReal.ofReal_ne_top, lintegral_const_mul' _ _ ENNReal.ofReal_ne_top,
      ← mul_assoc, mul_comm K, mul_assoc] at h
    have h := (ENNReal.mul_right_inj hc0 ENNReal.ofReal_ne_top).mp h
    rw [← h]
    exact lintegral_congr fun x => (hit1 g x).symm
  -- the quarter point
  set x2 := (3 * l + h) / 4 with hx2
  have hfin : IsFiniteMeasure (volume.restrict {x | D.inside x}) := by
    rw [hset]; infer_instance
  have hmB : MeasurableSet {x | hit D x j < hit D x2 j} :=
    measurableSet_lt (measurable_hit D hj) measurable_const
  have hanti : ∀ x y, hit D x j ≤ hit D y j → tries D j N y ≤ tries D j N x := by
    intro x y hxy
    unfold tries
    exact Finset.sum_le_sum fun k _ => pow_le_pow_left₀ zero_le (tsub_le_tsub_left hxy 1) k
  have hQ : ∀ x, tries D j N x * hit D x j = 1 - (1 - hit D x j) ^ N := fun x =>
    ENNReal.eq_sub_of_add_eq
      (ENNReal.pow_ne_top (ne_top_of_le_ne_top ENNReal.one_ne_top tsub_le_self))
      (tries_mul_hit D x j N)
  have hbig : ∀ x y a b, l ≤ a → a < b → b ≤ h → (∀ z ∈ Set.Ioo a b, z ∈ {z | hit D z j < hit D x j} ↔ y) →
      y → volume.restrict {z | D.inside z} {z | hit D z j < hit D x j} ≠ 0 := by
    intro x y a b h3 h4 h5 h6 hy h7
    rw [hset] at h7
    have : volume.restrict (Set.Ioo l h) (Set.Ioo a b) = 0 :=
      measure_mono_null (fun z hz => (h6 z hz).mpr hy) h7
    rw [Measure.restrict_apply measurableSet_Ioo, Set.inter_eq_left.mpr
      (Set.Ioo_subset_Ioo h3 h5), Real.volume_Ioo, ENNReal.ofReal_eq_zero] at this
    linarith
  have hbig' : ∀ x a b, l ≤ a → a < b → b ≤ h → (∀ z ∈ Set.Ioo a b, z ∉ {z | hit D z j < hit D x j}) →
      volume.restrict {z | D.inside z} {z | hit D z j < hit D x j}ᶜ ≠ 0 := by
    intro x a b h3 h4 h5 h6 h7
    rw [hset] at h7
    have : volume.restrict (Set.Ioo l h) (Set.Ioo a b) = 0 :=
      measure_mono_null (fun z hz => h6 z hz) h7
    rw [Measure.restrict_apply measurableSet_Ioo, Set.inter_eq_left.mpr
      (Set.Ioo_subset_Ioo h3 h5), Real.volume_Ioo, ENNReal.ofReal_eq_zero] at this
    linarith
  have hstrict : ∀ x y, l < x → x < y → y ≤ (l + h) / 2 → hit D x j < hit D y j := by
    intro x y a1 a2 a3
    rw [h0]
    exact hit_strict hj a1 a2 a3
  refine lossy (μ := volume.restrict {x | D.inside x}) (k := fun x y => gaussianPDF x v y)
    (measurable_gaussianPDF₂ v) (gaussianPDF_swap v) (measurable_tries D hj N) hmB
    (hbig x2 True l x2 le_rfl (by linarith) (by linarith)
      (fun z hz => iff_true_intro (hstrict z x2 hz.1 hz.2 (by linarith))) trivial)
    (hbig' x2 x2 ((l + h) / 2) (by linarith) (by linarith) (by linarith)
      (fun z hz => not_lt.mpr (hstrict x2 z (by linarith) hz.1 hz.2.le).le))
    (a := tries D j N x2) (q0 := tries D j N x2 * hit D x2 j)
    (ENNReal.mul_ne_top (tries_ne_top D j N x2) (ne_top_of_le_ne_top ENNReal.one_ne_top
      (hit_le_one D x2 j)))
    (fun x hx => hanti x x2 (le_of_lt hx)) (fun x hx => hanti x2 x (not_lt.mp hx))
    (tries_ne_top D j N x2) (fun x => by rw [hit_eq D hj]; exact hit_le_one D x j)
    (fun x hx => ?_) (fun x hx => ?_) K hK
  · rw [hit_eq D hj, hQ, hQ]
    have hlt : hit D x j < hit D x2 j := hx
    have hlt3 : ∀ a b : ℝ≥0∞, a < b → b ≤ 1 → 1 - b < 1 - a := by
      intro a b hab hb
      by_contra hcon
      have e1 : a + (1 - a) = 1 := add_tsub_cancel_of_le (hab.le.trans hb)
      have e2 : b + (1 - b) = 1 := add_tsub_cancel_of_le hb
      have e3 : a + (1 - b) < b + (1 - b) := by
        rw [add_comm a, add_comm b]
        exact ENNReal.add_lt_add_left (ne_top_of_le_ne_top ENNReal.one_ne_top tsub_le_self) hab
      have e4 : a + (1 - a) ≤ a + (1 - b) :=
        add_le_add_right (not_lt.mp hcon) a
      rw [e1] at e4
      rw [e2] at e3
      exact absurd (lt_of_le_of_lt e4 e3) (lt_irrefl _)
    have h3 : 1 - hit D x2 j < 1 - hit D x j :=
      hlt3 _ _ hlt (hit_le_one D x2 j)
    have h4 : (1 - hit D x2 j) ^ N < (1 - hit D x j) ^ N := ENNReal.pow_right_strictMono hN1 h3
    exact hlt3 _ _ h4 (pow_le_one₀ zero_le tsub_le_self)
  · rw [hit_eq D hj, hQ, hQ]
    have hle : hit D x2 j ≤ hit D x j := not_lt.mp hx
    exact tsub_le_tsub_left (pow_le_pow_left₀ zero_le (tsub_le_tsub_left hle 1) N) 1

/-- **C75, the mean of a truncated normal.** Whatever the bounds, without data `logpdf_score` does not
depend on the mean, and no iteration of its inference leaves that density invariant. -/
theorem C75_mu_violated {l h : ℝ} (hlh : l < h) (sigma : ℝ) (s : MhState) (hj : 0 < s.jumpStd) :
    let score := fun mu => (normalTrunc l h (normalTruncLogZ l h)
      (normalTruncLogPrior 2 2 l h)).score ⟨mu, sigma⟩ ⟨0, 0, 0⟩
    let target := fun mu => normalTruncLoglik 0 0 0 sigma mu
    Targets (normalTruncMuArgs ⟨0, 0, 0⟩ l h sigma) target ∧
    ¬ Invariant ⟨(l : EReal), (h : EReal)⟩ (density score)
      (iteration (normalTruncMuArgs ⟨0, 0, 0⟩ l h sigma) target s) := by
  intro score target
  have ht : target = fun _ => 0 := by
    funext mu
    change normalTruncLoglik 0 0 0 sigma mu = 0
    unfold normalTruncLoglik
    push_cast
    ring
  have hsc : score = fun _ => normalTruncLogPrior 2 2 l h 0 sigma := by
    funext mu
    change (normalTrunc l h (normalTruncLogZ l h)
      (normalTruncLogPrior 2 2 l h)).score ⟨mu, sigma⟩ ⟨0, 0, 0⟩ = _
    simp only [normalTrunc, normalTruncLoglik, normalTruncLogPrior]
    push_cast
    ring
  have hT : Targets (normalTruncMuArgs ⟨0, 0, 0⟩ l h sigma) target := by
    refine ⟨by rw [ht]; exact measurable_const, fun x _ => rfl⟩
  refine ⟨hT, fun hinv => ?_⟩
  rw [ht] at hT hinv
  rw [hsc] at hinv
  have hc0 : ∀ c : ℝ, ENNReal.ofReal (Real.exp c) ≠ 0 := fun c => by
    rw [Ne, ENNReal.ofReal_eq_zero, not_le]; exact Real.exp_pos _
  have hinv' : Invariant (normalTruncMuArgs ⟨0, 0, 0⟩ l h sigma).D (density fun _ => 0)
      (iteration (normalTruncMuArgs ⟨0, 0, 0⟩ l h sigma) (fun _ => 0) s) := by
    intro g hg
    have h := hinv g hg
    unfold density at h ⊢
    rw [lintegral_const_mul' _ _ ENNReal.ofReal_ne_top,
      lintegral_const_mul' _ _ ENNReal.ofReal_ne_top] at h ⊢
    exact congrArg _ ((ENNReal.mul_right_inj (hc0 _) ENNReal.ofReal_ne_top).mp h)
  by_cases hu : l = 0 ∧ h = 1
  · refine C75_unit_violated hT ?_ one_ne_zero s hj hinv'
    change (⟨(l : EReal), (h : EReal)⟩ : Domain) = ⟨0, 1⟩
    rw [hu.1, hu.2, EReal.coe_zero, EReal.coe_one]
  · obtain ⟨g, hg, hne⟩ := C75_interval_violated hT hlh rfl hu one_ne_zero s hj 1
    rw [one_mul] at hne
    exact hne (hinv' g hg)

/-- **C75, the deviation of a truncated normal.** Whatever the data, if the density whose logarithm is
`logpdf_score`, as a function of the deviation, has finite mass, then no iteration of its inference
leaves it invariant: the log density it is given leaves out the prior and adds the logarithm of the
normalising constant, which the score subtracts for every value. -/
theorem C75_sigma_violated (S : NormalS) (hN : 0 ≤ S.N) {l h mu : ℝ} (h1 : l < mu) (h2 : mu < h)
    (s : MhState) (hj : 0 < s.jumpStd) :
    let score := fun sigma => (normalTrunc l h (normalTruncLogZ l h)
      (normalTruncLogPrior 2 2 l h)).score ⟨mu, sigma⟩ S
    let target := fun sigma => normalTruncLoglik S.N S.sum_x S.sum_x_sq sigma mu
      + normalTruncLogZ l h mu sigma
    (∀ x, (normalTruncSigmaArgs S l h mu).f x = .ok (.fin (target x))) ∧
    (∫⁻ x in Set.Ioi (0 : ℝ), density score x ≠ ⊤ →
      ¬ Invariant ⟨0, ⊤⟩ (density score) (iteration (normalTruncSigmaArgs S l h mu) target s)) := by
  intro score target
  refine ⟨fun _ => rfl, fun hfin hinv => ?_⟩
  set lik := fun sigma => normalTruncLoglik S.N S.sum_x S.sum_x_sq sigma mu with hlik
  have hlm : Measurable lik := by
    simp only [hlik, normalTruncLoglik]
    fun_prop
  set z := (Set.Ioi (0 : ℝ)).piecewise (fun x => normalTruncLogZ l h mu x) fun _ => 0 with hz
  have hzm : Measurable z := measurable_logZ l h mu
  have hzin : ∀ x, x ∈ Set.Ioi (0 : ℝ) → z x = normalTruncLogZ l h mu x := fun x hx =>
    Set.piecewise_eq_of_mem _ _ _ hx
  set t' := fun x => lik x + z x with ht'
  set prior := fun x => normalTruncLogPrior 2 2 l h mu x with hprior
  have hpm : Measurable prior := by
    simp only [hprior, normalTruncLogPrior]
    fun_prop
  set sc' := fun x => lik x + prior x - S.N * z x with hsc'
  have hT : Targets (normalTruncSigmaArgs S l h mu) t' := by
    refine ⟨hlm.add hzm, fun x hx => ?_⟩
    have hx' := (inside_half x).mp hx
    simp only [ht', hzin x hx']
    rfl
  have hs1 : ∀ x, x ∈ Set.Ioi (0 : ℝ) → density sc' x = density score x := by
    intro x hx
    unfold density
    simp only [hsc', hzin x hx]
    rfl
  have hit1 : ∀ x, x ∈ Set.Ioi (0 : ℝ) → ∀ g, iteration (normalTruncSigmaArgs S l h mu) t' s x g
      = iteration (normalTruncSigmaArgs S l h mu) target s x g := by
    intro x hx g
    unfold iteration
    simp only [ht', hzin x hx]
    rfl
  have hscm : Measurable sc' := (hlm.add hpm).sub (hzm.const_mul _)
  obtain ⟨c, hc⟩ := C75_half_only hT rfl one_ne_zero s hj (measurable_density hscm)
    (by rw [setLIntegral_congr_fun measurableSet_Ioi hs1]; exact hfin) (by
      intro g hg
      have hset := half_set
      have hi := hinv g hg
      change ∫⁻ x in {x | (⟨0, ⊤⟩ : Domain).inside x}, density sc' x * iteration _ t' s x g
        = ∫⁻ x in {x | (⟨0, ⊤⟩ : Domain).inside x}, density sc' x * g x
      rw [hset] at hi ⊢
      rw [setLIntegral_congr_fun measurableSet_Ioi fun x hx => by rw [hs1 x hx, hit1 x hx g], hi]
      exact setLIntegral_congr_fun measurableSet_Ioi fun x hx => by rw [hs1 x hx])
  -- two points at which the ratio differs
  have hpt : ∀ a b : ℝ, 0 ≤ a → a < b → ∃ x ∈ Set.Ioo a b, density sc' x = c * density t' x := by
    intro a b ha hab
    by_contra hno
    push Not at hno
    have : volume.restrict (Set.Ioi (0 : ℝ)) (Set.Ioo a b) = 0 :=
      measure_mono_null (fun x hx => hno x hx) hc
    have hsub : Set.Ioo a b ∩ Set.Ioi (0 : ℝ) = Set.Ioo a b :=
      Set.inter_eq_left.mpr fun x hx => lt_of_le_of_lt ha hx.1
    rw [Measure.restrict_apply measurableSet_Ioo, hsub, Real.volume_Ioo, ENNReal.ofReal_eq_zero]
      at this
    linarith
  obtain ⟨x, hx, ex⟩ := hpt 0 1 le_rfl one_pos
  obtain ⟨y, hy, ey⟩ := hpt 1 2 zero_le_one (by norm_num)
  have hx0 : 0 < x := hx.1
  have hy0 : 0 < y := one_pos.trans hy.1
  have hxy : x < y := hx.2.trans hy.1
  have hd : ∀ u v : ℝ, ENNReal.ofReal (Real.exp u) * ENNReal.ofReal (Real.exp v)
      = ENNReal.ofReal (Real.exp (u + v)) := fun u v => by
    rw [Real.exp_add, ENNReal.ofReal_mul (Real.exp_pos _).le]
  have hcross : density sc' x * density t' y = density sc' y * density t' x := by
    rw [ex, ey]; ring
  unfold density at hcross
  rw [hd, hd, ENNReal.ofReal_eq_ofReal_iff (Real.exp_pos _).le (Real.exp_pos _).le,
    Real.exp_eq_exp] at hcross
  simp only [hsc', ht', hprior, normalTruncLogPrior, hzin x hx0, hzin y hy0] at hcross
  have hz2 := logZ_anti hx0 hxy.le h1 h2
  have hlog : Real.log y - Real.log x > (y - x) / 2 := by
    rw [← Real.log_div hy0.ne' hx0.ne']
    have hb := Real.log_lt_sub_one_of_pos (show 0 < x / y by positivity) (by
      intro he
      rw [div_eq_one_iff_eq hy0.ne'] at he
      exact absurd he hxy.ne)
    have e : Real.log (y / x) = -Real.log (x / y) := by
      rw [← Real.log_inv, inv_div]
    rw [e]
    have : 1 - x / y ≥ (y - x) / 2 := by
      rw [ge_iff_le, ← sub_nonneg]
      have : 1 - x / y - (y - x) / 2 = (y - x) * (2 - y) / (2 * y) := by field_simp
      rw [this]
      exact div_nonneg (mul_nonneg (by linarith) (by linarith [hy.2])) (by linarith)
    linarith
  have hNr : (0 : ℝ) ≤ S.N := by exact_mod_cast hN
  nlinarith [mul_nonneg hNr (sub_nonneg.mpr hz2)]

/-- The hypotheses of `C75_sigma_violated` are met by a component without data. -/
example : ∫⁻ x in Set.Ioi (0 : ℝ), density (fun sigma => (normalTrunc (-1) 2 (normalTruncLogZ (-1) 2)
      (normalTruncLogPrior 2 2 (-1) 2)).score ⟨0, sigma⟩ ⟨0, 0, 0⟩) x ≠ ⊤ := by
  have e : ∀ x, x ∈ Set.Ioi (0 : ℝ) → density (fun sigma => (normalTrunc (-1) 2 (normalTruncLogZ (-1) 2)
      (normalTruncLogPrior 2 2 (-1) 2)).score ⟨0, sigma⟩ ⟨0, 0, 0⟩) x = gammaPDF 2 (1 / 2) x := by
    intro x hx
    have hx : 0 < x := hx
    unfold density gammaPDF
    rw [gammaPDFReal_exp two_pos (by norm_num) hx]
    congr 2
    simp only [normalTrunc, normalTruncLoglik, normalTruncLogPrior]
    unfold gammaln
    have : Real.log (-1 + 2 : ℝ) = 0 := by norm_num
    have h2 : Real.log (1 / 2 : ℝ) = -Real.log 2 := by rw [one_div, Real.log_inv]
    rw [this, h2]
    push_cast
    ring
  rw [setLIntegral_congr_fun measurableSet_Ioi e]
  refine ne_top_of_le_ne_top (b := 1) ENNReal.one_ne_top ?_
  rw [← lintegral_gammaPDF_eq_one (a := 2) (r := 1 / 2) two_pos (by norm_num)]
  exact setLIntegral_le_lintegral _ _

/-- **C75.** From parameters in range, `Beta.transition_params` with probability one raises nothing and
ends, with both parameters in range. -/
theorem C75_beta_transition (S : BetaS) {p : BetaP} (hs : 0 < p.strength) (hb0 : 0 < p.balance)
    (hb1 : p.balance < 1) {n : ℕ} (hn : 100 < n) :
    Surely (fun _ => False)
      (fun o => ∃ q : BetaP, o = some q ∧ 0 < q.strength ∧ 0 < q.balance ∧ q.balance < 1)
      (betaTransitionDraws S n p) := by
  unfold betaTransitionDraws
  refine firstDraw_surely (P := fun y => 0 < y) (R := jumpErrors ⟨0, ⊤⟩)
    (fun e h => h.2.2 ⟨le_rfl, rfl⟩) ?_ fun y hy => ?_
  · refine (sample_surely (A := betaStrengthArgs S p.balance) (fun _ => rfl) (fun x hx => ?_) rfl rfl hn
      ((inside_half _).mpr hs) (by norm_num)).mono (fun _ h => h) fun o ho => ?_
    · change ∃ v, betaTarget S x p.balance = _
      unfold betaTarget
      rw [if_neg (not_not.mpr ⟨(inside_half x).mp hx, hb0, hb1⟩)]
      exact ⟨_, rfl⟩
    · obtain ⟨y, hy, rfl⟩ := ho
      exact ⟨y, (inside_half y).mp hy, rfl⟩
  · refine firstDraw_surely (P := fun z => 0 < z ∧ z < 1) (R := jumpErrors ⟨0, 1⟩)
      (fun e h => h.2.1 ⟨rfl, rfl⟩) ?_ fun z hz => ⟨⟨y, z⟩, rfl, hy, hz⟩
    refine (sample_surely (A := betaBalanceArgs S y) (fun _ => rfl) (fun x hx => ?_) rfl rfl hn
      ((inside_unit _).mpr ⟨hb0, hb1⟩) (by norm_num)).mono (fun _ h => h) fun o ho => ?_
    · have hx' := (inside_unit x).mp hx
      change ∃ v, betaTarget S y x = _
      unfold betaTarget
      rw [if_neg (not_not.mpr ⟨hy, hx'.1, hx'.2⟩)]
      exact ⟨_, rfl⟩
    · obtain ⟨w, hw, rfl⟩ := ho
      exact ⟨w, (inside_unit w).mp hw, rfl⟩

/-- **C75.** From parameters in range, `NormalTrunc.transition_params` with probability one ends with
both parameters in range, or finds no point of the interval and raises RuntimeError. -/
theorem C75_normal_trunc_transition (S : NormalS) {l h : ℝ} {p : NormalTruncP} (hl : l < p.mu)
    (hh : p.mu < h) (hs : 0 < p.sigma) {n : ℕ} (hn : 100 < n) :
    Surely (fun e => e = .runtime)
      (fun o => ∃ q : NormalTruncP, o = some q ∧ l < q.mu ∧ q.mu < h ∧ 0 < q.sigma)
      (normalTruncTransitionDraws S l h n p) := by
  have hin : ∀ x : ℝ, (⟨(l : EReal), (h : EReal)⟩ : Domain).inside x ↔ l < x ∧ x < h := fun x => by
    unfold Domain.inside
    rw [EReal.coe_lt_coe_iff, EReal.coe_lt_coe_iff]
  unfold normalTruncTransitionDraws
  refine firstDraw_surely (P := fun y => l < y ∧ y < h) (R := jumpErrors ⟨(l : EReal), (h : EReal)⟩)
    (fun e h => h.1) ?_ fun y hy => ?_
  · refine (sample_surely (A := normalTruncMuArgs S l h p.sigma)
      (fun hd => absurd hd.2 (EReal.coe_ne_top h)) (fun x hx => ⟨_, rfl⟩) rfl rfl hn
      ((hin _).mpr ⟨hl, hh⟩) (by norm_num)).mono (fun _ h => h) fun o ho => ?_
    obtain ⟨y, hy, rfl⟩ := ho
    exact ⟨y, (hin y).mp hy, rfl⟩
  · refine firstDraw_surely (P := fun z => 0 < z) (R := jumpErrors ⟨0, ⊤⟩)
      (fun e h => h.1) ?_ fun z hz => ⟨⟨y, z⟩, rfl, hy.1, hy.2, hz⟩
    refine (sample_surely (A := normalTruncSigmaArgs S l h y) (fun _ => rfl) (fun x hx => ⟨_, rfl⟩) rfl rfl
      hn ((inside_half _).mpr hs) (by norm_num)).mono (fun _ h => h) fun o ho => ?_
    obtain ⟨w, hw, rfl⟩ := ho
    exact ⟨w, (inside_half w).mp hw, rfl⟩

example : (0 : ℝ) < (⟨2, 1 / 3⟩ : BetaP).strength ∧ (0 : ℝ) < (⟨2, 1 / 3⟩ : BetaP).balance ∧
    (⟨2, 1 / 3⟩ : BetaP).balance < 1 := by norm_num

end Cgpm.Props
