import Verif.Spec.MutualDraws
import Verif.Lemmas.StateDraws
import Mathlib.Probability.Moments.Variance

/-! Lemmas for C80: means of independent draws. -/
namespace Cgpm.Props
open Cgpm MeasureTheory ProbabilityTheory
open scoped ENNReal

theorem E_mono_always {α : Type} {Q : α → Prop} {m : Cgpm.Draws α} (h : m.Always Q)
    {f g : α → ℝ≥0∞} (hfg : ∀ a, Q a → f a ≤ g a) : m.E f ≤ m.E g := by
  induction m with
  | pure a => exact hfg a h
  | raise e => exact le_refl _
  | draw law k ih =>
    simp only [Draws.E]
    exact lintegral_mono fun x => ih x (h x)

/-- A program that returns the mean of `h` over the rows of a batch, except for bad rows. -/
theorem estimates_of {X : Type} [MeasurableSpace X] {α : Type} {ν : Measure X}
    [IsProbabilityMeasure ν] {φ : α → X} {N : Nat} {m : Draws (List α)} {f : List α → Except Exn Fl}
    {Q : List α → Prop} {h : X → ℝ} {G : Set X} (hiid : IidUpToOrder N ν φ m) (hQ : m.Always Q)
    (hh : Measurable h) (hG : MeasurableSet G) (hnull : ∀ᵐ x ∂ν, x ∈ G)
    (hf : ∀ l, Q l → (∀ a ∈ l, φ a ∈ G) → f l = .ok (.fin (((l.map φ).map h).sum / N))) :
    Estimates ν h N (m.bind fun l => Draws.ofExcept (f l)) := by
  classical
  intro g hg
  rw [Draws.E_bind]
  let F : ℝ≥0∞ → List X → ℝ≥0∞ := fun c l =>
    if ∀ x ∈ l, x ∈ G then g ((l.map h).sum / N) else c
  have hF : ∀ c, ∫⁻ x : Fin N → X, F c (List.ofFn x) ∂Measure.pi (fun _ => ν)
      = ∫⁻ x : Fin N → X, g ((∑ i, h (x i)) / N) ∂Measure.pi fun _ => ν := by
    intro c
    refine lintegral_congr_ae ?_
    have : ∀ i : Fin N, ∀ᵐ x ∂Measure.pi (fun _ : Fin N => ν), x i ∈ G := fun i =>
      (Measure.quasiMeasurePreserving_eval (μ := fun _ : Fin N => ν) i).ae hnull
    filter_upwards [ae_all_iff.mpr this] with x hx
    simp only [F]
    rw [if_pos, List.map_ofFn, List.sum_ofFn]
    · rfl
    · intro y hy
      obtain ⟨i, rfl⟩ := List.mem_ofFn.mp hy
      exact hx i
  have hE : ∀ c, m.E (fun l => F c (l.map φ))
      = ∫⁻ x : Fin N → X, g ((∑ i, h (x i)) / N) ∂Measure.pi fun _ => ν := by
    intro c
    rw [← hF c]
    refine hiid (F c) (fun l l' hp => ?_) ?_
    · simp only [F]
      have h1 : (∀ x ∈ l, x ∈ G) ↔ ∀ x ∈ l', x ∈ G :=
        ⟨fun h x hx => h x (hp.mem_iff.mpr hx), fun h x hx => h x (hp.mem_iff.mp hx)⟩
      rw [(hp.map h).sum_eq, if_congr h1 rfl rfl]
    · simp only [F]
      refine Measurable.ite ?_ ?_ measurable_const
      · have : {x : Fin N → X | ∀ y ∈ List.ofFn x, y ∈ G} = ⋂ i, (fun x => x i) ⁻¹' G := by
          ext x
          simp [List.mem_ofFn]
        rw [this]
        exact MeasurableSet.iInter fun i => measurable_pi_apply i hG
      · refine hg.comp ?_
        simp only [List.map_ofFn, List.sum_ofFn]
        exact (Finset.measurable_sum _ fun i _ => hh.comp (measurable_pi_apply i)).div_const _
  refine le_antisymm ?_ ?_
  · rw [← hE ⊤]
    refine E_mono_always hQ fun l hl => ?_
    simp only [F]
    by_cases hb : ∀ a ∈ l, φ a ∈ G
    · rw [hf l hl hb, if_pos (by simpa using hb)]
      exact le_refl _
    · rw [if_neg (by simpa using hb)]
      exact le_top
  · rw [← hE 0]
    refine E_mono_always hQ fun l hl => ?_
    simp only [F]
    by_cases hb : ∀ a ∈ l, φ a ∈ G
    · rw [hf l hl hb, if_pos (by simpa using hb)]
      exact le_refl _
    · rw [if_neg (by simpa using hb)]
      exact zero_le

/-- Chebyshev's inequality for the mean of independent draws. -/
theorem estimates_error {X : Type} [MeasurableSpace X] {ν : Measure X} [IsProbabilityMeasure ν]
    {h : X → ℝ} {N : Nat} (hN : 0 < N) {m : Draws Fl} (hm : Estimates ν h N m) (hL : MemLp h 2 ν)
    {ε : ℝ} (hε : 0 < ε) :
    farFrom (∫ x, h x ∂ν) ε m ≤ ENNReal.ofReal (Var[h; ν] / (N * ε ^ 2)) := by
  have hN' : (0 : ℝ) < N := by exact_mod_cast hN
  have hS : MeasurableSet {y : ℝ | ε ≤ |y - ∫ x, h x ∂ν|} := by
    apply measurableSet_le measurable_const
    exact (measurable_id.sub_const _).abs
  unfold farFrom
  rw [hm _ (measurable_one.indicator hS)]
  have hL' : ∀ i : Fin N, MemLp (fun x : Fin N → X => h (x i)) 2 (Measure.pi fun _ => ν) := fun i =>
    hL.comp_measurePreserving (measurePreserving_eval (fun _ : Fin N => ν) i)
  let Y : (Fin N → X) → ℝ := ∑ i, fun x => h (x i)
  have hY : MemLp Y 2 (Measure.pi fun _ : Fin N => ν) := by
    exact memLp_finsetSum' _ fun i _ => hL' i
  have hmean : ∫ x, Y x ∂Measure.pi (fun _ : Fin N => ν) = N * ∫ x, h x ∂ν := by
    have : ∀ i : Fin N, ∫ x : Fin N → X, h (x i) ∂Measure.pi (fun _ => ν) = ∫ x, h x ∂ν := by
      intro i
      have hmp := measurePreserving_eval (fun _ : Fin N => ν) i
      have := integral_map (μ := Measure.pi fun _ : Fin N => ν) (φ := Function.eval i)
        hmp.measurable.aemeasurable (f := h) (by rw [hmp.map_eq]; exact hL.1)
      rw [hmp.map_eq] at this
      exact this.symm
    simp only [Y, Finset.sum_apply]
    rw [integral_finsetSum _ fun i _ => (hL' i).integrable one_le_two]
    simp [this]
  have hvar : Var[Y; Measure.pi fun _ : Fin N => ν] = N * Var[h; ν] := by
    rw [variance_sum_pi (X := fun _ : Fin N => h) fun _ => hL]
    simp
  have hc := meas_ge_le_variance_div_sq hY (c := N * ε) (by positivity)
  rw [hmean, hvar] at hc
  refine le_trans (le_of_eq ?_) (hc.trans (ENNReal.ofReal_le_ofReal (le_of_eq ?_)))
  · rw [← lintegral_indicator_one₀]
    · refine lintegral_congr fun x => ?_
      simp only [Set.indicator, Set.mem_setOf_eq, Y, Finset.sum_apply, Pi.one_apply]
      have : N * ε ≤ |∑ i, h (x i) - N * ∫ x, h x ∂ν| ↔
          ε ≤ |(∑ i, h (x i)) / N - ∫ x, h x ∂ν| := by
        have e : (∑ i, h (x i)) / N - ∫ x, h x ∂ν = (∑ i, h (x i) - N * ∫ x, h x ∂ν) / N := by
          field_simp
        rw [e, abs_div, abs_of_pos hN', le_div_iff₀ hN', mul_comm]
      simp only [this]
    · exact nullMeasurableSet_le aemeasurable_const
        (hY.1.aemeasurable.sub_const _).abs
  · field_simp

theorem log_sq_le {t : ℝ} (ht : 1 ≤ t) : Real.log t ^ 2 ≤ 4 * t := by
  have h0 : 0 < t := by linarith
  have h1 : Real.log t = 2 * Real.log (Real.sqrt t) := by
    rw [Real.log_sqrt h0.le]; ring
  have h2 := Real.log_le_sub_one_of_pos (Real.sqrt_pos.mpr h0)
  have h3 : 0 ≤ Real.log t := Real.log_nonneg ht
  have h4 : Real.log t ≤ 2 * Real.sqrt t := by linarith
  calc Real.log t ^ 2 ≤ (2 * Real.sqrt t) ^ 2 := by gcongr
    _ = 4 * t := by rw [mul_pow, Real.sq_sqrt h0.le]; norm_num

/-- The logarithm of the ratio of a density to the product of two others: if the ratio is bounded,
the logarithm has a second moment and its mean is not negative. -/
theorem log_ratio {X : Type} [MeasurableSpace X] {ν : Measure X} [IsProbabilityMeasure ν]
    {p p0 p1 : X → ℝ≥0∞} (hm : Measurable p) (hm0 : Measurable p0) (hm1 : Measurable p1)
    (ht : ∀ x, p x ≠ ⊤) (ht0 : ∀ x, p0 x ≠ ⊤) (ht1 : ∀ x, p1 x ≠ ⊤) {B : ℝ} (hB : 0 < B)
    (hle : ∀ x, p x ≤ ENNReal.ofReal B * (p0 x * p1 x)) (hnz : ∀ᵐ x ∂ν, p x ≠ 0)
    (hint : ∫⁻ x, p0 x * p1 x / p x ∂ν ≤ 1) :
    MemLp (fun x => Real.log (p x).toReal - Real.log (p0 x).toReal - Real.log (p1 x).toReal) 2 ν ∧
      0 ≤ ∫ x, (Real.log (p x).toReal - Real.log (p0 x).toReal - Real.log (p1 x).toReal) ∂ν := by
  set h : X → ℝ := fun x =>
    Real.log (p x).toReal - Real.log (p0 x).toReal - Real.log (p1 x).toReal with hh
  have hmh : Measurable h := (hm.ennreal_toReal.log.sub hm0.ennreal_toReal.log).sub
    hm1.ennreal_toReal.log
  let t : X → ℝ≥0∞ := fun x => p0 x * p1 x / p x
  have hmt : Measurable t := (hm0.mul hm1).div hm
  have htt : ∫⁻ x, t x ∂ν ≠ ⊤ := ne_top_of_le_ne_top ENNReal.one_ne_top hint
  have hti : Integrable (fun x => (t x).toReal) ν :=
    integrable_toReal_of_lintegral_ne_top hmt.aemeasurable htt
  have key : ∀ᵐ x ∂ν, 0 < (t x).toReal ∧ h x = - Real.log (t x).toReal ∧ h x ≤ Real.log B := by
    filter_upwards [hnz] with x hx
    have h01 : p0 x * p1 x ≠ 0 := by
      intro h0
      have := hle x
      rw [h0, mul_zero] at this
      exact hx (le_antisymm this zero_le)
    obtain ⟨h0, h1⟩ := mul_ne_zero_iff.mp h01
    have hP := ENNReal.toReal_pos hx (ht x)
    have hP0 := ENNReal.toReal_pos h0 (ht0 x)
    have hP1 := ENNReal.toReal_pos h1 (ht1 x)
    have htr : (t x).toReal = (p0 x).toReal * (p1 x).toReal / (p x).toReal := by
      simp only [t, ENNReal.toReal_div, ENNReal.toReal_mul]
    have e1 : h x = - Real.log (t x).toReal := by
      rw [htr, Real.log_div (mul_pos hP0 hP1).ne' hP.ne', Real.log_mul hP0.ne' hP1.ne']
      simp only [hh]
      ring
    refine ⟨by rw [htr]; positivity, e1, ?_⟩
    have hr : (p x).toReal ≤ B * ((p0 x).toReal * (p1 x).toReal) := by
      have := ENNReal.toReal_mono (ENNReal.mul_ne_top ENNReal.ofReal_ne_top
        (ENNReal.mul_ne_top (ht0 x) (ht1 x))) (hle x)
      rwa [ENNReal.toReal_mul, ENNReal.toReal_mul, ENNReal.toReal_ofReal hB.le] at this
    have : h x = Real.log ((p x).toReal / ((p0 x).toReal * (p1 x).toReal)) := by
      rw [Real.log_div hP.ne' (mul_pos hP0 hP1).ne', Real.log_mul hP0.ne' hP1.ne']
      simp only [hh]
      ring
    rw [this]
    exact Real.log_le_log (by positivity) ((div_le_iff₀ (mul_pos hP0 hP1)).mpr hr)
  have hsq : ∀ᵐ x ∂ν, ‖h x ^ 2‖ ≤ Real.log B ^ 2 + 4 * (t x).toReal := by
    filter_upwards [key] with x ⟨k1, k2, k3⟩
    rw [Real.norm_of_nonneg (sq_nonneg _)]
    by_cases hs : 0 ≤ h x
    · have : h x ^ 2 ≤ Real.log B ^ 2 := by gcongr
      linarith
    · have h1 : 1 ≤ (t x).toReal := by
        by_contra hc
        have := Real.log_nonpos k1.le (le_of_not_ge hc)
        rw [k2] at hs
        exact hs (by linarith)
      have := log_sq_le h1
      rw [k2, neg_sq]
      nlinarith [sq_nonneg (Real.log B)]
  have hI2 : Integrable (fun x => h x ^ 2) ν :=
    Integrable.mono' ((integrable_const _).add (hti.const_mul 4)) (hmh.pow_const 2).aestronglyMeasurable
      hsq
  have hL : MemLp h 2 ν := (memLp_two_iff_integrable_sq hmh.aestronglyMeasurable).mpr hI2
  refine ⟨hL, ?_⟩
  have hI := hL.integrable one_le_two
  have hle1 : ∫ x, (1 - (t x).toReal) ∂ν ≤ ∫ x, h x ∂ν := by
    refine integral_mono_ae ((integrable_const _).sub hti) hI ?_
    filter_upwards [key] with x ⟨k1, k2, k3⟩
    rw [k2]
    have := Real.log_le_sub_one_of_pos k1
    linarith
  refine le_trans ?_ hle1
  rw [integral_sub (integrable_const _) hti, integral_toReal hmt.aemeasurable
    (ae_lt_top hmt htt)]
  have : (∫⁻ x, t x ∂ν).toReal ≤ 1 := by
    have := ENNReal.toReal_mono ENNReal.one_ne_top hint
    simpa using this
  simp
  exact this

/-- The law of the number that a program returns. -/
def NumLaw (μ : Measure ℝ) (m : Draws Fl) : Prop :=
  ∀ g : ℝ → ℝ≥0∞, Measurable g → m.E (onNumber g) = ∫⁻ a, g a ∂μ

/-- The law of a sum of the answers of programs, and how far it can be off. -/
theorem sum_law {β : Type} (f : β → Draws Fl) (l : List β) (I : β → ℝ) (μ : β → Measure ℝ)
    (hp : ∀ b ∈ l, IsProbabilityMeasure (μ b)) (h : ∀ b ∈ l, NumLaw (μ b) (f b)) :
    ∃ ρ : Measure ℝ, IsProbabilityMeasure ρ ∧
      (∀ g : ℝ → ℝ≥0∞, Measurable g → ∀ a, (Draws.each f l).E
        (fun ys => onNumber g (ys.foldl Fl.add (.fin a))) = ∫⁻ t, g (a + t) ∂ρ) ∧
      ∀ δ, ρ {t | l.length * δ < |t - (l.map I).sum|}
        ≤ (l.map fun b => μ b {a | δ ≤ |a - I b|}).sum := by
  induction l with
  | nil =>
    refine ⟨Measure.dirac 0, inferInstance, fun g hg a => ?_, fun δ => ?_⟩
    · have hga : Measurable fun t => g (a + t) := hg.comp (measurable_const_add a)
      rw [lintegral_dirac' _ hga, add_zero]
      rfl
    · simp
  | cons b t ih =>
    obtain ⟨ρ, hρ, h1, h2⟩ := ih (fun b' hb => hp b' (List.mem_cons_of_mem _ hb))
      fun b' hb => h b' (List.mem_cons_of_mem _ hb)
    have := hp b List.mem_cons_self
    have hadd : Measurable fun q : ℝ × ℝ => q.1 + q.2 := measurable_fst.add measurable_snd
    refine ⟨((μ b).prod ρ).map fun q => q.1 + q.2, Measure.isProbabilityMeasure_map hadd.aemeasurable,
      fun g hg a => ?_, fun δ => ?_⟩
    · unfold Draws.each
      rw [Draws.E_bind]
      have hbad : ∀ (y : Fl), (∀ x, y ≠ .fin x) → ∀ ys : List Fl, ∀ x,
          ys.foldl Fl.add (Fl.add (.fin a) y) ≠ .fin x := by
        intro y hy ys
        have : ∀ z : Fl, (∀ x, z ≠ .fin x) → ∀ x, ys.foldl Fl.add z ≠ .fin x := by
          induction ys with
          | nil => exact fun z hz => hz
          | cons w ws ih =>
            intro z hz
            refine ih _ fun x => ?_
            cases z <;> cases w <;> simp_all [Fl.add]
        refine this _ fun x => ?_
        cases y <;> simp_all [Fl.add]
      have hin : (fun y => ((Draws.each f t).bind fun ys => Draws.pure (y :: ys)).E
          fun ys => onNumber g (ys.foldl Fl.add (.fin a)))
          = onNumber fun x => ∫⁻ r, g (a + x + r) ∂ρ := by
        funext y
        rw [Draws.E_bind]
        by_cases hy : ∃ x, y = .fin x
        · obtain ⟨x, rfl⟩ := hy
          exact h1 g hg (a + x)
        · have hz : (fun ys : List Fl => (Draws.pure (y :: ys)).E
              fun ys => onNumber g (ys.foldl Fl.add (.fin a))) = fun _ => 0 := by
            funext ys
            show onNumber g (ys.foldl Fl.add (Fl.add (.fin a) y)) = 0
            have := hbad y (fun x hx => hy ⟨x, hx⟩) ys
            generalize ys.foldl Fl.add (Fl.add (.fin a) y) = w at this
            cases w with
            | fin x => exact absurd rfl (this x)
            | _ => rfl
          rw [hz]
          have h0 : ∀ m : Draws (List Fl), m.E (fun _ => 0) = 0 := by
            intro m
            induction m with
            | pure a => rfl
            | raise e => rfl
            | draw law k ih => simp only [Draws.E, ih, lintegral_zero]
          rw [h0]
          cases y with
          | fin x => exact absurd ⟨x, rfl⟩ hy
          | _ => rfl
      have hm2 : Measurable fun q : ℝ × ℝ => g (a + q.1 + q.2) :=
        hg.comp ((measurable_fst.const_add a).add measurable_snd)
      have hga : Measurable fun t => g (a + t) := hg.comp (measurable_const_add a)
      have hgq : Measurable fun q : ℝ × ℝ => g (a + (q.1 + q.2)) := hga.comp hadd
      rw [hin, h b List.mem_cons_self _ hm2.lintegral_prod_right', lintegral_map hga hadd,
        lintegral_prod _ hgq.aemeasurable]
      simp only [add_assoc]
    · have hS : MeasurableSet {r : ℝ | ((b :: t).length : ℝ) * δ < |r - ((b :: t).map I).sum|} :=
        measurableSet_lt measurable_const (measurable_id.sub_const _).abs
      rw [Measure.map_apply hadd hS]
      have hsub : (fun q : ℝ × ℝ => q.1 + q.2) ⁻¹'
          {r : ℝ | ((b :: t).length : ℝ) * δ < |r - ((b :: t).map I).sum|} ⊆
          ({a | δ ≤ |a - I b|} ×ˢ Set.univ) ∪
            (Set.univ ×ˢ {r | (t.length : ℝ) * δ < |r - (t.map I).sum|}) := by
        rintro ⟨x, r⟩ hq
        simp only [Set.mem_preimage, Set.mem_setOf_eq, List.length_cons, List.map_cons, List.sum_cons]
          at hq
        push_cast at hq
        by_contra hn
        simp only [Set.mem_union, Set.mem_prod, Set.mem_setOf_eq, Set.mem_univ, and_true, true_and,
          not_or, not_le, not_lt] at hn
        have : |x + r - (I b + (t.map I).sum)| ≤ |x - I b| + |r - (t.map I).sum| := by
          have := abs_add_le (x - I b) (r - (t.map I).sum)
          rwa [show x - I b + (r - (t.map I).sum) = x + r - (I b + (t.map I).sum) by ring] at this
        linarith [hn.1, hn.2]
      refine (measure_mono hsub).trans ((measure_union_le _ _).trans ?_)
      rw [Measure.prod_prod, Measure.prod_prod, measure_univ, measure_univ, mul_one, one_mul,
        List.map_cons, List.sum_cons]
      exact add_le_add (le_refl _) (h2 δ)

end Cgpm.Props
