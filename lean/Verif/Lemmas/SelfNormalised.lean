import Mathlib.Probability.Moments.Variance

/-! Means of independent draws, and ratios of such means. -/
namespace Cgpm
open MeasureTheory ProbabilityTheory
variable {X : Type} [MeasurableSpace X] {Q : Measure X} [IsProbabilityMeasure Q]

theorem pi_eval_memLp {f : X → ℝ} (hf : MemLp f 2 Q) {n : ℕ} (i : Fin n) :
    MemLp (fun z : Fin n → X => f (z i)) 2 (Measure.pi fun _ : Fin n => Q) :=
  hf.comp_measurePreserving (measurePreserving_eval (fun _ : Fin n => Q) i)

theorem pi_mean_memLp {f : X → ℝ} (hf : MemLp f 2 Q) (n : ℕ) :
    MemLp (fun z : Fin n → X => (∑ i, f (z i)) / n) 2 (Measure.pi fun _ : Fin n => Q) := by
  simp only [div_eq_mul_inv]
  exact (memLp_finsetSum _ fun i _ => pi_eval_memLp hf i).mul_const _

theorem pi_mean_integral {f : X → ℝ} (hf : MemLp f 2 Q) {n : ℕ} (hn : n ≠ 0) :
    ∫ z : Fin n → X, (∑ i, f (z i)) / n ∂(Measure.pi fun _ : Fin n => Q) = ∫ y, f y ∂Q := by
  rw [integral_div, integral_finset_sum _ fun i _ => (pi_eval_memLp hf i).integrable one_le_two]
  have : ∀ i : Fin n, ∫ z : Fin n → X, f (z i) ∂(Measure.pi fun _ : Fin n => Q) = ∫ y, f y ∂Q := by
    intro i
    exact integral_comp_eval (μ := fun _ : Fin n => Q) (i := i) hf.aestronglyMeasurable
  simp only [this, Finset.sum_const, Finset.card_univ, Fintype.card_fin, nsmul_eq_mul]
  have : (n : ℝ) ≠ 0 := by exact_mod_cast hn
  field_simp

theorem integral_abs_le_sqrt {Y : X → ℝ} (hY : MemLp Y 2 Q) :
    ∫ y, |Y y| ∂Q ≤ Real.sqrt (∫ y, Y y ^ 2 ∂Q) := by
  have h := variance_nonneg (fun y => |Y y|) Q
  have hA : MemLp (fun y => |Y y|) 2 Q := hY.abs
  rw [variance_eq_sub hA] at h
  refine Real.le_sqrt_of_sq_le ?_
  have e : (fun y => |Y y|) ^ 2 = fun y => Y y ^ 2 := by
    funext y; simp
  rw [e] at h
  linarith

/-- The mean of `n` independent draws is within the root of the mean square over `n`. -/
theorem mean_deviation {f : X → ℝ} (hf : MemLp f 2 Q) {n : ℕ} (hn : n ≠ 0) :
    ∫ z : Fin n → X, |(∑ i, f (z i)) / n - ∫ y, f y ∂Q| ∂(Measure.pi fun _ : Fin n => Q)
      ≤ Real.sqrt ((∫ y, f y ^ 2 ∂Q) / n) := by
  have hm := pi_mean_memLp hf n
  have hs : MemLp (fun z : Fin n → X => (∑ i, f (z i)) / n - ∫ y, f y ∂Q) 2
      (Measure.pi fun _ : Fin n => Q) := hm.sub (memLp_const (∫ y, f y ∂Q))
  refine (integral_abs_le_sqrt hs).trans (Real.sqrt_le_sqrt ?_)
  have hv := variance_eq_integral hm.aestronglyMeasurable.aemeasurable
  rw [pi_mean_integral hf hn] at hv
  rw [← hv]
  have h1 : (fun z : Fin n → X => (∑ i, f (z i)) / n) = fun z => (∑ i, (fun z : Fin n → X => f (z i))) z * (n : ℝ)⁻¹ := by
    funext z; rw [Finset.sum_apply, div_eq_mul_inv]
  have h2 : Var[∑ i, fun z : Fin n → X => f (z i); Measure.pi fun _ : Fin n => Q]
      = ∑ _i : Fin n, Var[f; Q] := variance_sum_pi (X := fun _ : Fin n => f) fun _ => hf
  rw [h1, variance_mul_const, h2]
  simp only [Finset.sum_const, Finset.card_univ, Fintype.card_fin, nsmul_eq_mul]
  have h3 := variance_le_expectation_sq (μ := Q) (X := f) hf.aestronglyMeasurable
  have hn' : (0 : ℝ) < n := by exact_mod_cast Nat.pos_of_ne_zero hn
  have e2 : (f ^ 2) = fun y => f y ^ 2 := rfl
  rw [e2] at h3
  rw [div_eq_mul_inv]
  have : (n : ℝ) * Var[f; Q] * (n : ℝ)⁻¹ ^ 2 = Var[f; Q] * (n : ℝ)⁻¹ := by field_simp
  rw [this]
  exact mul_le_mul_of_nonneg_right h3 (inv_nonneg.mpr hn'.le)

theorem ratio_close {A B a b : ℝ} (hA : 0 ≤ A) (hAB : A ≤ B) (ha : 0 ≤ a) (hb : 0 < b) :
    |A / B - a / b| ≤ (|A - a| + |B - b|) / b := by
  rcases (hA.trans hAB).eq_or_lt with h0 | h0
  · have hA0 : A = 0 := le_antisymm (h0 ▸ hAB) hA
    rw [← h0, hA0, div_zero, zero_sub, abs_neg, abs_of_nonneg (div_nonneg ha hb.le), zero_sub,
      zero_sub, abs_neg, abs_neg, abs_of_nonneg ha, abs_of_pos hb]
    gcongr
    linarith
  · have e : A / B - a / b = (A / B) * ((b - B) / b) + (A - a) / b := by
      field_simp
      ring
    rw [e]
    refine (abs_add_le _ _).trans ?_
    rw [abs_mul, abs_div, abs_div, abs_div, abs_of_pos hb, abs_of_pos h0, abs_of_nonneg hA, abs_sub_comm b B,
      add_div, add_comm (|A - a| / b)]
    have : A / B * (|B - b| / b) ≤ 1 * (|B - b| / b) :=
      mul_le_mul_of_nonneg_right ((div_le_one h0).mpr hAB) (by positivity)
    linarith

/-- Self-normalised importance sampling: the ratio of the two means of `n` draws is, in expectation,
within `2 √(E w² / n) / E w` of the ratio of the expectations. -/
theorem self_normalised {w h : X → ℝ} (hw0 : ∀ y, 0 ≤ w y) (hh0 : ∀ y, 0 ≤ h y) (hh1 : ∀ y, h y ≤ 1)
    (hh : Measurable h) (hw : MemLp w 2 Q) (hb : 0 < ∫ y, w y ∂Q) {n : ℕ} (hn : n ≠ 0) :
    |∫ z : Fin n → X, (∑ i, w (z i) * h (z i)) / ∑ i, w (z i) ∂(Measure.pi fun _ : Fin n => Q)
        - (∫ y, w y * h y ∂Q) / ∫ y, w y ∂Q|
      ≤ 2 * Real.sqrt ((∫ y, w y ^ 2 ∂Q) / n) / ∫ y, w y ∂Q := by
  have hwh : MemLp (fun y => w y * h y) 2 Q := by
    refine hw.mono (hw.aestronglyMeasurable.mul hh.aestronglyMeasurable)
      (Filter.Eventually.of_forall fun y => ?_)
    rw [Real.norm_eq_abs, Real.norm_eq_abs, abs_mul, abs_of_nonneg (hh0 y)]
    exact mul_le_of_le_one_right (abs_nonneg _) (hh1 y)
  have hn' : (0 : ℝ) < n := by exact_mod_cast Nat.pos_of_ne_zero hn
  set P := Measure.pi fun _ : Fin n => Q
  set b := ∫ y, w y ∂Q
  set a := ∫ y, w y * h y ∂Q
  have hle : ∀ y, w y * h y ≤ w y := fun y => mul_le_of_le_one_right (hw0 y) (hh1 y)
  have ha0 : 0 ≤ a := integral_nonneg fun y => mul_nonneg (hw0 y) (hh0 y)
  have hmA := pi_mean_memLp hwh n
  have hmB := pi_mean_memLp hw n
  have iA : Integrable (fun z : Fin n → X => |(∑ i, w (z i) * h (z i)) / n - a|) P :=
    ((hmA.integrable one_le_two).sub (integrable_const a)).abs
  have iB : Integrable (fun z : Fin n → X => |(∑ i, w (z i)) / n - b|) P :=
    ((hmB.integrable one_le_two).sub (integrable_const b)).abs
  have hR : ∀ z : Fin n → X, (∑ i, w (z i) * h (z i)) / ∑ i, w (z i)
      = ((∑ i, w (z i) * h (z i)) / n) / ((∑ i, w (z i)) / n) := by
    intro z
    rw [div_div_div_cancel_right₀ hn'.ne']
  have hpt : ∀ z : Fin n → X, |(∑ i, w (z i) * h (z i)) / (∑ i, w (z i)) - a / b|
      ≤ (|(∑ i, w (z i) * h (z i)) / n - a| + |(∑ i, w (z i)) / n - b|) / b := by
    intro z
    rw [hR]
    refine ratio_close ?_ ?_ ha0 hb
    · exact div_nonneg (Finset.sum_nonneg fun i _ => mul_nonneg (hw0 _) (hh0 _)) hn'.le
    · gcongr with i
      exact hle _
  have iR : Integrable (fun z : Fin n → X => (∑ i, w (z i) * h (z i)) / ∑ i, w (z i)) P := by
    refine Integrable.of_bound (C := 1) ?_ (Filter.Eventually.of_forall fun z => ?_)
    · have h1 := (memLp_finsetSum (Finset.univ : Finset (Fin n)) fun i _ =>
        pi_eval_memLp hwh i).aestronglyMeasurable
      have h2 := (memLp_finsetSum (Finset.univ : Finset (Fin n)) fun i _ =>
        pi_eval_memLp hw i).aestronglyMeasurable
      exact (h1.aemeasurable.div h2.aemeasurable).aestronglyMeasurable
    · have h1 : 0 ≤ ∑ i, w (z i) * h (z i) :=
        Finset.sum_nonneg fun i _ => mul_nonneg (hw0 _) (hh0 _)
      have h2 : ∑ i, w (z i) * h (z i) ≤ ∑ i, w (z i) := Finset.sum_le_sum fun i _ => hle _
      rw [Real.norm_eq_abs, abs_of_nonneg (div_nonneg h1 (h1.trans h2))]
      exact div_le_one_of_le₀ h2 (h1.trans h2)
  have h1 : ∫ z : Fin n → X, (∑ i, w (z i) * h (z i)) / ∑ i, w (z i) ∂P - a / b
      = ∫ z : Fin n → X, ((∑ i, w (z i) * h (z i)) / (∑ i, w (z i)) - a / b) ∂P := by
    rw [integral_sub iR (integrable_const _)]
    simp
  rw [h1]
  refine (abs_integral_le_integral_abs).trans ?_
  refine (integral_mono (iR.sub (integrable_const _)).abs ((iA.add iB).div_const b) hpt).trans ?_
  simp only [Pi.add_apply]
  rw [integral_div, integral_add iA iB]
  have dA := mean_deviation hwh hn
  have dB := mean_deviation hw hn
  have hsq : ∫ y, (w y * h y) ^ 2 ∂Q ≤ ∫ y, w y ^ 2 ∂Q := by
    refine integral_mono hwh.integrable_sq hw.integrable_sq fun y => ?_
    exact pow_le_pow_left₀ (mul_nonneg (hw0 y) (hh0 y)) (hle y) 2
  have hsr : Real.sqrt ((∫ y, (w y * h y) ^ 2 ∂Q) / n) ≤ Real.sqrt ((∫ y, w y ^ 2 ∂Q) / n) :=
    Real.sqrt_le_sqrt (div_le_div_of_nonneg_right hsq hn'.le)
  refine div_le_div_of_nonneg_right ?_ hb.le
  linarith

open scoped ENNReal

theorem memLp_toReal {W : X → ℝ≥0∞} (hW : Measurable W) (h2 : ∫⁻ y, W y * W y ∂Q ≠ ⊤) :
    (∀ᵐ y ∂Q, W y ≠ ⊤) ∧ MemLp (fun y => (W y).toReal) 2 Q ∧
      ∫ y, (W y).toReal ^ 2 ∂Q = (∫⁻ y, W y * W y ∂Q).toReal := by
  have hm2 : Measurable fun y => W y * W y := hW.mul hW
  have hfin : ∀ᵐ y ∂Q, W y * W y < ⊤ := ae_lt_top hm2 h2
  have hWt : ∀ᵐ y ∂Q, W y ≠ ⊤ := by
    filter_upwards [hfin] with y hy h
    rw [h] at hy
    simp at hy
  have e : ∀ y, (W y).toReal ^ 2 = (W y * W y).toReal := fun y => by
    rw [ENNReal.toReal_mul, sq]
  refine ⟨hWt, ?_, ?_⟩
  · refine (memLp_two_iff_integrable_sq hW.ennreal_toReal.aestronglyMeasurable).mpr ?_
    simp only [e]
    exact integrable_toReal_of_lintegral_ne_top hm2.aemeasurable h2
  · simp only [e]
    exact integral_toReal hm2.aemeasurable hfin

theorem pi_ae {P : X → Prop} (h : ∀ᵐ y ∂Q, P y) (n : ℕ) :
    ∀ᵐ z : Fin n → X ∂(Measure.pi fun _ : Fin n => Q), ∀ i, P (z i) :=
  ae_all_iff.mpr fun i => (measurePreserving_eval (fun _ : Fin n => Q) i).quasiMeasurePreserving.ae h

/-- The same for weights with values in `[0, ∞]`. -/
theorem self_normalised_lintegral {W g : X → ℝ≥0∞} (hW : Measurable W) (hg : Measurable g)
    (hg1 : ∀ y, g y ≤ 1) (hW0 : ∫⁻ y, W y ∂Q ≠ 0) (h2 : ∫⁻ y, W y * W y ∂Q ≠ ⊤) {n : ℕ}
    (hn : n ≠ 0) :
    |(∫⁻ z : Fin n → X, (∑ i, W (z i) * g (z i)) / ∑ i, W (z i)
          ∂(Measure.pi fun _ : Fin n => Q)).toReal
        - ((∫⁻ y, W y * g y ∂Q) / ∫⁻ y, W y ∂Q).toReal|
      ≤ 2 * Real.sqrt ((∫⁻ y, W y * W y ∂Q).toReal / n) / (∫⁻ y, W y ∂Q).toReal := by
  obtain ⟨hWt, hL, hsq⟩ := memLp_toReal hW h2
  have hgt : ∀ y, g y ≠ ⊤ := fun y => ((hg1 y).trans_lt ENNReal.one_lt_top).ne
  have hWi : ∫ y, (W y).toReal ∂Q = (∫⁻ y, W y ∂Q).toReal :=
    integral_toReal hW.aemeasurable (hWt.mono fun y hy => hy.lt_top)
  have hWf : ∫⁻ y, W y ∂Q ≠ ⊤ := by
    have := (hL.integrable one_le_two).2
    rw [HasFiniteIntegral] at this
    refine ne_top_of_le_ne_top this.ne (lintegral_mono_ae ?_)
    filter_upwards [hWt] with y hy
    rw [Real.enorm_eq_ofReal ENNReal.toReal_nonneg, ENNReal.ofReal_toReal hy]
  have hWgi : ∫ y, (W y).toReal * (g y).toReal ∂Q = (∫⁻ y, W y * g y ∂Q).toReal := by
    have hmg : Measurable fun y => W y * g y := hW.mul hg
    rw [← integral_toReal hmg.aemeasurable
      (hWt.mono fun y hy => ENNReal.mul_lt_top hy.lt_top (hgt y).lt_top)]
    simp only [ENNReal.toReal_mul]
  have hb : 0 < ∫ y, (W y).toReal ∂Q := by
    rw [hWi]
    exact ENNReal.toReal_pos hW0 hWf
  have key := self_normalised (Q := Q) (w := fun y => (W y).toReal) (h := fun y => (g y).toReal)
    (fun _ => ENNReal.toReal_nonneg) (fun _ => ENNReal.toReal_nonneg)
    (fun y => by simpa using (ENNReal.toReal_le_toReal (hgt y) ENNReal.one_ne_top).mpr (hg1 y))
    hg.ennreal_toReal hL hb hn
  rw [hWi, hWgi, hsq] at key
  rw [ENNReal.toReal_div]
  have hm : ∀ i : Fin n, Measurable fun z : Fin n → X => W (z i) := fun i =>
    hW.comp (measurable_pi_apply i)
  have hm' : ∀ i : Fin n, Measurable fun z : Fin n → X => W (z i) * g (z i) := fun i =>
    (hW.mul hg).comp (measurable_pi_apply i)
  have hI : (∫⁻ z : Fin n → X, (∑ i, W (z i) * g (z i)) / ∑ i, W (z i)
        ∂(Measure.pi fun _ : Fin n => Q)).toReal
      = ∫ z : Fin n → X, (∑ i, (W (z i)).toReal * (g (z i)).toReal) / ∑ i, (W (z i)).toReal
        ∂(Measure.pi fun _ : Fin n => Q) := by
    have hmr : Measurable fun z : Fin n → X => (∑ i, W (z i) * g (z i)) / ∑ i, W (z i) :=
      (Finset.measurable_fun_sum _ fun i _ => hm' i).div (Finset.measurable_fun_sum _ fun i _ => hm i)
    rw [← integral_toReal hmr.aemeasurable
      (Filter.Eventually.of_forall fun z => ?_)]
    · refine integral_congr_ae ?_
      filter_upwards [pi_ae hWt n] with z hz
      rw [ENNReal.toReal_div, ENNReal.toReal_sum fun i _ => ENNReal.mul_ne_top (hz i) (hgt _),
        ENNReal.toReal_sum fun i _ => hz i]
      simp only [ENNReal.toReal_mul]
    · refine lt_of_le_of_lt (b := 1) ?_ ENNReal.one_lt_top
      refine (ENNReal.div_le_div_right (Finset.sum_le_sum fun i _ => ?_) _).trans
        ENNReal.div_self_le_one
      exact mul_le_of_le_one_right zero_le (hg1 _)
  rw [hI]
  exact key

/-- Chebyshev's inequality for the mean of `n` draws. -/
theorem mean_chebyshev {W : X → ℝ≥0∞} (hW : Measurable W) (h2 : ∫⁻ y, W y * W y ∂Q ≠ ⊤) {n : ℕ}
    (hn : n ≠ 0) {δ : ℝ} (hδ : 0 < δ) :
    (Measure.pi fun _ : Fin n => Q) {z | δ ≤ |((∑ i, W (z i)) / n).toReal - (∫⁻ y, W y ∂Q).toReal|}
      ≤ ENNReal.ofReal ((∫⁻ y, W y * W y ∂Q).toReal / n / δ ^ 2) := by
  obtain ⟨hWt, hL, hsq⟩ := memLp_toReal hW h2
  have hWi : ∫ y, (W y).toReal ∂Q = (∫⁻ y, W y ∂Q).toReal :=
    integral_toReal hW.aemeasurable (hWt.mono fun y hy => hy.lt_top)
  have hm := pi_mean_memLp hL n
  have hn' : (0 : ℝ) < n := by exact_mod_cast Nat.pos_of_ne_zero hn
  have hc := meas_ge_le_variance_div_sq hm hδ
  rw [pi_mean_integral hL hn, hWi] at hc
  have hae : ∀ᵐ z : Fin n → X ∂(Measure.pi fun _ : Fin n => Q),
      ((∑ i, W (z i)) / n).toReal = (∑ i, (W (z i)).toReal) / n := by
    filter_upwards [pi_ae hWt n] with z hz
    rw [ENNReal.toReal_div, ENNReal.toReal_sum fun i _ => hz i]
    simp
  have hset : (Measure.pi fun _ : Fin n => Q)
      {z | δ ≤ |((∑ i, W (z i)) / n).toReal - (∫⁻ y, W y ∂Q).toReal|}
      = (Measure.pi fun _ : Fin n => Q)
      {z | δ ≤ |(∑ i, (W (z i)).toReal) / n - (∫⁻ y, W y ∂Q).toReal|} := by
    refine measure_congr ?_
    filter_upwards [hae] with z hz
    refine propext ?_
    show δ ≤ _ ↔ δ ≤ _
    rw [hz]
  rw [hset]
  refine hc.trans (ENNReal.ofReal_le_ofReal ?_)
  refine div_le_div_of_nonneg_right ?_ (by positivity)
  rw [← hsq]
  have h1 : (fun z : Fin n → X => (∑ i, (W (z i)).toReal) / n)
      = fun z => (∑ i, (fun z : Fin n → X => (W (z i)).toReal)) z * (n : ℝ)⁻¹ := by
    funext z; rw [Finset.sum_apply, div_eq_mul_inv]
  have h3 : Var[∑ i, fun z : Fin n → X => (W (z i)).toReal; Measure.pi fun _ : Fin n => Q]
      = ∑ _i : Fin n, Var[fun y => (W y).toReal; Q] :=
    variance_sum_pi (X := fun _ : Fin n => fun y => (W y).toReal) fun _ => hL
  rw [h1, variance_mul_const, h3]
  simp only [Finset.sum_const, Finset.card_univ, Fintype.card_fin, nsmul_eq_mul]
  have h4 := variance_le_expectation_sq (μ := Q) (X := fun y => (W y).toReal) hL.aestronglyMeasurable
  have e : ((fun y => (W y).toReal) ^ 2) = fun y => (W y).toReal ^ 2 := rfl
  rw [e] at h4
  rw [div_eq_mul_inv]
  have : (n : ℝ) * Var[fun y => (W y).toReal; Q] * (n : ℝ)⁻¹ ^ 2
      = Var[fun y => (W y).toReal; Q] * (n : ℝ)⁻¹ := by field_simp
  rw [this]
  exact mul_le_mul_of_nonneg_right h4 (inv_nonneg.mpr hn'.le)

theorem quotient_close {A B a b ε : ℝ} (hb : 0 < b) (ha : 0 ≤ a) (hε : 0 < ε)
    (hA : |A - a| < ε * b ^ 2 / (2 * (a + b))) (hB : |B - b| < min (b / 2) (ε * b ^ 2 / (2 * (a + b)))) :
    |A / B - a / b| < ε := by
  have hB1 := hB.trans_le (min_le_left _ _)
  have hB2 := hB.trans_le (min_le_right _ _)
  have hBp : b / 2 < B := by
    have := (abs_lt.mp hB1).1
    linarith
  have hB0 : 0 < B := by linarith
  have hab : 0 < a + b := by linarith
  have e : A / B - a / b = ((A - a) * b - a * (B - b)) / (B * b) := by
    field_simp
    ring
  rw [e, abs_div, abs_of_pos (mul_pos hB0 hb), div_lt_iff₀ (mul_pos hB0 hb)]
  set d := ε * b ^ 2 / (2 * (a + b)) with hd
  have h1 : |(A - a) * b - a * (B - b)| ≤ |A - a| * b + a * |B - b| := by
    refine (abs_sub _ _).trans ?_
    rw [abs_mul, abs_mul, abs_of_pos hb, abs_of_nonneg ha]
  have h2 := mul_lt_mul_of_pos_right hA hb
  have h2' := mul_le_mul_of_nonneg_left hB2.le ha
  have h3 : d * (a + b) = ε * b ^ 2 / 2 := by rw [hd]; field_simp
  have h4 : ε * b ^ 2 / 2 ≤ ε * (B * b) := by
    have : b ^ 2 / 2 ≤ B * b := by nlinarith
    have := mul_le_mul_of_nonneg_left this hε.le
    linarith
  have h5 : d * b + a * d = d * (a + b) := by ring
  linarith

end Cgpm
