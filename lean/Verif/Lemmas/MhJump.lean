import Verif.Lemmas.MhDraws
import Mathlib.MeasureTheory.Function.EssSup

/-!
The proposals of `mh_sample` on a half line and on an interval, and the uniqueness of the density
that the iteration leaves invariant.
-/
namespace Cgpm.Sampler
open Cgpm Classical MeasureTheory ProbabilityTheory
open scoped ENNReal

/-- The density of the proposals on the half line. -/
noncomputable def foldPDF (v : NNReal) (x y : ℝ) : ℝ≥0∞ := gaussianPDF x v y + gaussianPDF x v (-y)

theorem gaussianPDF_swap (v : NNReal) (x y : ℝ) : gaussianPDF x v y = gaussianPDF y v x := by
  unfold gaussianPDF gaussianPDFReal
  rw [show (y - x) ^ 2 = (x - y) ^ 2 by ring]

theorem gaussianPDF_neg (v : NNReal) (x y : ℝ) : gaussianPDF x v (-y) = gaussianPDF y v (-x) := by
  unfold gaussianPDF gaussianPDFReal
  rw [show (-y - x) ^ 2 = (-x - y) ^ 2 by ring]

theorem foldPDF_symm (v : NNReal) (x y : ℝ) : foldPDF v x y = foldPDF v y x := by
  unfold foldPDF
  rw [gaussianPDF_swap, gaussianPDF_neg]

theorem measurable_gaussianPDF₂ (v : NNReal) : Measurable fun z : ℝ × ℝ => gaussianPDF z.1 v z.2 := by
  unfold gaussianPDF gaussianPDFReal
  exact Measurable.ennreal_ofReal (by fun_prop)

theorem measurable_foldPDF (v : NNReal) : Measurable fun z : ℝ × ℝ => foldPDF v z.1 z.2 := by
  unfold foldPDF gaussianPDF gaussianPDFReal
  exact (Measurable.ennreal_ofReal (by fun_prop)).add (Measurable.ennreal_ofReal (by fun_prop))

theorem lintegral_fold (F : ℝ → ℝ≥0∞) (hF : Measurable F) :
    ∫⁻ w, F w = ∫⁻ y in Set.Ioi (0 : ℝ), (F y + F (-y)) := by
  rw [lintegral_add_left hF, ← lintegral_add_compl F (measurableSet_Ioi (a := (0 : ℝ)))]
  congr 1
  rw [Set.compl_Ioi, setLIntegral_congr Iio_ae_eq_Iic.symm]
  have h := (Measure.measurePreserving_neg (volume : Measure ℝ)).setLIntegral_comp_emb
    (MeasurableEquiv.neg ℝ).measurableEmbedding F (Set.Ioi 0)
  rw [h]
  congr 2
  ext x
  simp

/-- The proposal on the half line. -/
theorem jump_half {D : Domain} {x j : ℝ} (h0 : 0 ≤ D.lo) (h1 : D.hi = ⊤) (hj : 0 < j)
    {h : ℝ → ℝ≥0∞} (hh : Measurable h) :
    (jumpDraws D x j).E h
      = ∫⁻ y in Set.Ioi (0 : ℝ), foldPDF (Real.toNNReal (j ^ 2)) x y * h y := by
  have hv : Real.toNNReal (j ^ 2) ≠ 0 := by rw [Ne, Real.toNNReal_eq_zero, not_le]; positivity
  have hne : ¬ (D.lo = 0 ∧ D.hi = 1) := by
    rintro ⟨-, h2⟩
    rw [h1] at h2
    exact absurd h2.symm (by decide)
  unfold jumpDraws
  rw [if_neg (not_lt.mpr hj.le), if_neg hne, if_pos ⟨h0, h1⟩]
  simp only [Draws.E]
  unfold npNormal
  rw [lintegral_gaussianReal _ hv]
  set v := Real.toNNReal (j ^ 2)
  have e : ∀ z, gaussianPDF 0 v z * h |x + z| = (fun w => gaussianPDF x v w * h |w|) (x + z) := by
    intro z
    simp only
    congr 1
    unfold gaussianPDF gaussianPDFReal
    congr 4
    ring
  rw [lintegral_congr e, lintegral_add_left_eq_self (fun w => gaussianPDF x v w * h |w|) x,
    lintegral_fold (fun w => gaussianPDF x v w * h |w|)
      ((measurable_gaussianPDF x v).mul (hh.comp continuous_abs.measurable))]
  refine setLIntegral_congr_fun measurableSet_Ioi fun y hy => ?_
  simp only [abs_neg, abs_of_pos (show 0 < y from hy), foldPDF, add_mul]

theorem foldPDF_total {v : NNReal} (hv : v ≠ 0) (x : ℝ) :
    ∫⁻ y in Set.Ioi (0 : ℝ), foldPDF v x y = 1 := by
  unfold foldPDF
  rw [← lintegral_fold _ (measurable_gaussianPDF x v)]
  exact lintegral_gaussianPDF_eq_one x hv

theorem foldPDF_pos {v : NNReal} (hv : v ≠ 0) (x y : ℝ) : 0 < foldPDF v x y := by
  unfold foldPDF
  exact lt_of_lt_of_le (gaussianPDF_pos x hv y) le_self_add

/-- A move that proposes with the density `q`, which is positive and symmetric, and accepts for the
density of logarithm `l`, leaves no density of finite mass invariant but multiples of that one. -/
theorem mh_only {μ : Measure ℝ} [SFinite μ] {l : ℝ → ℝ} (hl : Measurable l)
    {q : ℝ → ℝ → ℝ≥0∞} (hq : Measurable fun z : ℝ × ℝ => q z.1 z.2)
    (hsym : ∀ x y, q x y = q y x) (hpos : ∀ x y, 0 < q x y) (htot : ∀ x, ∫⁻ y, q x y ∂μ = 1)
    {p : ℝ → ℝ≥0∞} (hp : Measurable p) (hfin : ∫⁻ x, p x ∂μ ≠ ⊤)
    (hinv : ∀ g : ℝ → ℝ≥0∞, Measurable g →
      ∫⁻ x, p x * (∫⁻ y, q x y * (accProb l x y * g y + (1 - accProb l x y) * g x) ∂μ) ∂μ
        = ∫⁻ x, p x * g x ∂μ) (c : ℝ≥0∞) (hc : c ≠ ⊤) :
    μ {x | c * density l x < p x} = 0 ∨ μ {x | p x ≤ c * density l x} = 0 := by
  have ha := measurable_accProb hl
  have hd := measurable_density hl
  set B := {x | c * density l x < p x} with hB
  have hBm : MeasurableSet B := measurableSet_lt (hd.const_mul c) hp
  have hBc : {x | p x ≤ c * density l x} = Bᶜ := by ext x; simp [hB]
  rw [hBc]
  have hqx : ∀ x, Measurable (q x) := fun x => hq.comp (measurable_const.prodMk measurable_id)
  have hax : ∀ x, Measurable (accProb l x) := fun x => ha.comp (measurable_const.prodMk measurable_id)
  have hqa : ∀ x, Measurable fun y => q x y * accProb l x y := fun x => (hqx x).mul (hax x)
  have hqa2 : Measurable fun z : ℝ × ℝ => q z.1 z.2 * accProb l z.1 z.2 := hq.mul ha
  -- the flows
  set out : ℝ → ℝ≥0∞ := fun x => ∫⁻ y in Bᶜ, q x y * accProb l x y ∂μ with hout
  set inn : ℝ → ℝ≥0∞ := fun x => ∫⁻ y in B, q x y * accProb l x y ∂μ with hinn
  have hom : Measurable out := hqa2.lintegral_prod_right'
  have him : Measurable inn := hqa2.lintegral_prod_right'
  have hole : ∀ x, out x ≤ 1 := by
    intro x
    calc out x ≤ ∫⁻ y, q x y * accProb l x y ∂μ := setLIntegral_le_lintegral _ _
      _ ≤ ∫⁻ y, q x y ∂μ := lintegral_mono fun y => by
          calc q x y * accProb l x y ≤ q x y * 1 := by gcongr; exact accProb_le_one l x y
            _ = q x y := mul_one _
      _ = 1 := htot x
  have hg : Measurable (B.indicator fun _ => (1 : ℝ≥0∞)) := measurable_const.indicator hBm
  have h1 := hinv _ hg
  set mv : ℝ → ℝ≥0∞ := fun x => ∫⁻ y, q x y * (accProb l x y * B.indicator (fun _ => 1) y
    + (1 - accProb l x y) * B.indicator (fun _ => 1) x) ∂μ with hmv
  have hoff : ∀ x, x ∉ B → mv x = inn x := by
    intro x hx
    simp only [hmv, hinn]
    rw [← lintegral_indicator hBm]
    refine lintegral_congr fun y => ?_
    rw [Set.indicator_of_notMem hx, mul_zero, add_zero]
    by_cases hy : y ∈ B
    · rw [Set.indicator_of_mem hy, Set.indicator_of_mem hy, mul_one]
    · rw [Set.indicator_of_notMem hy, Set.indicator_of_notMem hy, mul_zero, mul_zero]
  have hon : ∀ x, x ∈ B → mv x + out x = 1 := by
    intro x hx
    simp only [hmv, hout]
    rw [← lintegral_indicator hBm.compl, ← lintegral_add_right _ ((hqa x).indicator hBm.compl)]
    refine Eq.trans (lintegral_congr fun y => ?_) (htot x)
    rw [Set.indicator_of_mem hx, mul_one]
    have e1 := add_tsub_cancel_of_le (accProb_le_one l x y)
    by_cases hy : y ∈ B
    · rw [Set.indicator_of_mem hy, Set.indicator_of_notMem (by simpa using hy), mul_one, add_zero, e1,
        mul_one]
    · rw [Set.indicator_of_notMem hy, Set.indicator_of_mem (by simpa using hy), mul_zero, zero_add,
        ← mul_add, add_comm, e1, mul_one]
  have hmvm : Measurable mv := by
    have : Measurable fun z : ℝ × ℝ => q z.1 z.2 * (accProb l z.1 z.2 * B.indicator (fun _ => 1) z.2
        + (1 - accProb l z.1 z.2) * B.indicator (fun _ => 1) z.1) :=
      hq.mul ((ha.mul (hg.comp measurable_snd)).add
        ((measurable_const.sub ha).mul (hg.comp measurable_fst)))
    exact this.lintegral_prod_right'
  have h2 : (∫⁻ x in B, p x * mv x ∂μ) + ∫⁻ x in Bᶜ, p x * inn x ∂μ
      = (∫⁻ x in B, p x * mv x ∂μ) + ∫⁻ x in B, p x * out x ∂μ := by
    calc _ = (∫⁻ x in B, p x * mv x ∂μ) + ∫⁻ x in Bᶜ, p x * mv x ∂μ := by
          congr 1
          exact setLIntegral_congr_fun hBm.compl fun x hx => by simp only [hoff x hx]
      _ = ∫⁻ x, p x * mv x ∂μ := lintegral_add_compl _ hBm
      _ = ∫⁻ x, p x * B.indicator (fun _ => 1) x ∂μ := h1
      _ = ∫⁻ x in B, p x ∂μ := by
          rw [← lintegral_indicator hBm]
          refine lintegral_congr fun x => ?_
          by_cases hx : x ∈ B
          · rw [Set.indicator_of_mem hx, Set.indicator_of_mem hx, mul_one]
          · rw [Set.indicator_of_notMem hx, Set.indicator_of_notMem hx, mul_zero]
      _ = ∫⁻ x in B, (p x * mv x + p x * out x) ∂μ := by
          refine setLIntegral_congr_fun hBm fun x hx => ?_
          rw [← mul_add, hon x hx, mul_one]
      _ = _ := lintegral_add_left (hp.mul hmvm) _
  have hmvle : ∫⁻ x in B, p x * mv x ∂μ ≠ ⊤ := by
    refine ne_top_of_le_ne_top hfin (le_trans ?_ (setLIntegral_le_lintegral B _))
    refine setLIntegral_mono hp fun x hx => ?_
    calc p x * mv x ≤ p x * 1 := by gcongr; exact le_self_add.trans (hon x hx).le
      _ = p x := mul_one _
  have h3 : ∫⁻ x in Bᶜ, p x * inn x ∂μ = ∫⁻ x in B, p x * out x ∂μ := (ENNReal.add_right_inj hmvle).mp h2
  -- by symmetry
  have hflow : ∫⁻ x in Bᶜ, c * density l x * inn x ∂μ = ∫⁻ x in B, c * density l x * out x ∂μ := by
    have e1 : ∀ x, c * density l x * inn x
        = ∫⁻ y in B, c * density l x * (q x y * accProb l x y) ∂μ := fun x =>
      (lintegral_const_mul _ (hqa x)).symm
    have e2 : ∀ x, c * density l x * out x
        = ∫⁻ y in Bᶜ, c * density l x * (q x y * accProb l x y) ∂μ := fun x =>
      (lintegral_const_mul _ (hqa x)).symm
    rw [lintegral_congr e1, lintegral_congr e2, lintegral_lintegral_swap]
    · refine lintegral_congr fun x => lintegral_congr fun y => ?_
      calc c * density l y * (q y x * accProb l y x) = c * (q y x * (density l y * accProb l y x)) := by
            ring
        _ = c * (q x y * (density l x * accProb l x y)) := by rw [density_accProb l y x, hsym y x]
        _ = _ := by ring
    · exact (((hd.comp measurable_fst).const_mul c).mul hqa2).aemeasurable
  have h4 : ∫⁻ x in B, p x * out x ∂μ ≤ ∫⁻ x in B, c * density l x * out x ∂μ := by
    rw [← h3, ← hflow]
    refine setLIntegral_mono (((hd.const_mul c)).mul him) fun x hx => ?_
    have : p x ≤ c * density l x := by simpa [hB] using hx
    gcongr
  have h5 : ∀ᵐ x ∂μ.restrict B, c * density l x * out x ≤ p x * out x := by
    filter_upwards [ae_restrict_mem hBm] with x hx
    have : c * density l x ≤ p x := le_of_lt hx
    gcongr
  have hlt : ∫⁻ x in B, c * density l x * out x ∂μ ≠ ⊤ := by
    refine ne_top_of_le_ne_top hfin ((lintegral_mono_ae h5).trans
      (le_trans ?_ (setLIntegral_le_lintegral B _)))
    refine setLIntegral_mono hp fun x _ => ?_
    calc p x * out x ≤ p x * 1 := by gcongr; exact hole x
      _ = p x := mul_one _
  have h6 := ae_eq_of_ae_le_of_lintegral_le h5 hlt (hp.mul hom).aemeasurable h4
  by_cases hzero : μ Bᶜ = 0
  · exact Or.inr hzero
  · left
    have hopos : ∀ x, out x ≠ 0 := by
      intro x hx
      have := (lintegral_eq_zero_iff (hqa x)).mp hx
      have h7 : ∀ᵐ y ∂μ.restrict Bᶜ, False := by
        filter_upwards [this] with y hy
        have : q x y * accProb l x y ≠ 0 := by
          refine mul_ne_zero (hpos x y).ne' ?_
          unfold accProb
          rw [Ne, ENNReal.ofReal_eq_zero, not_le]
          exact lt_min one_pos (Real.exp_pos _)
        exact this hy
      have h8 : μ.restrict Bᶜ = 0 := by simpa [ae_iff] using h7
      exact hzero (by simpa using congrArg (fun m => m Set.univ) h8)
    have h9 : ∀ᵐ x ∂μ.restrict B, False := by
      filter_upwards [h6, ae_restrict_mem hBm] with x hx hxB
      have : c * density l x = p x := by
        have := ENNReal.mul_right_strictMono (hopos x) (ne_top_of_le_ne_top ENNReal.one_ne_top (hole x))
        exact this.injective (by rw [mul_comm, hx, mul_comm])
      exact absurd this (ne_of_lt hxB)
    have h8 : μ.restrict B = 0 := by simpa [ae_iff] using h9
    simpa using congrArg (fun m => m Set.univ) h8

/-- The conclusion of `mh_only`, as a proportionality. -/
theorem proportional_of_levels {μ : Measure ℝ} {l : ℝ → ℝ} {p : ℝ → ℝ≥0∞}
    (h : ∀ c : ℝ≥0∞, c ≠ ⊤ →
      μ {x | c * density l x < p x} = 0 ∨ μ {x | p x ≤ c * density l x} = 0) :
    ∃ c : ℝ≥0∞, ∀ᵐ x ∂μ, p x = c * density l x := by
  set f : ℝ → ℝ≥0∞ := fun x => p x / density l x with hf
  have hd0 : ∀ x, density l x ≠ 0 := fun x => by
    unfold density
    rw [Ne, ENNReal.ofReal_eq_zero, not_le]
    exact Real.exp_pos _
  have hdt : ∀ x, density l x ≠ ⊤ := fun x => ENNReal.ofReal_ne_top
  refine ⟨essSup f μ, ?_⟩
  have hge : ∀ᵐ x ∂μ, essSup f μ ≤ f x := by
    by_cases hs : essSup f μ = 0
    · rw [hs]; exact Filter.Eventually.of_forall fun _ => zero_le
    obtain ⟨u, -, hlt, hu⟩ := exists_seq_strictMono_tendsto' (pos_iff_ne_zero.mpr hs)
    have hall : ∀ n, ∀ᵐ x ∂μ, u n < f x := by
      intro n
      have hn := (hlt n).2
      rcases h (u n) (ne_top_of_lt hn) with h1 | h1
      · exfalso
        refine absurd hn (not_lt.mpr ?_)
        refine essSup_le_of_ae_le _ ?_
        have : ∀ᵐ x ∂μ, ¬ (u n * density l x < p x) := by
          rw [ae_iff]; simpa using h1
        filter_upwards [this] with x hx
        exact ENNReal.div_le_of_le_mul (not_lt.mp hx)
      · have : ∀ᵐ x ∂μ, ¬ (p x ≤ u n * density l x) := by
          rw [ae_iff]; simpa using h1
        filter_upwards [this] with x hx
        rw [hf]
        simp only
        rw [ENNReal.lt_div_iff_mul_lt (Or.inl (hd0 x)) (Or.inl (hdt x))]
        exact not_le.mp hx
    filter_upwards [ae_all_iff.mpr hall] with x hx
    exact le_of_tendsto' hu fun n => (hx n).le
  filter_upwards [hge, ae_le_essSup (f := f) (μ := μ)] with x h1 h2
  have : f x = essSup f μ := le_antisymm h2 h1
  rw [← this, hf]
  simp only
  rw [ENNReal.div_mul_cancel (hd0 x) (hdt x)]

end Cgpm.Sampler
