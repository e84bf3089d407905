import Verif.Lemmas.SliceDense
import Mathlib.MeasureTheory.Constructions.Polish.Basic

/-! The moves of the slice sampler end with probability one. -/
namespace Cgpm.Sampler
open Cgpm MeasureTheory Filter Topology
open scoped ENNReal

variable {p : ℝ → ℝ≥0∞} {K : Set ℝ} {D : Domain} {w : ℝ}

/-! ### The steps to the left and to the right end -/

/-- Along almost every grid the density is summable. -/
theorem ae_grid_sum {F : ℝ → ℝ≥0∞} (hF : Measurable F) (hfin : ∫⁻ y, F y ≠ ⊤) (x : ℝ) {c : ℝ}
    (hc : c ≠ 0) : ∀ᵐ r : ℝ, r ∈ Set.Ico (0 : ℝ) 1 → ∑' k : ℕ, F (x + (r + k) * c) ≠ ⊤ := by
  have hG : Measurable fun s : ℝ => F (x + s * c) :=
    hF.comp (measurable_const.add (measurable_id.mul_const c))
  have h1 : ∫⁻ s, F (x + s * c) ≠ ⊤ := by
    have e : ∫⁻ y, F (x + y) = ∫⁻ y, F y := lintegral_add_left_eq_self F x
    have hx : Measurable fun y => F (x + y) := hF.comp (measurable_const.add measurable_id)
    have hmc : Measurable fun y : ℝ => y * c := measurable_id.mul_const c
    have h := Real.smul_map_volume_mul_right hc
    conv_lhs at e => rw [← h]
    rw [ lintegral_smul_measure, lintegral_map hx hmc] at e
    intro ht
    rw [ht, smul_eq_mul, ENNReal.mul_top (by simpa using hc)] at e
    exact hfin e.symm
  have h2 : ∀ k : ℕ, ∫⁻ r in Set.Ico (0 : ℝ) 1, F (x + (r + k) * c)
      = ∫⁻ s in Set.Ico (k : ℝ) (k + 1), F (x + s * c) := by
    intro k
    have := (measurePreserving_add_right (volume : Measure ℝ) (k : ℝ)).setLIntegral_comp_preimage_emb
      (measurableEmbedding_addRight (k : ℝ)) (fun s => F (x + s * c)) (Set.Ico (k : ℝ) (k + 1))
    rw [← this]
    congr 2
    ext r
    simp
  have hm : ∀ k : ℕ, Measurable fun r : ℝ => F (x + (r + k) * c) := fun k =>
    hG.comp (measurable_id.add_const (k : ℝ))
  have h3 : ∫⁻ r in Set.Ico (0 : ℝ) 1, ∑' k : ℕ, F (x + (r + k) * c) ≠ ⊤ := by
    rw [lintegral_tsum fun k => (hm k).aemeasurable]
    simp only [h2]
    have hd : Pairwise (Function.onFun Disjoint fun k : ℕ => Set.Ico (k : ℝ) (k + 1)) := by
      intro i j hij
      refine Set.disjoint_left.mpr fun y hi hj => hij ?_
      have h1 : (i : ℝ) < j + 1 := hi.1.trans_lt hj.2
      have h2 : (j : ℝ) < i + 1 := hj.1.trans_lt hi.2
      norm_cast at h1 h2
      omega
    rw [← lintegral_iUnion (fun k => measurableSet_Ico) hd]
    exact ne_top_of_le_ne_top h1 (setLIntegral_le_lintegral _ _)
  have := ae_lt_top' (AEMeasurable.tsum fun k => (hm k).aemeasurable) h3
  rw [ae_restrict_iff' measurableSet_Ico] at this
  filter_upwards [this] with r hr hr1
  exact (hr hr1).ne

/-- Almost no grid meets the end of the domain. -/
theorem ae_grid_ne (x : ℝ) {c : ℝ} (hc : c ≠ 0) (e : EReal) :
    ∀ᵐ r : ℝ, ∀ k : ℕ, ((x + (r + k) * c : ℝ) : EReal) ≠ e := by
  refine ae_all_iff.mpr fun k => ?_
  induction e with
  | bot => exact .of_forall fun r => EReal.coe_ne_bot _
  | top => exact .of_forall fun r => EReal.coe_ne_top _
  | coe l =>
    have : ∀ᵐ r : ℝ, r ≠ (l - x) / c - k := by
      rw [ae_iff]; simp
    filter_upwards [this] with r hr h
    apply hr
    have h := EReal.coe_eq_coe_iff.mp h
    field_simp
    linarith

theorem under_or_over {τ y : ℝ} (hy : y ∈ K) : Under p K τ y ∨ Over p τ y := by
  rcases le_or_gt (p y) (ENNReal.ofReal τ) with h | h
  · exact .inl ⟨hy, h⟩
  · exact .inr h

theorem loGood_of {τ a : ℝ} (k : ℕ)
    (hall : ∀ j : ℕ, ((a - j * w : ℝ) : EReal) < D.lo ∨ a - j * w ∈ K)
    (hk : ((a - k * w : ℝ) : EReal) < D.lo ∨ Under p K τ (a - k * w)) : loGood p K D w k τ a := by
  induction k generalizing a with
  | zero => simpa [loGood] using hk
  | succ k ih =>
    unfold loGood
    rcases hall 0 with h | h
    · exact .inl (by simpa using h)
    · rw [Nat.cast_zero, zero_mul, sub_zero] at h
      rcases under_or_over (p := p) (τ := τ) h with h | h
      · exact .inr (.inl h)
      · refine .inr (.inr ⟨h, ih (fun j => ?_) ?_⟩)
        · have := hall (j + 1)
          rwa [show a - ((j + 1 : ℕ) : ℝ) * w = a - w - j * w by push_cast; ring] at this
        · rwa [show a - ((k + 1 : ℕ) : ℝ) * w = a - w - k * w by push_cast; ring] at hk

theorem hiGood_of {τ b : ℝ} (k : ℕ)
    (hall : ∀ j : ℕ, D.hi < ((b + j * w : ℝ) : EReal) ∨ b + j * w ∈ K)
    (hk : D.hi < ((b + k * w : ℝ) : EReal) ∨ Under p K τ (b + k * w)) : hiGood p K D w k τ b := by
  induction k generalizing b with
  | zero => simpa [hiGood] using hk
  | succ k ih =>
    unfold hiGood
    rcases hall 0 with h | h
    · exact .inl (by simpa using h)
    · rw [Nat.cast_zero, zero_mul, add_zero] at h
      rcases under_or_over (p := p) (τ := τ) h with h | h
      · exact .inr (.inl h)
      · refine .inr (.inr ⟨h, ih (fun j => ?_) ?_⟩)
        · have := hall (j + 1)
          rwa [show b + ((j + 1 : ℕ) : ℝ) * w = b + w + j * w by push_cast; ring] at this
        · rwa [show b + ((k + 1 : ℕ) : ℝ) * w = b + w + k * w by push_cast; ring] at hk

/-- A summable sequence comes below every level. -/
theorem exists_le_of_sum {s : ℕ → ℝ≥0∞} (h : ∑' k, s k ≠ ⊤) {τ : ℝ} (hτ : 0 < τ) :
    ∃ k, s k ≤ ENNReal.ofReal τ := by
  have := ENNReal.tendsto_cofinite_zero_of_tsum_ne_top h
  rw [Nat.cofinite_eq_atTop] at this
  have h0 : (0 : ℝ≥0∞) < ENNReal.ofReal τ := by simpa using hτ
  obtain ⟨k, hk⟩ := (this.eventually (gt_mem_nhds h0)).exists
  exact ⟨k, hk.le⟩

open Classical in
theorem ae_loGood (hw : 0 < w) (hp : Measurable p) (hK : ∀ y, D.inside y → y ∈ K)
    (hfin : ∫⁻ y in {y | D.inside y}, p y ≠ ⊤) {x : ℝ} (hx : D.inside x) :
    ∀ᵐ r : ℝ, r ∈ Set.Ico (0 : ℝ) 1 → ∀ τ, 0 < τ → ∃ n, loGood p K D w n τ (x - r * w) := by
  rw [← lintegral_indicator (measurableSet_inside D)] at hfin
  filter_upwards [ae_grid_sum (hp.indicator (measurableSet_inside D)) hfin x (neg_ne_zero.mpr hw.ne'),
    ae_grid_ne x (neg_ne_zero.mpr hw.ne') D.lo] with r h1 h2 hr τ hτ
  have h1 := h1 hr
  have e : ∀ k : ℕ, x + (r + k) * -w = x - r * w - k * w := fun k => by ring
  simp only [e] at h1 h2
  have hin : ∀ k : ℕ, ¬ ((x - r * w - k * w : ℝ) : EReal) < D.lo → D.inside (x - r * w - k * w) :=
    fun k hk => ⟨lt_of_le_of_ne (not_lt.mp hk) (h2 k).symm, lt_of_le_of_lt
      (EReal.coe_le_coe_iff.mpr (by nlinarith [hr.1, (Nat.cast_nonneg k : (0 : ℝ) ≤ k)])) hx.2⟩
  have hall : ∀ k : ℕ, ((x - r * w - k * w : ℝ) : EReal) < D.lo ∨ x - r * w - k * w ∈ K := fun k => by
    by_cases hk : ((x - r * w - k * w : ℝ) : EReal) < D.lo
    · exact .inl hk
    · exact .inr (hK _ (hin k hk))
  obtain ⟨k, hk⟩ := exists_le_of_sum h1 hτ
  refine ⟨k, loGood_of k hall ?_⟩
  by_cases hk' : ((x - r * w - k * w : ℝ) : EReal) < D.lo
  · exact .inl hk'
  · have hi := hin k hk'
    rw [Set.indicator_of_mem (by exact hi)] at hk
    exact .inr ⟨hK _ hi, hk⟩

open Classical in
theorem ae_hiGood (hw : 0 < w) (hp : Measurable p) (hK : ∀ y, D.inside y → y ∈ K)
    (hfin : ∫⁻ y in {y | D.inside y}, p y ≠ ⊤) {x : ℝ} (hx : D.inside x) :
    ∀ᵐ r : ℝ, r ∈ Set.Ioo (0 : ℝ) 1 → ∀ τ, 0 < τ → ∃ n, hiGood p K D w n τ (x + (1 - r) * w) := by
  rw [← lintegral_indicator (measurableSet_inside D)] at hfin
  have hae : ∀ᵐ s : ℝ, s ∈ Set.Ioo (0 : ℝ) 1 → ∀ τ, 0 < τ → ∃ n, hiGood p K D w n τ (x + s * w) := by
    filter_upwards [ae_grid_sum (hp.indicator (measurableSet_inside D)) hfin x hw.ne',
      ae_grid_ne x hw.ne' D.hi] with r h1 h2 hr τ hτ
    have h1 := h1 ⟨hr.1.le, hr.2⟩
    have e : ∀ k : ℕ, x + (r + k) * w = x + r * w + k * w := fun k => by ring
    simp only [e] at h1 h2
    have hin : ∀ k : ℕ, ¬ D.hi < ((x + r * w + k * w : ℝ) : EReal) → D.inside (x + r * w + k * w) :=
      fun k hk => ⟨lt_of_lt_of_le hx.1
        (EReal.coe_le_coe_iff.mpr (by nlinarith [hr.1, (Nat.cast_nonneg k : (0 : ℝ) ≤ k)])),
        lt_of_le_of_ne (not_lt.mp hk) (h2 k)⟩
    have hall : ∀ k : ℕ, D.hi < ((x + r * w + k * w : ℝ) : EReal) ∨ x + r * w + k * w ∈ K :=
      fun k => by
        by_cases hk : D.hi < ((x + r * w + k * w : ℝ) : EReal)
        · exact .inl hk
        · exact .inr (hK _ (hin k hk))
    obtain ⟨k, hk⟩ := exists_le_of_sum h1 hτ
    refine ⟨k, hiGood_of k hall ?_⟩
    by_cases hk' : D.hi < ((x + r * w + k * w : ℝ) : EReal)
    · exact .inl hk'
    · have hi := hin k hk'
      rw [Set.indicator_of_mem (by exact hi)] at hk
      exact .inr ⟨hK _ hi, hk⟩
  have hq := (Measure.measurePreserving_sub_left (volume : Measure ℝ) 1).quasiMeasurePreserving.ae hae
  filter_upwards [hq] with r hr hr1
  exact hr ⟨by linarith [hr1.2], by linarith [hr1.1]⟩

/-! ### The shrinking interval -/

open Classical in
/-- The chance that the shrinking interval has led to a point within `n + 1` trials. -/
theorem shrink_total (hp : Measurable p) (hK : MeasurableSet K) {τ x a b c : ℝ} (hc1 : c ≤ 1)
    (hc0 : 0 < c) (hin : ∀ y, a < y → y < b → y ∈ K)
    (hc : ∀ a' b', a ≤ a' → a' < x → x < b' → b' ≤ b →
      ENNReal.ofReal (c * (b' - a')) ≤ volume ({y | Over p τ y} ∩ Set.Ico a' b')) (n : ℕ)
    {a' b' : ℝ} (ha : a ≤ a') (hax : a' < x) (hxb : x < b') (hb : b' ≤ b) :
    ENNReal.ofReal (1 - (1 - c) ^ (n + 1)) ≤ ∫⁻ x', shrinkDens p K n τ a' b' x x' := by
  induction n generalizing a' b' with
  | zero =>
    have hS : MeasurableSet {y | Over p τ y} := measurable_over hp measurable_const measurable_id
    have hlen : 0 < b' - a' := by linarith
    have hl0 : ENNReal.ofReal (b' - a') ≠ 0 := by simpa using hlen
    have hone : ∫⁻ x', (if x' ∈ Set.Ico a' b' ∧ Over p τ x' then 1 else 0 : ℝ≥0∞)
        = volume ({y | Over p τ y} ∩ Set.Ico a' b') := by
      rw [← lintegral_indicator_one (hS.inter measurableSet_Ico)]
      refine lintegral_congr fun y => ?_
      by_cases h : y ∈ Set.Ico a' b' ∧ Over p τ y
      · rw [if_pos h, Set.indicator_of_mem (by exact ⟨h.2, h.1⟩)]; rfl
      · rw [if_neg h, Set.indicator_of_notMem (by exact fun h' => h ⟨h'.2, h'.1⟩)]
    have hm1 : Measurable fun x' => (if x' ∈ Set.Ico a' b' ∧ Over p τ x' then 1 else 0 : ℝ≥0∞) :=
      Measurable.ite (measurableSet_Ico.inter hS) measurable_const measurable_const
    have hs := hc a' b' ha hax hxb hb
    set m := volume ({y | Over p τ y} ∩ Set.Ico a' b') with hm
    have hmle : m ≤ ENNReal.ofReal (b' - a') := by
      rw [← Real.volume_Ico]; exact measure_mono Set.inter_subset_right
    unfold shrinkDens
    rw [lintegral_const_mul _ hm1, hone, zero_add, pow_one, sub_sub_cancel,
      ← ENNReal.div_eq_inv_mul, ENNReal.le_div_iff_mul_le (.inl hl0) (.inl ENNReal.ofReal_ne_top),
      ← ENNReal.ofReal_mul hc0.le]
    exact hs
  | succ n ih =>
    have hS : MeasurableSet {y | Over p τ y} := measurable_over hp measurable_const measurable_id
    have hlen : 0 < b' - a' := by linarith
    have hl0 : ENNReal.ofReal (b' - a') ≠ 0 := by simpa using hlen
    have hone : ∫⁻ x', (if x' ∈ Set.Ico a' b' ∧ Over p τ x' then 1 else 0 : ℝ≥0∞)
        = volume ({y | Over p τ y} ∩ Set.Ico a' b') := by
      rw [← lintegral_indicator_one (hS.inter measurableSet_Ico)]
      refine lintegral_congr fun y => ?_
      by_cases h : y ∈ Set.Ico a' b' ∧ Over p τ y
      · rw [if_pos h, Set.indicator_of_mem (by exact ⟨h.2, h.1⟩)]; rfl
      · rw [if_neg h, Set.indicator_of_notMem (by exact fun h' => h ⟨h'.2, h'.1⟩)]
    have hm1 : Measurable fun x' => (if x' ∈ Set.Ico a' b' ∧ Over p τ x' then 1 else 0 : ℝ≥0∞) :=
      Measurable.ite (measurableSet_Ico.inter hS) measurable_const measurable_const
    have hs := hc a' b' ha hax hxb hb
    set m := volume ({y | Over p τ y} ∩ Set.Ico a' b') with hm
    have hmle : m ≤ ENNReal.ofReal (b' - a') := by
      rw [← Real.volume_Ico]; exact measure_mono Set.inter_subset_right
    unfold shrinkDens
    have hms : Measurable fun z : ℝ × ℝ => if Under p K τ z.2 then
        (if x < z.2 then shrinkDens p K n τ a' z.2 x z.1
          else shrinkDens p K n τ z.2 b' x z.1) else 0 := by
      refine Measurable.ite (measurable_under hp hK measurable_const measurable_snd)
        (Measurable.ite (measurableSet_lt measurable_const measurable_snd) ?_ ?_) measurable_const
      · exact (measurable_shrinkDens hp hK n).comp (measurable_const.prodMk (measurable_const.prodMk
          (measurable_snd.prodMk (measurable_const.prodMk measurable_fst))))
      · exact (measurable_shrinkDens hp hK n).comp (measurable_const.prodMk (measurable_snd.prodMk
          (measurable_const.prodMk (measurable_const.prodMk measurable_fst))))
    have hmi : Measurable fun x' => ∫⁻ y in Set.Ico a' b', if Under p K τ y then
        (if x < y then shrinkDens p K n τ a' y x x' else shrinkDens p K n τ y b' x x') else 0 :=
      hms.lintegral_prod_right'
    rw [lintegral_const_mul]
    swap
    · exact hm1.add hmi
    rw [lintegral_add_left hm1, hone,
      lintegral_lintegral_swap hms.aemeasurable]
    set q := 1 - (1 - c) ^ (n + 1) with hq
    have hq0 : 0 ≤ q := by
      have : (1 - c) ^ (n + 1) ≤ 1 := pow_le_one₀ (by linarith) (by linarith)
      linarith
    have hq1 : q ≤ 1 := by
      have : 0 ≤ (1 - c) ^ (n + 1) := pow_nonneg (by linarith) _
      linarith
    have hrest : ENNReal.ofReal q * (ENNReal.ofReal (b' - a') - m) ≤
        ∫⁻ y in Set.Ico a' b', ∫⁻ x', if Under p K τ y then
          (if x < y then shrinkDens p K n τ a' y x x' else shrinkDens p K n τ y b' x x') else 0 := by
      have hdiff : volume (Set.Ico a' b' \ {y | Over p τ y}) = ENNReal.ofReal (b' - a') - m := by
        rw [← Set.diff_inter_self_eq_diff, measure_sdiff Set.inter_subset_right
          (hS.inter measurableSet_Ico).nullMeasurableSet
          (ne_top_of_le_ne_top ENNReal.ofReal_ne_top hmle), Real.volume_Ico]
      rw [← hdiff, ← lintegral_indicator measurableSet_Ico]
      calc ENNReal.ofReal q * volume (Set.Ico a' b' \ {y | Over p τ y})
          = ∫⁻ y, (Set.Ico a' b' \ {y | Over p τ y}).indicator (fun _ => ENNReal.ofReal q) y := by
            rw [lintegral_indicator (measurableSet_Ico.diff hS), setLIntegral_const]
        _ ≤ _ := by
            refine lintegral_mono_ae ?_
            have hne : ∀ᵐ y : ℝ, y ≠ x ∧ y ≠ a' := by
              have h1 : ∀ᵐ y : ℝ, y ≠ x := by rw [ae_iff]; simp
              have h2 : ∀ᵐ y : ℝ, y ≠ a' := by rw [ae_iff]; simp
              filter_upwards [h1, h2] with y h1 h2 using ⟨h1, h2⟩
            filter_upwards [hne] with y hy
            by_cases hyI : y ∈ Set.Ico a' b' \ {y | Over p τ y}
            · rw [Set.indicator_of_mem hyI, Set.indicator_of_mem hyI.1]
              have hyK : y ∈ K := hin y (lt_of_le_of_lt ha (lt_of_le_of_ne hyI.1.1 hy.2.symm))
                (lt_of_lt_of_le hyI.1.2 hb)
              have hu : Under p K τ y := (under_or_over hyK).resolve_right hyI.2
              simp only [hu, if_true]
              have hlo : ∀ {a'' b'' : ℝ}, a ≤ a'' → a'' < x → x < b'' → b'' ≤ b →
                  ENNReal.ofReal q ≤ ∫⁻ x', shrinkDens p K n τ a'' b'' x x' := by
                intro a'' b'' g1 g2 g3 g4
                exact ih g1 g2 g3 g4
              by_cases hxy : x < y
              · simp only [hxy, if_true]
                exact hlo ha hax hxy (hyI.1.2.le.trans hb)
              · simp only [hxy, if_false]
                exact hlo (ha.trans hyI.1.1) (lt_of_le_of_ne (not_lt.mp hxy) hy.1) hxb hb
            · rw [Set.indicator_of_notMem hyI]; exact zero_le
    rw [← ENNReal.div_eq_inv_mul, ENNReal.le_div_iff_mul_le (.inl hl0) (.inl ENNReal.ofReal_ne_top)]
    refine le_trans ?_ (add_le_add_right hrest m)
    obtain ⟨m', hm'0, hm'⟩ : ∃ m' : ℝ, 0 ≤ m' ∧ m = ENNReal.ofReal m' :=
      ⟨m.toReal, ENNReal.toReal_nonneg,
        (ENNReal.ofReal_toReal (ne_top_of_le_ne_top ENNReal.ofReal_ne_top hmle)).symm⟩
    rw [hm'] at hs hmle ⊢
    have hs' := (ENNReal.ofReal_le_ofReal_iff hm'0).mp hs
    have hm'1 := (ENNReal.ofReal_le_ofReal_iff hlen.le).mp hmle
    have hpow : 0 ≤ (1 - c) ^ (n + 1) := pow_nonneg (by linarith) _
    have hpow1 : 0 ≤ 1 - (1 - c) ^ (n + 1 + 1) := by
      have : (1 - c) ^ (n + 1 + 1) ≤ 1 := pow_le_one₀ (by linarith) (by linarith)
      linarith
    rw [← ENNReal.ofReal_sub _ hm'0, ← ENNReal.ofReal_mul hq0, ← ENNReal.ofReal_mul hpow1,
      ← ENNReal.ofReal_add hm'0 (mul_nonneg hq0 (by linarith))]
    refine ENNReal.ofReal_le_ofReal ?_
    rw [hq, pow_succ (1 - c) (n + 1)]
    nlinarith [mul_nonneg hpow (sub_nonneg.mpr hs')]

/-! ### The move -/

theorem lo_strict (hw : 0 < w) {x r τ : ℝ} (hx : D.inside x) (hr : 0 < r) {n : ℕ}
    (h : loGood p K D w n τ (x - r * w)) :
    D.lo ≤ ((loEnd p D w n τ (x - r * w) : ℝ) : EReal) ∧ loEnd p D w n τ (x - r * w) < x := by
  have hrw : 0 < r * w := mul_pos hr hw
  refine ⟨(loEnd_within hw hx.1.le (by linarith) h).1, ?_⟩
  by_cases hn : ((x - r * w : ℝ) : EReal) < D.lo
  · have e : loEnd p D w n τ (x - r * w) = D.lo.toReal := by
      cases n <;> exact if_pos hn
    rw [e, ← EReal.coe_lt_coe_iff, lo_bound hx.1.le hn]
    exact hx.1
  · exact lt_of_le_of_lt (loEnd_within hw (not_lt.mp hn) le_rfl h).2 (by linarith)

theorem hi_strict' (hw : 0 < w) {x r τ : ℝ} (hx : D.inside x) (hr : r < 1) {n : ℕ}
    (h : hiGood p K D w n τ (x + (1 - r) * w)) :
    ((hiEnd p D w n τ (x + (1 - r) * w) : ℝ) : EReal) ≤ D.hi ∧
      x < hiEnd p D w n τ (x + (1 - r) * w) := by
  have hrw : 0 < (1 - r) * w := mul_pos (by linarith) hw
  refine ⟨(hiEnd_within hw hx.2.le (by linarith) h).1, ?_⟩
  by_cases hn : D.hi < ((x + (1 - r) * w : ℝ) : EReal)
  · have e : hiEnd p D w n τ (x + (1 - r) * w) = D.hi.toReal := by
      cases n <;> exact if_pos hn
    rw [e, ← EReal.coe_lt_coe_iff, hi_bound hx.2.le hn]
    exact hx.2
  · exact lt_of_lt_of_le (by linarith) (hiEnd_within hw (not_lt.mp hn) le_rfl h).2

theorem iSup_chance {c : ℝ} (hc0 : 0 < c) (hc1 : c ≤ 1) {s : ℕ → ℝ≥0∞} (n0 : ℕ)
    (h : ∀ n, ENNReal.ofReal (1 - (1 - c) ^ (n0 + n + 1)) ≤ s (n0 + n)) : 1 ≤ ⨆ n, s n := by
  have ht : Tendsto (fun n : ℕ => ENNReal.ofReal (1 - (1 - c) ^ (n0 + n + 1))) atTop (𝓝 1) := by
    have h1 : Tendsto (fun n : ℕ => (1 - c) ^ n) atTop (𝓝 0) :=
      tendsto_pow_atTop_nhds_zero_of_lt_one (by linarith) (by linarith)
    have h2 : Tendsto (fun n : ℕ => 1 - (1 - c) ^ (n + (n0 + 1))) atTop (𝓝 (1 - 0)) :=
      tendsto_const_nhds.sub ((tendsto_add_atTop_iff_nat (n0 + 1)).mpr h1)
    rw [sub_zero] at h2
    have h3 := ENNReal.tendsto_ofReal h2
    rw [ENNReal.ofReal_one] at h3
    refine h3.congr fun n => ?_
    rw [show n + (n0 + 1) = n0 + n + 1 by omega]
  exact le_of_tendsto' ht fun n => (h n).trans (le_iSup s (n0 + n))

/-- From almost every point the move ends with probability one. -/
theorem nextMean_one (hw : 0 < w) (hp : Measurable p) (hK : MeasurableSet K)
    (hin : ∀ y, D.inside y → y ∈ K) (hfin : ∫⁻ y in {y | D.inside y}, p y ≠ ⊤) {x : ℝ}
    (hx : D.inside x) (hhalf : ∀ τ, Over p τ x → HalfAt {y | Over p τ y} x) (h0 : p x ≠ 0)
    (ht : p x ≠ ⊤) : 1 ≤ nextMean p K D w x fun _ => 1 := by
  have hP : 0 < (p x).toReal := ENNReal.toReal_pos h0 ht
  unfold nextMean
  rw [setLIntegral_congr Ioo_ae_eq_Ico.symm]
  have hvol : ∫⁻ _ in Set.Ioo (0 : ℝ) 1, (1 : ℝ≥0∞) = 1 := by simp
  refine hvol.ge.trans ?_
  refine setLIntegral_mono' measurableSet_Ioo fun u hu => ?_
  set τ := u * (p x).toReal with hτ
  have hτ0 : 0 < τ := mul_pos hu.1 hP
  have ho : Over p τ x := by
    unfold Over
    rw [hτ, ← ENNReal.ofReal_toReal ht, ENNReal.toReal_ofReal hP.le,
      ENNReal.ofReal_lt_ofReal_iff hP]
    nlinarith [hu.2]
  have hms : Measurable fun q : ℝ × ℝ => ⨆ n, sliceDens p K D w n τ x q.2 q.1 := by
    have hc : Measurable fun q : ℝ × ℝ => ((τ, x, q.1), q.2) :=
      (measurable_const.prodMk (measurable_const.prodMk measurable_fst)).prodMk measurable_snd
    exact Measurable.iSup fun n => (measurable_sliceDens hp hK n).comp hc
  simp only [one_mul, levelDens_iSup hp hK]
  rw [lintegral_lintegral_swap hms.aemeasurable, setLIntegral_congr Ioo_ae_eq_Ico.symm]
  refine hvol.ge.trans ?_
  refine setLIntegral_mono_ae' measurableSet_Ioo ?_
  filter_upwards [ae_loGood hw hp hin hfin hx, ae_hiGood hw hp hin hfin hx] with r hl hh hr
  obtain ⟨n1, h1⟩ := hl ⟨hr.1.le, hr.2⟩ τ hτ0
  obtain ⟨n2, h2⟩ := hh hr τ hτ0
  have h1 := (loGood_add h1 n2).1
  have h2 := (hiGood_add h2 n1).1
  rw [add_comm n2 n1] at h2
  set n0 := n1 + n2
  set a := loEnd p D w n0 τ (x - r * w) with ha
  set b := hiEnd p D w n0 τ (x + (1 - r) * w) with hb
  obtain ⟨a1, a2⟩ := lo_strict hw hx hr.1 h1
  obtain ⟨b1, b2⟩ := hi_strict' hw hx hr.2 h2
  obtain ⟨c, hc0, hc1, hc⟩ := half_ratio (hhalf τ ho) a2 b2
  have hab : ∀ y, a < y → y < b → y ∈ K := fun y g1 g2 =>
    hin y ⟨a1.trans_lt (EReal.coe_lt_coe_iff.mpr g1), (EReal.coe_lt_coe_iff.mpr g2).trans_le b1⟩
  refine le_trans ?_ (iSup_lintegral_le _)
  refine iSup_chance hc0 hc1 n0 fun k => ?_
  have e : ∀ x', sliceDens p K D w (n0 + k) τ x r x' = shrinkDens p K (n0 + k) τ a b x x' := by
    intro x'
    unfold sliceDens
    rw [if_pos ⟨(loGood_add h1 k).1, (hiGood_add h2 k).1⟩, (loGood_add h1 k).2, (hiGood_add h2 k).2]
  simp only [e]
  exact shrink_total hp hK hc1 hc0 hab hc (n0 + k) le_rfl a2 b2 le_rfl

end Cgpm.Sampler
