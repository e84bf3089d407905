import Verif.Lemmas.SliceStep
import Mathlib.MeasureTheory.Integral.IntervalIntegral.Periodic
import Mathlib.MeasureTheory.Group.FundamentalDomain
import Mathlib.MeasureTheory.Measure.Haar.OfBasis
import Mathlib.MeasureTheory.Function.Floor

/-! The next point of the slice sampler: detailed balance. -/
namespace Cgpm.Sampler
open Cgpm MeasureTheory
open scoped ENNReal

variable (p : ℝ → ℝ≥0∞) (K : Set ℝ) (D : Domain) (w : ℝ)

open Classical in
/-- Density of the next point from `x`, for the level `τ` and the position `r` of the interval, within
`n` steps of each loop. -/
noncomputable def sliceDens (n : ℕ) (τ x r x' : ℝ) : ℝ≥0∞ :=
  if loGood p K D w n τ (x - r * w) ∧ hiGood p K D w n τ (x + (1 - r) * w) then
    shrinkDens p K n τ (loEnd p D w n τ (x - r * w)) (hiEnd p D w n τ (x + (1 - r) * w)) x x' else 0

/-- The same, averaged over the positions of the interval. -/
noncomputable def levelDens (n : ℕ) (τ x x' : ℝ) : ℝ≥0∞ :=
  ∫⁻ r in Set.Ico (0 : ℝ) 1, sliceDens p K D w n τ x r x'

variable {p K D w}

theorem sliceDens_mono (τ x r x' : ℝ) : Monotone fun n => sliceDens p K D w n τ x r x' := by
  refine monotone_nat_of_le_succ fun n => ?_
  unfold sliceDens
  by_cases h : loGood p K D w n τ (x - r * w) ∧ hiGood p K D w n τ (x + (1 - r) * w)
  · obtain ⟨l1, l2⟩ := loGood_mono h.1
    obtain ⟨r1, r2⟩ := hiGood_mono h.2
    rw [if_pos h, if_pos ⟨l1, r1⟩, l2, r2]
    exact shrinkDens_mono _ _ _ _ _ _
  · rw [if_neg h]
    exact zero_le

theorem slice_support (hw : 0 < w) {n : ℕ} {τ x r x' : ℝ} (hx : D.lo ≤ (x : EReal)) (hx1 : (x : EReal) < D.hi)
    (hr : r ∈ Set.Ico (0 : ℝ) 1) (h : sliceDens p K D w n τ x r x' ≠ 0) :
    (D.lo ≤ (x' : EReal) ∧ (x' : EReal) < D.hi) ∧ Over p τ x' := by
  unfold sliceDens at h
  split at h
  · rename_i hg
    by_cases hs : x' ∈ Set.Ico (loEnd p D w n τ (x - r * w)) (hiEnd p D w n τ (x + (1 - r) * w)) ∧
        Over p τ x'
    · have e1 := loEnd_within hw hx (a := x - r * w) (by nlinarith [hr.1]) hg.1
      have e2 := hiEnd_within hw hx1.le (b := x + (1 - r) * w) (by nlinarith [hr.2]) hg.2
      refine ⟨⟨e1.1.trans ?_, lt_of_lt_of_le ?_ e2.1⟩, hs.2⟩
      · exact_mod_cast hs.1.1
      · exact_mod_cast hs.1.2
    · exact absurd (shrinkDens_support hs) h
  · exact absurd rfl h

theorem hi_strict (hw : 0 < w) {x : ℝ} (hx : (x : EReal) < D.hi) {n : ℕ} {τ b : ℝ} (hxb : x < b)
    (h : hiGood p K D w n τ b) : x < hiEnd p D w n τ b := by
  have hcut : ∀ {b : ℝ}, D.hi < (b : EReal) → x < D.hi.toReal := fun hn => by
    have e := hi_bound hx.le hn
    rw [← EReal.coe_lt_coe_iff, e]; exact hx
  induction n generalizing b with
  | zero =>
    unfold hiEnd
    by_cases hn : D.hi < (b : EReal)
    · rw [if_pos hn]; exact hcut hn
    · rw [if_neg hn]; exact hxb
  | succ n ih =>
    unfold hiEnd
    by_cases hn : D.hi < (b : EReal)
    · rw [if_pos hn]; exact hcut hn
    · rw [if_neg hn]
      unfold hiGood at h
      rcases h with h | h | h
      · exact absurd h hn
      · rw [if_neg (not_over_of_under h)]; exact hxb
      · rw [if_pos h.1]
        exact ih (by linarith) h.2

/-- From a point of the interval, with the same grid, the loops lead to the same interval. -/
theorem same_interval (hw : 0 < w) {n : ℕ} {τ x r x' r' : ℝ} (hx : D.lo ≤ (x : EReal))
    (hx1 : (x : EReal) < D.hi) (hr : r ∈ Set.Ico (0 : ℝ) 1) (hr' : r' ∈ Set.Ico (0 : ℝ) 1) (m : ℤ)
    (hm : x' - r' * w = x - r * w + m * w)
    (hlo : loGood p K D w n τ (x - r * w)) (hhi : hiGood p K D w n τ (x + (1 - r) * w))
    (hin : x' ∈ Set.Ico (loEnd p D w n τ (x - r * w)) (hiEnd p D w n τ (x + (1 - r) * w))) :
    ∃ k, (loGood p K D w k τ (x' - r' * w) ∧ hiGood p K D w k τ (x' + (1 - r') * w)) ∧
      loEnd p D w k τ (x' - r' * w) = loEnd p D w n τ (x - r * w) ∧
      hiEnd p D w k τ (x' + (1 - r') * w) = hiEnd p D w n τ (x + (1 - r) * w) := by
  have hrw : 0 ≤ r * w := mul_nonneg hr.1 hw.le
  have hrw1 : r * w < w := by nlinarith [hr.2]
  have hrw' : 0 ≤ r' * w := mul_nonneg hr'.1 hw.le
  have hrw1' : r' * w < w := by nlinarith [hr'.2]
  suffices ∃ k1 k2, (loGood p K D w k1 τ (x' - r' * w) ∧ hiGood p K D w k2 τ (x' + (1 - r') * w)) ∧
      loEnd p D w k1 τ (x' - r' * w) = loEnd p D w n τ (x - r * w) ∧
      hiEnd p D w k2 τ (x' + (1 - r') * w) = hiEnd p D w n τ (x + (1 - r) * w) by
    obtain ⟨k1, k2, ⟨h1, h2⟩, h3, h4⟩ := this
    obtain ⟨a1, a2⟩ := loGood_add h1 k2
    obtain ⟨b1, b2⟩ := hiGood_add h2 k1
    rw [Nat.add_comm] at b1 b2
    exact ⟨k1 + k2, ⟨a1, b1⟩, a2.trans h3, b2.trans h4⟩
  rcases Int.eq_nat_or_neg m with ⟨j, rfl | rfl⟩
  · push_cast at hm
    obtain ⟨g1, k2, g2, g3⟩ := hi_far hx1.le hhi j fun i hi => by
      refine lt_of_le_of_lt ?_ hin.2
      have : ((i : ℝ) + 1) ≤ j := by exact_mod_cast hi
      nlinarith
    have eb : x + (1 - r) * w + j * w = x' + (1 - r') * w := by linarith
    rw [eb] at g2 g3
    have ea : x' - r' * w - j * w = x - r * w := by linarith
    rw [← ea] at hlo ⊢
    obtain ⟨k1, l1, l2⟩ := lo_back (a := x' - r' * w) j (fun i hi => by
      have hij : ((i : ℝ) + 1) ≤ j := by exact_mod_cast hi
      have e : x' - r' * w - i * w = x + (1 - r) * w + ((j - 1 - i : ℕ) : ℝ) * w := by
        have : ((j - 1 - i : ℕ) : ℝ) = (j : ℝ) - 1 - i := by
          rw [Nat.cast_sub (by omega), Nat.cast_sub (by omega)]; simp
        rw [this]; linarith
      refine ⟨hx.trans ?_, ?_⟩
      · have : x ≤ x' - r' * w - i * w := by nlinarith
        exact_mod_cast this
      · rw [e]
        exact (g1 (j - 1 - i) (by omega)).2) hlo
    exact ⟨k1, k2, ⟨l1, g2⟩, l2, g3⟩
  · push_cast at hm
    obtain ⟨g1, k1, g2, g3⟩ := lo_far hx hlo j fun i hi => by
      refine lt_of_le_of_lt hin.1 ?_
      have : ((i : ℝ) + 1) ≤ j := by exact_mod_cast hi
      nlinarith
    have ea : x - r * w - j * w = x' - r' * w := by linarith
    rw [ea] at g2 g3
    have eb : x' + (1 - r') * w + j * w = x + (1 - r) * w := by linarith
    rw [← eb] at hhi ⊢
    obtain ⟨k2, l1, l2⟩ := hi_back (b := x' + (1 - r') * w) j (fun i hi => by
      have hij : ((i : ℝ) + 1) ≤ j := by exact_mod_cast hi
      have e : x' + (1 - r') * w + i * w = x - r * w - ((j - 1 - i : ℕ) : ℝ) * w := by
        have : ((j - 1 - i : ℕ) : ℝ) = (j : ℝ) - 1 - i := by
          rw [Nat.cast_sub (by omega), Nat.cast_sub (by omega)]; simp
        rw [this]; linarith
      refine ⟨le_trans ?_ hx1.le, ?_⟩
      · have : x' + (1 - r') * w + i * w ≤ x := by nlinarith
        exact_mod_cast this
      · rw [e]
        exact (g1 (j - 1 - i) (by omega)).2) hhi
    exact ⟨k1, k2, ⟨g2, l1⟩, g3, l2⟩

theorem slice_shift_le (hw : 0 < w) {n : ℕ} {τ x r x' : ℝ} (hx : D.lo ≤ (x : EReal))
    (hx1 : (x : EReal) < D.hi) (hr : r ∈ Set.Ico (0 : ℝ) 1) (ho : Over p τ x) :
    sliceDens p K D w n τ x r x' ≤
      ⨆ k, sliceDens p K D w k τ x' (Int.fract (r + (x' - x) / w)) x := by
  by_cases h0 : sliceDens p K D w n τ x r x' = 0
  · rw [h0]; exact zero_le
  have ho' := (slice_support hw hx hx1 hr h0).2
  unfold sliceDens at h0 ⊢
  split at h0
  · rename_i hg
    rw [if_pos hg]
    by_cases hs : x' ∈ Set.Ico (loEnd p D w n τ (x - r * w)) (hiEnd p D w n τ (x + (1 - r) * w))
    · have hfr : Int.fract (r + (x' - x) / w) ∈ Set.Ico (0 : ℝ) 1 :=
        ⟨Int.fract_nonneg _, Int.fract_lt_one _⟩
      obtain ⟨k, k1, k2, k3⟩ := same_interval hw hx hx1 hr hfr ⌊r + (x' - x) / w⌋ (by
        unfold Int.fract
        field_simp
        ring) hg.1 hg.2 hs
      have hxin : x ∈ Set.Ico (loEnd p D w n τ (x - r * w)) (hiEnd p D w n τ (x + (1 - r) * w)) :=
        ⟨(loEnd_within hw hx (a := x - r * w) (by nlinarith [hr.1]) hg.1).2,
          hi_strict hw hx1 (by nlinarith [hr.2]) hg.2⟩
      refine le_trans ?_ (le_iSup _ (k + n))
      obtain ⟨a1, a2⟩ := loGood_add k1.1 n
      obtain ⟨b1, b2⟩ := hiGood_add k1.2 n
      rw [if_pos ⟨a1, b1⟩, a2, b2, k2, k3, shrinkDens_symm hxin hs ho ho']
      exact (monotone_nat_of_le_succ fun n => shrinkDens_mono n τ _ _ _ _) (Nat.le_add_left n k)
    · exact absurd (shrinkDens_support fun h => hs h.1) h0
  · exact absurd rfl h0

/-- Rotation of the unit interval. -/
theorem lintegral_fract (φ : ℝ → ℝ≥0∞) (c : ℝ) :
    ∫⁻ r in Set.Ico (0 : ℝ) 1, φ (Int.fract (r + c)) = ∫⁻ r in Set.Ico (0 : ℝ) 1, φ r := by
  have h1 : ∫⁻ r in Set.Ico (0 : ℝ) 1, φ (Int.fract (r + c))
      = ∫⁻ r in Set.Ico c (c + 1), φ (Int.fract r) := by
    have := (measurePreserving_add_right (volume : Measure ℝ) c).setLIntegral_comp_preimage_emb
      (measurableEmbedding_addRight c) (fun r => φ (Int.fract r)) (Set.Ico c (c + 1))
    rw [← this]
    congr 2
    ext r
    simp [Set.mem_Ico]
  have h2 : ∫⁻ r in Set.Ico (0 : ℝ) 1, φ r = ∫⁻ r in Set.Ico (0 : ℝ) (0 + 1), φ (Int.fract r) := by
    rw [zero_add]
    exact setLIntegral_congr_fun measurableSet_Ico fun r hr => by
      simp only [Int.fract_eq_self.mpr ⟨hr.1, hr.2⟩]
  rw [h1, h2, setLIntegral_congr Ico_ae_eq_Ioc, setLIntegral_congr Ico_ae_eq_Ioc]
  refine (isAddFundamentalDomain_Ioc' one_pos c volume).setLIntegral_eq
    (isAddFundamentalDomain_Ioc' one_pos 0 volume) (fun r => φ (Int.fract r)) fun g x => ?_
  obtain ⟨⟨g⟩, k, hk⟩ := g
  have : Int.fract ((⟨⟨g⟩, k, hk⟩ : (AddSubgroup.zmultiples (1 : ℝ)).op) +ᵥ x) = Int.fract x := by
    show Int.fract (x + g) = _
    have hk : k • (1 : ℝ) = g := hk
    rw [← hk, zsmul_one, Int.fract_add_intCast]
  rw [this]

open Classical in
theorem measurable_sliceDens (hp : Measurable p) (hK : MeasurableSet K) (n : ℕ) :
    Measurable fun q : (ℝ × ℝ × ℝ) × ℝ => sliceDens p K D w n q.1.1 q.1.2.1 q.2 q.1.2.2 := by
  have h1 : Measurable fun q : (ℝ × ℝ × ℝ) × ℝ => q.1.1 := measurable_fst.comp measurable_fst
  have h2 : Measurable fun q : (ℝ × ℝ × ℝ) × ℝ => q.1.2.1 :=
    measurable_fst.comp (measurable_snd.comp measurable_fst)
  have h3 : Measurable fun q : (ℝ × ℝ × ℝ) × ℝ => q.1.2.2 :=
    measurable_snd.comp (measurable_snd.comp measurable_fst)
  have h4 : Measurable fun q : (ℝ × ℝ × ℝ) × ℝ => q.2 := measurable_snd
  have ha : Measurable fun q : (ℝ × ℝ × ℝ) × ℝ => (q.1.1, q.1.2.1 - q.2 * w) :=
    h1.prodMk (h2.sub (h4.mul_const w))
  have hb : Measurable fun q : (ℝ × ℝ × ℝ) × ℝ => (q.1.1, q.1.2.1 + (1 - q.2) * w) :=
    h1.prodMk (h2.add ((measurable_const.sub h4).mul_const w))
  refine Measurable.ite ((ha (measurable_loGood hp hK n)).inter (hb (measurable_hiGood hp hK n))) ?_
    measurable_const
  exact (measurable_shrinkDens hp hK n).comp (h1.prodMk (((measurable_loEnd hp n).comp ha).prodMk
    (((measurable_hiEnd hp n).comp hb).prodMk (h2.prodMk h3))))

theorem measurable_levelDens (hp : Measurable p) (hK : MeasurableSet K) (n : ℕ) :
    Measurable fun q : ℝ × ℝ × ℝ => levelDens p K D w n q.1 q.2.1 q.2.2 :=
  (measurable_sliceDens hp hK n).lintegral_prod_right'

theorem levelDens_mono (τ x x' : ℝ) : Monotone fun n => levelDens p K D w n τ x x' := fun _ _ h =>
  lintegral_mono fun r => sliceDens_mono τ x r x' h

theorem levelDens_iSup (hp : Measurable p) (hK : MeasurableSet K) (τ x x' : ℝ) :
    ⨆ n, levelDens p K D w n τ x x' =
      ∫⁻ r in Set.Ico (0 : ℝ) 1, ⨆ n, sliceDens p K D w n τ x r x' := by
  unfold levelDens
  refine (lintegral_iSup (fun n => ?_) fun i j h r => sliceDens_mono τ x r x' h).symm
  have hc : Measurable fun r : ℝ => ((τ, x, x'), r) := measurable_const.prodMk measurable_id
  exact (measurable_sliceDens hp hK n).comp hc

theorem levelDens_symm_le (hw : 0 < w) (hp : Measurable p) (hK : MeasurableSet K) {τ x x' : ℝ}
    (hx : D.lo ≤ (x : EReal)) (hx1 : (x : EReal) < D.hi) (ho : Over p τ x) :
    ⨆ n, levelDens p K D w n τ x x' ≤ ⨆ n, levelDens p K D w n τ x' x := by
  rw [levelDens_iSup hp hK, levelDens_iSup hp hK,
    ← lintegral_fract (fun r => ⨆ n, sliceDens p K D w n τ x' r x) ((x' - x) / w)]
  exact setLIntegral_mono' measurableSet_Ico fun r hr => iSup_le fun n =>
    slice_shift_le hw hx hx1 hr ho

theorem levelDens_symm (hw : 0 < w) (hp : Measurable p) (hK : MeasurableSet K) {τ x x' : ℝ}
    (hx : D.lo ≤ (x : EReal)) (hx1 : (x : EReal) < D.hi) (ho : Over p τ x)
    (hx' : D.lo ≤ (x' : EReal)) (hx1' : (x' : EReal) < D.hi) (ho' : Over p τ x') :
    ⨆ n, levelDens p K D w n τ x x' = ⨆ n, levelDens p K D w n τ x' x :=
  le_antisymm (levelDens_symm_le hw hp hK hx hx1 ho) (levelDens_symm_le hw hp hK hx' hx1' ho')

theorem levelDens_support (hw : 0 < w) {n : ℕ} {τ x x' : ℝ} (hx : D.lo ≤ (x : EReal))
    (hx1 : (x : EReal) < D.hi)
    (h : ¬ ((D.lo ≤ (x' : EReal) ∧ (x' : EReal) < D.hi) ∧ Over p τ x')) :
    levelDens p K D w n τ x x' = 0 := by
  unfold levelDens
  rw [setLIntegral_congr_fun (g := fun _ => 0) measurableSet_Ico fun r hr => ?_, lintegral_zero]
  by_contra h0
  exact h (slice_support hw hx hx1 hr h0)

/-- Drawing the level. -/
theorem lintegral_level {P : ℝ≥0∞} (hP : P ≠ ⊤) {φ : ℝ → ℝ≥0∞} (hφ : Measurable φ) :
    P * ∫⁻ u in Set.Ico (0 : ℝ) 1, φ (u * P.toReal)
      = ∫⁻ τ in {τ | 0 < τ ∧ ENNReal.ofReal τ < P}, φ τ := by
  by_cases h0 : P = 0
  · subst h0
    simp
  have hpos : 0 < P.toReal := ENNReal.toReal_pos h0 hP
  have hS : {τ : ℝ | 0 < τ ∧ ENNReal.ofReal τ < P} = Set.Ioo 0 P.toReal := by
    ext τ
    simp only [Set.mem_ofPred_eq, Set.mem_Ioo]
    refine and_congr_right fun h => ?_
    rw [ENNReal.ofReal_lt_iff_lt_toReal h.le hP]
  rw [hS, setLIntegral_congr (Ioo_ae_eq_Ico (a := (0 : ℝ)) (b := P.toReal)).symm.symm]
  have hvol := Real.smul_map_volume_mul_right (ne_of_gt hpos)
  rw [← lintegral_indicator measurableSet_Ico, ← lintegral_indicator measurableSet_Ico]
  conv_rhs => rw [← hvol]
  rw [lintegral_smul_measure, lintegral_map (hφ.indicator measurableSet_Ico) (measurable_mul_const _),
    abs_of_pos hpos, ENNReal.ofReal_toReal hP, smul_eq_mul]
  congr 1
  refine lintegral_congr fun u => ?_
  unfold Set.indicator
  have : u ∈ Set.Ico (0 : ℝ) 1 ↔ u * P.toReal ∈ Set.Ico 0 P.toReal := by
    simp only [Set.mem_Ico]
    constructor
    · rintro ⟨h1, h2⟩; exact ⟨mul_nonneg h1 hpos.le, by nlinarith⟩
    · rintro ⟨h1, h2⟩
      exact ⟨nonneg_of_mul_nonneg_left h1 hpos, by nlinarith⟩
  by_cases h : u ∈ Set.Ico (0 : ℝ) 1
  · rw [if_pos h, if_pos (this.mp h)]
  · rw [if_neg h, if_neg fun h' => h (this.mpr h')]

/-- Expected value of `g` at the next point from `x`. -/
noncomputable def nextMean (p : ℝ → ℝ≥0∞) (K : Set ℝ) (D : Domain) (w : ℝ) (x : ℝ) (g : ℝ → ℝ≥0∞) :
    ℝ≥0∞ :=
  ∫⁻ u in Set.Ico (0 : ℝ) 1, ∫⁻ x', g x' * ⨆ n, levelDens p K D w n (u * (p x).toReal) x x'

open Classical in
/-- The flow from `x` to `x'` at the level `τ`. -/
noncomputable def flow (p : ℝ → ℝ≥0∞) (K : Set ℝ) (D : Domain) (w : ℝ) (τ x x' : ℝ) : ℝ≥0∞ :=
  if D.inside x ∧ D.inside x' ∧ 0 < τ ∧ Over p τ x ∧ Over p τ x' then
    ⨆ n, levelDens p K D w n τ x x' else 0

theorem flow_symm (hw : 0 < w) (hp : Measurable p) (hK : MeasurableSet K) (τ x x' : ℝ) :
    flow p K D w τ x x' = flow p K D w τ x' x := by
  unfold flow
  by_cases h : D.inside x ∧ D.inside x' ∧ 0 < τ ∧ Over p τ x ∧ Over p τ x'
  · obtain ⟨h1, h2, h3, h4, h5⟩ := h
    rw [if_pos ⟨h1, h2, h3, h4, h5⟩, if_pos ⟨h2, h1, h3, h5, h4⟩]
    exact levelDens_symm hw hp hK h1.1.le h1.2 h4 h2.1.le h2.2 h5
  · rw [if_neg h, if_neg fun h' => h ⟨h'.2.1, h'.1, h'.2.2.1, h'.2.2.2.2, h'.2.2.2.1⟩]

theorem measurableSet_inside (D : Domain) : MeasurableSet {x : ℝ | D.inside x} :=
  (measurableSet_lt measurable_const measurable_coe_real_ereal).inter
    (measurableSet_lt measurable_coe_real_ereal measurable_const)

open Classical in
theorem measurable_flow (hp : Measurable p) (hK : MeasurableSet K) :
    Measurable fun q : ℝ × ℝ × ℝ => flow p K D w q.1 q.2.1 q.2.2 := by
  have h2 : Measurable fun q : ℝ × ℝ × ℝ => q.2.1 := measurable_fst.comp measurable_snd
  have h3 : Measurable fun q : ℝ × ℝ × ℝ => q.2.2 := measurable_snd.comp measurable_snd
  refine Measurable.ite ?_ (Measurable.iSup fun n => measurable_levelDens hp hK n) measurable_const
  exact (h2 (measurableSet_inside D)).inter ((h3 (measurableSet_inside D)).inter
    ((measurableSet_lt measurable_const measurable_fst).inter
      ((measurable_over hp measurable_fst h2).inter (measurable_over hp measurable_fst h3))))

theorem nextMean_flow (hw : 0 < w) (hp : Measurable p) (hK : MeasurableSet K) {x : ℝ} (hx : D.inside x)
    (ht : p x ≠ ⊤) {g : ℝ → ℝ≥0∞} (hg : Measurable g) :
    p x * nextMean p K D w x g = ∫⁻ τ, ∫⁻ x', g x' * flow p K D w τ x x' := by
  have hm : Measurable fun τ => ∫⁻ x', g x' * ⨆ n, levelDens p K D w n τ x x' := by
    have : Measurable fun q : ℝ × ℝ => g q.2 * ⨆ n, levelDens p K D w n q.1 x q.2 :=
      (hg.comp measurable_snd).mul (Measurable.iSup fun n => (measurable_levelDens hp hK n).comp
        (measurable_fst.prodMk (measurable_const.prodMk measurable_snd)))
    exact this.lintegral_prod_right'
  have hS : MeasurableSet {τ : ℝ | 0 < τ ∧ ENNReal.ofReal τ < p x} :=
    (measurableSet_lt measurable_const measurable_id).inter
      (measurableSet_lt measurable_id.ennreal_ofReal measurable_const)
  unfold nextMean
  rw [lintegral_level ht hm, ← lintegral_indicator hS]
  refine lintegral_congr fun τ => ?_
  by_cases hτ : 0 < τ ∧ ENNReal.ofReal τ < p x
  · rw [Set.indicator_of_mem (by exact hτ)]
    have hne : ∀ᵐ x' : ℝ, x' ≠ D.lo.toReal := by
      rw [ae_iff]
      simp
    refine lintegral_congr_ae ?_
    filter_upwards [hne] with x' hx'
    congr 1
    unfold flow
    by_cases h : D.inside x' ∧ Over p τ x'
    · rw [if_pos ⟨hx, h.1, hτ.1, hτ.2, h.2⟩]
    · rw [if_neg fun h' => h ⟨h'.2.1, h'.2.2.2.2⟩, ENNReal.iSup_eq_zero]
      intro n
      refine levelDens_support hw hx.1.le hx.2 fun h' => h ⟨⟨lt_of_le_of_ne h'.1.1 fun e => hx' ?_, h'.1.2⟩,
        h'.2⟩
      rw [e, EReal.toReal_coe]
  · rw [Set.indicator_of_notMem (by exact hτ)]
    symm
    rw [lintegral_congr (g := fun _ => 0), lintegral_zero]
    intro x'
    unfold flow
    rw [if_neg fun h' => hτ ⟨h'.2.2.1, h'.2.2.2.1⟩, mul_zero]

/-- Detailed balance. -/
theorem nextMean_balance (hw : 0 < w) (hp : Measurable p) (hK : MeasurableSet K)
    (ht : ∀ x, D.inside x → p x ≠ ⊤) {g1 g2 : ℝ → ℝ≥0∞} (hg1 : Measurable g1) (hg2 : Measurable g2) :
    ∫⁻ x in {x | D.inside x}, p x * (g1 x * nextMean p K D w x g2)
      = ∫⁻ x in {x | D.inside x}, p x * (g2 x * nextMean p K D w x g1) := by
  have key : ∀ {g1 g2 : ℝ → ℝ≥0∞}, Measurable g1 → Measurable g2 →
      ∫⁻ x in {x | D.inside x}, p x * (g1 x * nextMean p K D w x g2)
        = ∫⁻ τ, ∫⁻ x, ∫⁻ x', g1 x * g2 x' * flow p K D w τ x x' := by
    intro g1 g2 hg1 hg2
    have hm3 : Measurable fun q : (ℝ × ℝ) × ℝ => g1 q.1.1 * g2 q.2 * flow p K D w q.1.2 q.1.1 q.2 :=
      ((hg1.comp (measurable_fst.comp measurable_fst)).mul (hg2.comp measurable_snd)).mul
        ((measurable_flow hp hK).comp ((measurable_snd.comp measurable_fst).prodMk
          ((measurable_fst.comp measurable_fst).prodMk measurable_snd)))
    rw [← lintegral_lintegral_swap (f := fun x τ => ∫⁻ x', g1 x * g2 x' * flow p K D w τ x x')
      hm3.lintegral_prod_right'.aemeasurable, ← lintegral_indicator (measurableSet_inside D)]
    refine lintegral_congr fun x => ?_
    by_cases hx : D.inside x
    · rw [Set.indicator_of_mem (by exact hx), mul_left_comm, nextMean_flow hw hp hK hx (ht x hx) hg2,
        ← lintegral_const_mul]
      · refine lintegral_congr fun τ => ?_
        rw [← lintegral_const_mul]
        · refine lintegral_congr fun x' => ?_
          rw [mul_assoc]
        · exact hg2.mul ((measurable_flow hp hK).comp (measurable_const.prodMk
            (measurable_const.prodMk measurable_id)))
      · have : Measurable fun q : ℝ × ℝ => g2 q.2 * flow p K D w q.1 x q.2 :=
          (hg2.comp measurable_snd).mul ((measurable_flow hp hK).comp
            (measurable_fst.prodMk (measurable_const.prodMk measurable_snd)))
        exact this.lintegral_prod_right'
    · rw [Set.indicator_of_notMem (by exact hx)]
      symm
      have : ∀ τ x', g1 x * g2 x' * flow p K D w τ x x' = 0 := fun τ x' => by
        unfold flow
        rw [if_neg fun h => hx h.1, mul_zero]
      simp only [this, lintegral_zero]
  rw [key hg1 hg2, key hg2 hg1]
  refine lintegral_congr fun τ => ?_
  have hm2 : Measurable fun q : ℝ × ℝ => g1 q.1 * g2 q.2 * flow p K D w τ q.1 q.2 :=
    ((hg1.comp measurable_fst).mul (hg2.comp measurable_snd)).mul
      ((measurable_flow hp hK).comp (measurable_const.prodMk measurable_id))
  rw [lintegral_lintegral_swap hm2.aemeasurable]
  refine lintegral_congr fun x => lintegral_congr fun x' => ?_
  rw [flow_symm hw hp hK τ x' x, mul_comm (g1 x')]

end Cgpm.Sampler
