import Verif.Lemmas.SliceBalance
import Verif.Spec.SliceDraws
import Verif.Lemmas.MhDraws

/-! The program of the slice sampler has the densities of `SliceBalance`. -/
namespace Cgpm.Sampler
open Cgpm MeasureTheory Props
open scoped ENNReal

/-- Where the log density returns. -/
def returnsAt (f : ℝ → Except Exn Fl) : Set ℝ := {y | ∃ q, f y = .ok q}

/-- The comparisons with `u` are those with the level `τ`. -/
def Level (f : ℝ → Except Exn Fl) (u : Fl) (τ : ℝ) : Prop :=
  ∀ y q, f y = .ok q → (u.lt q ↔ Over (densityOf f) τ y)

variable {f : ℝ → Except Exn Fl} {u : Fl} {τ : ℝ} {D : Domain} {w : ℝ}

theorem over_returns {y : ℝ} (h : Over (densityOf f) τ y) : ∃ q, f y = .ok q := by
  unfold Over densityOf at h
  cases hf : f y with
  | ok q => exact ⟨q, rfl⟩
  | error e => rw [hf] at h; exact absurd h not_lt_zero'

theorem level_under (hl : Level f u τ) {y : ℝ} {q : Fl} (hq : f y = .ok q) (h : ¬ u.lt q) :
    Under (densityOf f) (returnsAt f) τ y :=
  ⟨⟨q, hq⟩, not_lt.mp fun ho => h ((hl y q hq).mpr ho)⟩

theorem level_of {x v a : ℝ} (hv : 0 < v) (hf : f x = .ok (.fin a)) :
    Level f ((Fl.fin (Real.log v)).add (.fin a)) (v * (densityOf f x).toReal) := by
  have hd : (densityOf f x).toReal = Real.exp a := by
    unfold densityOf
    rw [hf]
    exact ENNReal.toReal_ofReal (Real.exp_pos a).le
  intro y q hq
  unfold Over
  rw [hd]
  have hy : densityOf f y = mass q := by unfold densityOf; rw [hq]
  rw [hy]
  cases q with
  | nan => simp [Fl.lt, Fl.add, Fl.toE, mass]
  | ninf => simp [Fl.lt, Fl.add, Fl.toE, mass]
  | pinf =>
    simp only [Fl.lt, Fl.add, Fl.toE, mass, ne_eq, reduceCtorEq, not_false_eq_true, true_and,
      ENNReal.ofReal_lt_top, iff_true]
    exact EReal.coe_lt_top _
  | fin y =>
    have e : Real.log v + a < y ↔ v * Real.exp a < Real.exp y := by
      rw [← lt_div_iff₀ (Real.exp_pos a), ← Real.exp_sub, ← Real.log_lt_iff_lt_exp hv, lt_sub_iff_add_lt]
    simp only [Fl.lt, Fl.add, Fl.toE, mass, ne_eq, reduceCtorEq, not_false_eq_true, true_and,
      EReal.coe_lt_coe_iff]
    rw [e, ENNReal.ofReal_lt_ofReal_iff (Real.exp_pos y)]

theorem positive_fin {x : ℝ} (h0 : densityOf f x ≠ 0) (ht : densityOf f x ≠ ⊤) :
    ∃ a, f x = .ok (.fin a) := by
  unfold densityOf at h0 ht
  cases hf : f x with
  | error e => rw [hf] at h0; exact absurd rfl h0
  | ok q =>
    rw [hf] at h0 ht
    cases q with
    | nan => exact absurd rfl h0
    | ninf => exact absurd rfl h0
    | pinf => exact absurd rfl ht
    | fin a => exact ⟨a, rfl⟩

open Classical in
theorem extendLo_iff (hl : Level f u τ) {n : ℕ} {a e : ℝ} :
    (if (a : EReal) < D.lo then some (.ok D.lo.toReal) else extendLo f u D w n a) = some (.ok e) ↔
      loGood (densityOf f) (returnsAt f) D w n τ a ∧ loEnd (densityOf f) D w n τ a = e := by
  induction n generalizing a with
  | zero =>
    by_cases hn : (a : EReal) < D.lo
    · simp [hn, loGood, loEnd]
    · rw [if_neg hn]
      unfold extendLo loGood loEnd
      rw [if_neg hn]
      cases hf : f a with
      | error e' =>
        simp only [Option.some.injEq, reduceCtorEq, false_iff, not_and]
        rintro (h | h)
        · exact absurd h hn
        · obtain ⟨q, hq⟩ := h.1
          rw [hf] at hq; cases hq
      | ok y =>
        by_cases hlt : u.lt y
        · simp only [hlt, if_true, reduceCtorEq, false_iff, not_and]
          rintro (h | h)
          · exact absurd h hn
          · exact absurd ((hl a y hf).mp hlt) (not_over_of_under h)
        · simp only [hlt, if_false, Option.some.injEq, Except.ok.injEq]
          exact ⟨fun h => ⟨.inr (level_under hl hf hlt), h⟩, fun h => h.2⟩
  | succ n ih =>
    by_cases hn : (a : EReal) < D.lo
    · simp [hn, loGood, loEnd]
    · rw [if_neg hn]
      have he : loEnd (densityOf f) D w (n + 1) τ a =
          if Over (densityOf f) τ a then loEnd (densityOf f) D w n τ (a - w) else a := by
        conv_lhs => unfold loEnd
        rw [if_neg hn]
      rw [he]
      unfold extendLo loGood
      cases hf : f a with
      | error e' =>
        simp only [Option.some.injEq, reduceCtorEq, false_iff, not_and]
        rintro (h | h | h)
        · exact absurd h hn
        · obtain ⟨q, hq⟩ := h.1
          rw [hf] at hq; cases hq
        · obtain ⟨q, hq⟩ := over_returns h.1
          rw [hf] at hq; cases hq
      | ok y =>
        by_cases hlt : u.lt y
        · have ho := (hl a y hf).mp hlt
          simp only [hlt, if_true]
          rw [ih, if_pos ho]
          refine and_congr_left fun _ => ⟨fun h => .inr (.inr ⟨ho, h⟩), ?_⟩
          rintro (h | h | h)
          · exact absurd h hn
          · exact absurd ho (not_over_of_under h)
          · exact h.2
        · have hu := level_under hl hf hlt
          simp only [hlt, if_false, Option.some.injEq, Except.ok.injEq]
          rw [if_neg (not_over_of_under hu)]
          exact ⟨fun h => ⟨.inr (.inl hu), h⟩, fun h => h.2⟩

open Classical in
theorem extendHi_iff (hl : Level f u τ) {n : ℕ} {b e : ℝ} :
    (if D.hi < (b : EReal) then some (.ok D.hi.toReal) else extendHi f u D w n b) = some (.ok e) ↔
      hiGood (densityOf f) (returnsAt f) D w n τ b ∧ hiEnd (densityOf f) D w n τ b = e := by
  induction n generalizing b with
  | zero =>
    by_cases hn : D.hi < (b : EReal)
    · simp [hn, hiGood, hiEnd]
    · rw [if_neg hn]
      unfold extendHi hiGood hiEnd
      rw [if_neg hn]
      cases hf : f b with
      | error e' =>
        simp only [Option.some.injEq, reduceCtorEq, false_iff, not_and]
        rintro (h | h)
        · exact absurd h hn
        · obtain ⟨q, hq⟩ := h.1
          rw [hf] at hq; cases hq
      | ok y =>
        by_cases hlt : u.lt y
        · simp only [hlt, if_true, reduceCtorEq, false_iff, not_and]
          rintro (h | h)
          · exact absurd h hn
          · exact absurd ((hl b y hf).mp hlt) (not_over_of_under h)
        · simp only [hlt, if_false, Option.some.injEq, Except.ok.injEq]
          exact ⟨fun h => ⟨.inr (level_under hl hf hlt), h⟩, fun h => h.2⟩
  | succ n ih =>
    by_cases hn : D.hi < (b : EReal)
    · simp [hn, hiGood, hiEnd]
    · rw [if_neg hn]
      have he : hiEnd (densityOf f) D w (n + 1) τ b =
          if Over (densityOf f) τ b then hiEnd (densityOf f) D w n τ (b + w) else b := by
        conv_lhs => unfold hiEnd
        rw [if_neg hn]
      rw [he]
      unfold extendHi hiGood
      cases hf : f b with
      | error e' =>
        simp only [Option.some.injEq, reduceCtorEq, false_iff, not_and]
        rintro (h | h | h)
        · exact absurd h hn
        · obtain ⟨q, hq⟩ := h.1
          rw [hf] at hq; cases hq
        · obtain ⟨q, hq⟩ := over_returns h.1
          rw [hf] at hq; cases hq
      | ok y =>
        by_cases hlt : u.lt y
        · have ho := (hl b y hf).mp hlt
          simp only [hlt, if_true]
          rw [ih, if_pos ho]
          refine and_congr_left fun _ => ⟨fun h => .inr (.inr ⟨ho, h⟩), ?_⟩
          rintro (h | h | h)
          · exact absurd h hn
          · exact absurd ho (not_over_of_under h)
          · exact h.2
        · have hu := level_under hl hf hlt
          simp only [hlt, if_false, Option.some.injEq, Except.ok.injEq]
          rw [if_neg (not_over_of_under hu)]
          exact ⟨fun h => ⟨.inr (.inl hu), h⟩, fun h => h.2⟩


theorem interval_iff (hl : Level f u τ) {n : ℕ} {x r a b : ℝ} :
    findSliceInterval f r x u D w n = some (.ok (a, b)) ↔
      (loGood (densityOf f) (returnsAt f) D w n τ (x - r * w) ∧
        hiGood (densityOf f) (returnsAt f) D w n τ (x + (1 - r) * w)) ∧
      loEnd (densityOf f) D w n τ (x - r * w) = a ∧
      hiEnd (densityOf f) D w n τ (x + (1 - r) * w) = b := by
  classical
  unfold findSliceInterval
  dsimp only
  have hlo := fun e => extendLo_iff (D := D) (w := w) hl (n := n) (a := x - r * w) (e := e)
  have hhi := fun e => extendHi_iff (D := D) (w := w) hl (n := n) (b := x + (1 - r) * w) (e := e)
  split
  · rename_i h
    simp only [reduceCtorEq, false_iff]
    rintro ⟨⟨g1, -⟩, -⟩
    have := (hlo _).mpr ⟨g1, rfl⟩
    rw [h] at this; cases this
  · rename_i e' h
    simp only [Option.some.injEq, reduceCtorEq, false_iff]
    rintro ⟨⟨g1, -⟩, -⟩
    have := (hlo _).mpr ⟨g1, rfl⟩
    rw [h] at this; cases this
  · rename_i a' h
    obtain ⟨g1, g2⟩ := (hlo _).mp h
    split
    · rename_i h'
      simp only [reduceCtorEq, false_iff]
      rintro ⟨⟨-, g3⟩, -⟩
      have := (hhi _).mpr ⟨g3, rfl⟩
      rw [h'] at this; cases this
    · rename_i e' h'
      simp only [Option.some.injEq, reduceCtorEq, false_iff]
      rintro ⟨⟨-, g3⟩, -⟩
      have := (hhi _).mpr ⟨g3, rfl⟩
      rw [h'] at this; cases this
    · rename_i b' h'
      obtain ⟨g3, g4⟩ := (hhi _).mp h'
      rw [g2, g4]
      simp only [Option.some.injEq, Except.ok.injEq, Prod.mk.injEq]
      exact ⟨fun h => ⟨⟨g1, g3⟩, h⟩, fun h => h.2⟩

open Classical in
theorem shrinkDraws_E (hp : Measurable (densityOf f)) (hK : MeasurableSet (returnsAt f))
    (hl : Level f u τ) {g : ℝ → ℝ≥0∞} (hg : Measurable g) (n : ℕ) (x a b : ℝ) :
    (shrinkDraws f u x n a b).E (atNext g)
      = ∫⁻ x', g x' * shrinkDens (densityOf f) (returnsAt f) n τ a b x x' := by
  have hgm : Measurable fun y => g y * (if y ∈ Set.Ico a b ∧ Over (densityOf f) τ y then 1 else 0 : ℝ≥0∞) :=
    hg.mul (Measurable.ite (measurableSet_Ico.inter (measurable_over hp measurable_const measurable_id))
      measurable_const measurable_const)
  induction n generalizing a b with
  | zero =>
    unfold shrinkDraws shrinkDens Draws.E npUniform
    rw [lintegral_smul_measure, smul_eq_mul, ← lintegral_indicator measurableSet_Ico]
    simp only [mul_left_comm (g _)]
    rw [lintegral_const_mul _ hgm]
    congr 1
    refine lintegral_congr fun y => ?_
    by_cases hy : y ∈ Set.Ico a b
    · rw [Set.indicator_of_mem hy]
      cases hf : f y with
      | error e =>
        rw [if_neg, mul_zero]
        · rfl
        · rintro ⟨-, ho⟩
          obtain ⟨q, hq⟩ := over_returns ho
          rw [hf] at hq; cases hq
      | ok q =>
        by_cases hlt : u.lt q
        · simp only [hlt, if_true]
          rw [if_pos ⟨hy, (hl y q hf).mp hlt⟩, mul_one]
          rfl
        · simp only [hlt, if_false]
          rw [if_neg fun h => hlt ((hl y q hf).mpr h.2), mul_zero]
          rfl
    · rw [Set.indicator_of_notMem hy, if_neg fun h => hy h.1, mul_zero]
  | succ n ih =>
    unfold shrinkDraws shrinkDens Draws.E npUniform
    rw [lintegral_smul_measure, smul_eq_mul]
    simp only [mul_left_comm (g _)]
    have hms : Measurable fun z : ℝ × ℝ => if Under (densityOf f) (returnsAt f) τ z.2 then
        (if x < z.2 then shrinkDens (densityOf f) (returnsAt f) n τ a z.2 x z.1
          else shrinkDens (densityOf f) (returnsAt f) n τ z.2 b x z.1) else 0 := by
      refine Measurable.ite (measurable_under hp hK measurable_const measurable_snd)
        (Measurable.ite (measurableSet_lt measurable_const measurable_snd) ?_ ?_) measurable_const
      · exact (measurable_shrinkDens hp hK n).comp (measurable_const.prodMk (measurable_const.prodMk
          (measurable_snd.prodMk (measurable_const.prodMk measurable_fst))))
      · exact (measurable_shrinkDens hp hK n).comp (measurable_const.prodMk (measurable_snd.prodMk
          (measurable_const.prodMk (measurable_const.prodMk measurable_fst))))
    have hmi : Measurable fun x' => ∫⁻ y in Set.Ico a b, if Under (densityOf f) (returnsAt f) τ y then
        (if x < y then shrinkDens (densityOf f) (returnsAt f) n τ a y x x'
          else shrinkDens (densityOf f) (returnsAt f) n τ y b x x') else 0 :=
      hms.lintegral_prod_right'
    rw [lintegral_const_mul]
    · congr 1
      simp only [mul_add]
      rw [lintegral_add_left hgm]
      have hsw : ∫⁻ x', g x' * ∫⁻ y in Set.Ico a b, (if Under (densityOf f) (returnsAt f) τ y then
          (if x < y then shrinkDens (densityOf f) (returnsAt f) n τ a y x x'
            else shrinkDens (densityOf f) (returnsAt f) n τ y b x x') else 0)
          = ∫⁻ y in Set.Ico a b, ∫⁻ x', g x' * (if Under (densityOf f) (returnsAt f) τ y then
          (if x < y then shrinkDens (densityOf f) (returnsAt f) n τ a y x x'
            else shrinkDens (densityOf f) (returnsAt f) n τ y b x x') else 0) := by
        rw [← lintegral_lintegral_swap]
        · refine lintegral_congr fun x' => ?_
          rw [lintegral_const_mul]
          exact hms.comp (measurable_const.prodMk measurable_id)
        · exact ((hg.comp measurable_fst).mul hms).aemeasurable
      rw [hsw, ← lintegral_indicator measurableSet_Ico, ← lintegral_indicator measurableSet_Ico,
        ← lintegral_add_left hgm]
      refine lintegral_congr fun y => ?_
      by_cases hy : y ∈ Set.Ico a b
      · rw [Set.indicator_of_mem hy, Set.indicator_of_mem hy]
        cases hf : f y with
        | error e =>
          have h1 : ¬ Over (densityOf f) τ y := fun ho => by
            obtain ⟨q, hq⟩ := over_returns ho
            rw [hf] at hq; cases hq
          have h2 : ¬ Under (densityOf f) (returnsAt f) τ y := fun ho => by
            obtain ⟨q, hq⟩ := ho.1
            rw [hf] at hq; cases hq
          simp only [h1, h2, and_false, if_false, mul_zero, lintegral_zero, add_zero]
          rfl
        | ok q =>
          by_cases hlt : u.lt q
          · have ho := (hl y q hf).mp hlt
            have h2 : ¬ Under (densityOf f) (returnsAt f) τ y := fun h => not_over_of_under h ho
            simp only [hlt, ho, h2, hy, and_self, if_true, if_false, mul_zero, lintegral_zero, add_zero,
              mul_one]
            rfl
          · have h2 := level_under hl hf hlt
            simp only [hlt, not_over_of_under h2, h2, and_false, if_true, if_false, mul_zero, zero_add]
            by_cases hxy : x < y
            · simp only [hxy, if_true]
              exact ih a y (hg.mul (Measurable.ite (measurableSet_Ico.inter
                (measurable_over hp measurable_const measurable_id)) measurable_const measurable_const))
            · simp only [hxy, if_false]
              exact ih y b (hg.mul (Measurable.ite (measurableSet_Ico.inter
                (measurable_over hp measurable_const measurable_id)) measurable_const measurable_const))
      · rw [Set.indicator_of_notMem hy, Set.indicator_of_notMem hy, if_neg fun h => hy h.1, mul_zero,
          add_zero]
    · simp only [mul_add]
      exact hgm.add (hg.mul hmi)

open Classical in
/-- One iteration with at most `n` rounds of each loop. -/
theorem sliceMove_E {A : SliceArgs} (hA : SliceTarget A) {g : ℝ → ℝ≥0∞} (hg : Measurable g) (n : ℕ)
    {x : ℝ} (h0 : densityOf A.f x ≠ 0) (ht : densityOf A.f x ≠ ⊤) :
    (sliceMoveDraws A n x).E (atNext g) = ∫⁻ v in Set.Ico (0 : ℝ) 1, ∫⁻ x', g x' *
      levelDens (densityOf A.f) (returnsAt A.f) A.D A.w n (v * (densityOf A.f x).toReal) x x' := by
  obtain ⟨a, ha⟩ := positive_fin h0 ht
  unfold sliceMoveDraws Draws.E
  rw [npUniform_unit, setLIntegral_congr Ioo_ae_eq_Ico.symm]
  refine setLIntegral_congr_fun measurableSet_Ioo fun v hv => ?_
  have hlog : Fl.log (.fin v) = .ok (.fin (Real.log v)) := by
    exact if_pos hv.1
  simp only [hlog, ha]
  have hl := level_of hv.1 ha
  set τ := v * (densityOf A.f x).toReal with hτ
  set u := (Fl.fin (Real.log v)).add (.fin a) with hu
  have hms : Measurable fun q : ℝ × ℝ =>
      sliceDens (densityOf A.f) (returnsAt A.f) A.D A.w n τ x q.2 q.1 := by
    have hc : Measurable fun q : ℝ × ℝ => ((τ, x, q.1), q.2) :=
      (measurable_const.prodMk (measurable_const.prodMk measurable_fst)).prodMk measurable_snd
    exact (measurable_sliceDens hA.density hA.returns n).comp hc
  unfold Draws.E
  rw [npUniform_unit, setLIntegral_congr Ioo_ae_eq_Ico]
  have hsw : ∫⁻ x', g x' * levelDens (densityOf A.f) (returnsAt A.f) A.D A.w n τ x x'
      = ∫⁻ r in Set.Ico (0 : ℝ) 1, ∫⁻ x', g x' *
          sliceDens (densityOf A.f) (returnsAt A.f) A.D A.w n τ x r x' := by
    rw [← lintegral_lintegral_swap]
    · refine lintegral_congr fun x' => ?_
      unfold levelDens
      rw [lintegral_const_mul]
      have hc : Measurable fun r : ℝ => (x', r) := measurable_const.prodMk measurable_id
      exact hms.comp hc
    · exact ((hg.comp measurable_fst).mul hms).aemeasurable
  rw [hsw]
  refine lintegral_congr fun r => ?_
  dsimp only
  unfold sliceDens
  by_cases hgood : loGood (densityOf A.f) (returnsAt A.f) A.D A.w n τ (x - r * A.w) ∧
      hiGood (densityOf A.f) (returnsAt A.f) A.D A.w n τ (x + (1 - r) * A.w)
  · rw [(interval_iff hl).mpr ⟨hgood, rfl, rfl⟩]
    simp only [hgood, and_self, if_true]
    exact shrinkDraws_E hA.density hA.returns hl hg n x _ _
  · simp only [hgood, if_false, mul_zero, lintegral_zero]
    split
    · rfl
    · rfl
    · rename_i a' b' h
      exact absurd ((interval_iff hl).mp h).1 hgood

theorem sliceNext_eq {A : SliceArgs} (hA : SliceTarget A) {g : ℝ → ℝ≥0∞} (hg : Measurable g)
    {x : ℝ} (h0 : densityOf A.f x ≠ 0) (ht : densityOf A.f x ≠ ⊤) :
    sliceNext A x g = nextMean (densityOf A.f) (returnsAt A.f) A.D A.w x g := by
  unfold sliceNext nextMean
  simp only [sliceMove_E hA hg _ h0 ht]
  have hm : ∀ n, Measurable fun q : ℝ × ℝ => g q.2 *
      levelDens (densityOf A.f) (returnsAt A.f) A.D A.w n (q.1 * (densityOf A.f x).toReal) x q.2 := by
    intro n
    have hc : Measurable fun q : ℝ × ℝ => (q.1 * (densityOf A.f x).toReal, x, q.2) :=
      (measurable_fst.mul_const _).prodMk (measurable_const.prodMk measurable_snd)
    exact (hg.comp measurable_snd).mul ((measurable_levelDens hA.density hA.returns n).comp hc)
  rw [← lintegral_iSup]
  · refine lintegral_congr fun v => ?_
    rw [← lintegral_iSup]
    · refine lintegral_congr fun x' => ?_
      rw [ENNReal.mul_iSup]
    · intro n
      have hc : Measurable fun x' : ℝ => (v, x') := measurable_const.prodMk measurable_id
      exact (hm n).comp hc
    · intro i j h x'
      exact mul_le_mul_right (levelDens_mono _ x x' h) _
  · intro n
    exact (hm n).lintegral_prod_right'
  · intro i j h v
    exact lintegral_mono fun x' => mul_le_mul_right (levelDens_mono _ x x' h) _

end Cgpm.Sampler
