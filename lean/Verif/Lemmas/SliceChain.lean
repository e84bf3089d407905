import Verif.Lemmas.SliceRun
import Verif.Lemmas.SliceEnds

/-! Iterations of the slice sampler. -/
namespace Cgpm.Sampler
open Cgpm MeasureTheory Props
open scoped ENNReal

variable {f : ℝ → Except Exn Fl} {u : Fl} {τ : ℝ} {D : Domain} {w : ℝ} {A : SliceArgs}

/-! ### Chances are at most one -/

theorem npUniform_le_one (a b : ℝ) : npUniform a b Set.univ ≤ 1 := by
  unfold npUniform
  rw [Measure.smul_apply, Measure.restrict_apply_univ, Real.volume_Ico, smul_eq_mul]
  exact ENNReal.inv_mul_le_one _

theorem E_npUniform_le_one {a b : ℝ} {F : ℝ → ℝ≥0∞} (h : ∀ y, F y ≤ 1) :
    ∫⁻ y, F y ∂npUniform a b ≤ 1 :=
  (lintegral_mono h).trans (by rw [lintegral_one]; exact npUniform_le_one a b)

theorem draws_E_zero {α : Type} (m : Draws α) : m.E (fun _ => 0) = 0 := by
  induction m with
  | pure a => rfl
  | raise e => rfl
  | draw law k ih => simp only [Draws.E, ih, lintegral_zero]

open Classical in
theorem shrinkDraws_le_one {g : ℝ → ℝ≥0∞} (hg : ∀ y, g y ≤ 1) (n : ℕ) (x a b : ℝ) :
    (shrinkDraws f u x n a b).E (atNext g) ≤ 1 := by
  have h0 : (0 : ℝ≥0∞) ≤ 1 := zero_le_one
  induction n generalizing a b with
  | zero =>
    unfold shrinkDraws Draws.E
    refine E_npUniform_le_one fun y => ?_
    dsimp only
    cases hf : f y with
    | error e => exact h0
    | ok q =>
      by_cases hlt : u.lt q
      · simp only [hlt, if_true]; exact hg y
      · simp only [hlt, if_false]; exact h0
  | succ n ih =>
    unfold shrinkDraws Draws.E
    refine E_npUniform_le_one fun y => ?_
    dsimp only
    cases hf : f y with
    | error e => exact h0
    | ok q =>
      by_cases hlt : u.lt q
      · simp only [hlt, if_true]; exact hg y
      · simp only [hlt, if_false]
        by_cases hxy : x < y
        · simp only [hxy, if_true]; exact ih _ _
        · simp only [hxy, if_false]; exact ih _ _

theorem sliceMove_le_one {g : ℝ → ℝ≥0∞} (hg : ∀ y, g y ≤ 1) (n : ℕ) (x : ℝ) :
    (sliceMoveDraws A n x).E (atNext g) ≤ 1 := by
  have h0 : (0 : ℝ≥0∞) ≤ 1 := zero_le_one
  unfold sliceMoveDraws Draws.E
  refine E_npUniform_le_one fun v => ?_
  dsimp only
  cases Fl.log (.fin v) with
  | error e => exact h0
  | ok lu =>
    cases A.f x with
    | error e => exact h0
    | ok y =>
      dsimp only
      unfold Draws.E
      refine E_npUniform_le_one fun r => ?_
      dsimp only
      cases findSliceInterval A.f r x (lu.add y) A.D A.w n with
      | none => exact h0
      | some o =>
        cases o with
        | error e => exact h0
        | ok ab => exact shrinkDraws_le_one hg _ _ _ _

/-! ### The points to which a move leads -/

open Classical in
theorem shrinkDraws_congr {g g' : ℝ → ℝ≥0∞} (hl : Level f u τ) (n : ℕ) (x a b : ℝ)
    (h : ∀ y, a < y → y < b → Over (densityOf f) τ y → g y = g' y) :
    (shrinkDraws f u x n a b).E (atNext g) = (shrinkDraws f u x n a b).E (atNext g') := by
  have hae : ∀ {a b : ℝ}, ∀ᵐ y ∂npUniform a b, a < y ∧ y < b := by
    intro a b
    unfold npUniform
    refine Measure.ae_smul_measure ?_ _
    rw [Measure.restrict_congr_set Ioo_ae_eq_Ico.symm, ae_restrict_iff' measurableSet_Ioo]
    exact .of_forall fun y hy => hy
  induction n generalizing a b with
  | zero =>
    unfold shrinkDraws Draws.E
    refine lintegral_congr_ae ?_
    filter_upwards [hae] with y hy
    cases hf : f y with
    | error e => rfl
    | ok q =>
      by_cases hlt : u.lt q
      · simp only [hlt, if_true]
        exact h y hy.1 hy.2 ((hl y q hf).mp hlt)
      · simp only [hlt, if_false]; rfl
  | succ n ih =>
    unfold shrinkDraws Draws.E
    refine lintegral_congr_ae ?_
    filter_upwards [hae] with y hy
    cases hf : f y with
    | error e => rfl
    | ok q =>
      by_cases hlt : u.lt q
      · simp only [hlt, if_true]
        exact h y hy.1 hy.2 ((hl y q hf).mp hlt)
      · simp only [hlt, if_false]
        by_cases hxy : x < y
        · simp only [hxy, if_true]
          exact ih _ _ fun z h1 h2 => h z h1 (h2.trans hy.2)
        · simp only [hxy, if_false]
          exact ih _ _ fun z h1 h2 => h z (hy.1.trans h1) h2

/-- The points of the domain at which there is a density. -/
def Alive (A : SliceArgs) (x : ℝ) : Prop := A.D.inside x ∧ densityOf A.f x ≠ 0

theorem sliceMove_congr (hw : 0 < A.w) (hA : SliceTarget A) {g g' : ℝ → ℝ≥0∞} (n : ℕ) {x : ℝ}
    (hx : Alive A x) (h : ∀ y, Alive A y → g y = g' y) :
    (sliceMoveDraws A n x).E (atNext g) = (sliceMoveDraws A n x).E (atNext g') := by
  obtain ⟨a, ha⟩ := positive_fin hx.2 (hA.finite x hx.1)
  unfold sliceMoveDraws Draws.E
  rw [npUniform_unit, npUniform_unit]
  refine setLIntegral_congr_fun measurableSet_Ioo fun v hv => ?_
  have hlog : Fl.log (.fin v) = .ok (.fin (Real.log v)) := if_pos hv.1
  simp only [hlog, ha]
  have hl := level_of hv.1 ha
  unfold Draws.E
  rw [npUniform_unit, npUniform_unit]
  refine setLIntegral_congr_fun measurableSet_Ioo fun r hr => ?_
  dsimp only
  split
  · rfl
  · rfl
  · rename_i a' b' hi
    obtain ⟨⟨g1, g2⟩, rfl, rfl⟩ := (interval_iff hl).mp hi
    have e1 := (lo_strict hw hx.1 hr.1 g1).1
    have e2 := (hi_strict' hw hx.1 hr.2 g2).1
    refine shrinkDraws_congr hl n x _ _ fun y h1 h2 h3 => h y ⟨⟨?_, ?_⟩, (pos_of_gt h3).ne'⟩
    · exact e1.trans_lt (EReal.coe_lt_coe_iff.mpr h1)
    · exact (EReal.coe_lt_coe_iff.mpr h2).trans_le e2

/-! ### Iterations -/

/-- The mean after a move with at most `m` rounds of each loop. -/
noncomputable def meanN (A : SliceArgs) (m : ℕ) (g : ℝ → ℝ≥0∞) (x : ℝ) : ℝ≥0∞ :=
  ∫⁻ v in Set.Ico (0 : ℝ) 1, ∫⁻ x', g x' *
    levelDens (densityOf A.f) (returnsAt A.f) A.D A.w m (v * (densityOf A.f x).toReal) x x'

/-- The mean after a move. -/
noncomputable def meanS (A : SliceArgs) (g : ℝ → ℝ≥0∞) (x : ℝ) : ℝ≥0∞ :=
  nextMean (densityOf A.f) (returnsAt A.f) A.D A.w x g

theorem measurable_mean_term (hA : SliceTarget A) {g : ℝ → ℝ≥0∞} (hg : Measurable g) (m : ℕ) :
    Measurable fun q : (ℝ × ℝ) × ℝ => g q.2 * levelDens (densityOf A.f) (returnsAt A.f) A.D A.w m
      (q.1.2 * (densityOf A.f q.1.1).toReal) q.1.1 q.2 := by
  have hc : Measurable fun q : (ℝ × ℝ) × ℝ => (q.1.2 * (densityOf A.f q.1.1).toReal, q.1.1, q.2) :=
    ((measurable_snd.comp measurable_fst).mul
      (hA.density.comp (measurable_fst.comp measurable_fst)).ennreal_toReal).prodMk
      ((measurable_fst.comp measurable_fst).prodMk measurable_snd)
  exact (hg.comp measurable_snd).mul ((measurable_levelDens hA.density hA.returns m).comp hc)

theorem measurable_meanN (hA : SliceTarget A) {g : ℝ → ℝ≥0∞} (hg : Measurable g) (m : ℕ) :
    Measurable (meanN A m g) := by
  have h1 : Measurable fun q : ℝ × ℝ => ∫⁻ x', g x' * levelDens (densityOf A.f) (returnsAt A.f) A.D A.w m
      (q.2 * (densityOf A.f q.1).toReal) q.1 x' := (measurable_mean_term hA hg m).lintegral_prod_right'
  exact h1.lintegral_prod_right'

theorem meanN_mono {g g' : ℝ → ℝ≥0∞} {m m' : ℕ} (hg : ∀ y, g y ≤ g' y) (h : m ≤ m') (x : ℝ) :
    meanN A m g x ≤ meanN A m' g' x :=
  lintegral_mono fun _ => lintegral_mono fun x' => mul_le_mul' (hg x') (levelDens_mono _ x x' h)

theorem meanN_iSup (hA : SliceTarget A) {g : ℕ → ℝ → ℝ≥0∞} (hg : ∀ m, Measurable (g m))
    (hmono : ∀ y, Monotone fun m => g m y) (x : ℝ) :
    ⨆ m, meanN A m (g m) x = meanS A (fun y => ⨆ m, g m y) x := by
  unfold meanN meanS nextMean
  have hm : ∀ m, Measurable fun q : ℝ × ℝ => g m q.2 * levelDens (densityOf A.f) (returnsAt A.f) A.D A.w m
      (q.1 * (densityOf A.f x).toReal) x q.2 := fun m => by
    have hc : Measurable fun q : ℝ × ℝ => ((x, q.1), q.2) :=
      (measurable_const.prodMk measurable_fst).prodMk measurable_snd
    exact (measurable_mean_term hA (hg m) m).comp hc
  have hle : ∀ {i j : ℕ}, i ≤ j → ∀ v x' : ℝ,
      g i x' * levelDens (densityOf A.f) (returnsAt A.f) A.D A.w i (v * (densityOf A.f x).toReal) x x' ≤
      g j x' * levelDens (densityOf A.f) (returnsAt A.f) A.D A.w j (v * (densityOf A.f x).toReal) x x' :=
    fun h v x' => mul_le_mul' (hmono x' h) (levelDens_mono _ x x' h)
  rw [← lintegral_iSup]
  · refine lintegral_congr fun v => ?_
    rw [← lintegral_iSup]
    · refine lintegral_congr fun x' => ?_
      refine le_antisymm (iSup_le fun m => mul_le_mul' (le_iSup (fun m => g m x') m)
        (le_iSup (fun m => levelDens _ _ _ _ m _ x x') m)) ?_
      rw [ENNReal.iSup_mul]
      refine iSup_le fun i => ?_
      rw [ENNReal.mul_iSup]
      refine iSup_le fun j => ?_
      exact le_iSup_of_le (max i j) (mul_le_mul' (hmono x' (le_max_left i j))
        (levelDens_mono _ x x' (le_max_right i j)))
    · intro m
      have hc : Measurable fun x' : ℝ => (v, x') := measurable_const.prodMk measurable_id
      exact (hm m).comp hc
    · exact fun i j h x' => hle h v x'
  · exact fun m => (hm m).lintegral_prod_right'
  · exact fun i j h v => lintegral_mono fun x' => hle h v x'

theorem iterates (hA : SliceTarget A) {g : ℝ → ℝ≥0∞} (hg : Measurable g) (k : ℕ) :
    (∀ m, Measurable ((meanN A m)^[k] g)) ∧ (∀ y, Monotone fun m => (meanN A m)^[k] g y) ∧
      (meanS A)^[k] g = fun y => ⨆ m, (meanN A m)^[k] g y := by
  induction k with
  | zero => exact ⟨fun _ => hg, fun y => monotone_const, funext fun y => (ciSup_const).symm⟩
  | succ k ih =>
    obtain ⟨h1, h2, h3⟩ := ih
    refine ⟨fun m => ?_, fun y i j h => ?_, ?_⟩
    · rw [Function.iterate_succ_apply']; exact measurable_meanN hA (h1 m) m
    · simp only [Function.iterate_succ_apply']
      exact meanN_mono (fun z => h2 z h) h y
    · funext y
      rw [Function.iterate_succ_apply', h3]
      simp only [Function.iterate_succ_apply']
      exact (meanN_iSup hA h1 h2 y).symm

theorem iterates_measurable (hA : SliceTarget A) {g : ℝ → ℝ≥0∞} (hg : Measurable g) (k : ℕ) :
    Measurable ((meanS A)^[k] g) := by
  obtain ⟨h1, -, h3⟩ := iterates hA hg k
  rw [h3]; exact Measurable.iSup h1

/-- `g` after a move of the program with at most `m` rounds of each loop. -/
noncomputable def progN (A : SliceArgs) (m : ℕ) (g : ℝ → ℝ≥0∞) (x : ℝ) : ℝ≥0∞ :=
  (sliceMoveDraws A m x).E (atNext g)

theorem progN_iterate (hw : 0 < A.w) (hA : SliceTarget A) {g : ℝ → ℝ≥0∞} (hg : Measurable g) (m k : ℕ)
    {x : ℝ} (hx : Alive A x) : (progN A m)^[k] g x = (meanN A m)^[k] g x := by
  induction k generalizing x with
  | zero => rfl
  | succ k ih =>
    rw [Function.iterate_succ_apply', Function.iterate_succ_apply']
    have e : progN A m ((progN A m)^[k] g) x = progN A m ((meanN A m)^[k] g) x :=
      sliceMove_congr hw hA m hx fun y hy => ih hy
    rw [e]
    exact sliceMove_E hA ((iterates hA hg k).1 m) m hx.2 (hA.finite x hx.1)

/-- The mean over a move from a point drawn from the density. -/
theorem meanS_invariant (hw : 0 < A.w) (hA : SliceTarget A)
    (hret : ∀ y, A.D.inside y → ∃ q, A.f y = .ok q)
    (hfin : ∫⁻ y in {y | A.D.inside y}, densityOf A.f y ≠ ⊤) {g : ℝ → ℝ≥0∞} (hg : Measurable g) :
    ∫⁻ x in {x | A.D.inside x}, densityOf A.f x * meanS A g x
      = ∫⁻ x in {x | A.D.inside x}, densityOf A.f x * g x := by
  have h := nextMean_balance (K := returnsAt A.f) hw hA.density hA.returns hA.finite (measurable_const (a := (1 : ℝ≥0∞))) hg
  simp only [one_mul] at h
  unfold meanS
  refine Eq.trans (b := _) h ?_
  rw [setLIntegral_congr_fun_ae (measurableSet_inside _)]
  filter_upwards [ae_over_half hA.density] with x hx hin
  by_cases h0 : densityOf A.f x = 0
  · rw [h0, zero_mul, zero_mul]
  · have ht := hA.finite x hin
    have h1 := nextMean_one hw hA.density hA.returns hret hfin hin hx h0 ht
    have h2 : sliceNext A x (fun _ => 1) ≤ 1 := iSup_le fun n => sliceMove_le_one (fun _ => le_rfl) n x
    rw [sliceNext_eq hA measurable_const h0 ht] at h2
    have e : nextMean (densityOf A.f) (returnsAt A.f) A.D A.w x (fun _ => 1) = 1 := le_antisymm h2 h1
    rw [e, mul_one]

/-! ### The loop -/

theorem sliceLoop_E (hnum : A.num = 1) (hlag : A.lag ≠ 0) (g : ℝ → ℝ≥0∞) {m k : ℕ} (n i : ℕ)
    (hk : A.burn ≤ i + k + 1 ∧ (i + k + 1) % A.lag = 0)
    (hlt : ∀ j < k, ¬ (A.burn ≤ i + j + 1 ∧ (i + j + 1) % A.lag = 0)) (x : ℝ) :
    (sliceLoopDraws A m n i x []).E (oneSample g) = if k < n then (progN A m)^[k + 1] g x else 0 := by
  induction n generalizing i k x with
  | zero =>
    unfold sliceLoopDraws
    simp [hnum]
    rfl
  | succ n ih =>
    unfold sliceLoopDraws
    have hz : ¬ A.num ≤ ([] : List ℝ).length := by simp [hnum]
    rw [if_neg hz]
    dsimp only
    rw [Draws.E_bind]
    have hdone : ∀ y, (sliceLoopDraws A m n (i + 1) y ([] ++ [y])).E (oneSample g) = g y := by
      intro y
      unfold sliceLoopDraws
      rw [if_pos (by simp [hnum])]
      rfl
    cases k with
    | zero =>
      rw [if_pos (Nat.succ_pos n)]
      change _ = (sliceMoveDraws A m x).E (atNext g)
      refine congrArg (fun F => (sliceMoveDraws A m x).E F) (funext fun o => ?_)
      cases o with
      | none => rfl
      | some y =>
        have h1 : A.burn ≤ i + 1 := hk.1
        have h2 : (i + 1) % A.lag = 0 := hk.2
        simp only [h1, h2, hlag, if_true, if_false]
        exact hdone y
    | succ k =>
      have hstep : ∀ y, (sliceLoopDraws A m n (i + 1) y []).E (oneSample g)
          = if k < n then (progN A m)^[k + 1] g y else 0 := fun y =>
        ih (i + 1) (by rw [show i + 1 + k + 1 = i + (k + 1) + 1 by omega]; exact hk)
          (fun j hj => by
            rw [show i + 1 + j + 1 = i + (j + 1) + 1 by omega]; exact hlt (j + 1) (by omega)) y
      have h0 := hlt 0 (Nat.succ_pos k)
      have e : (sliceMoveDraws A m x).E (atNext fun y => if k < n then (progN A m)^[k + 1] g y else 0)
          = if k + 1 < n + 1 then (progN A m)^[k + 1 + 1] g x else 0 := by
        by_cases hkn : k < n
        · simp only [hkn, if_true, Nat.succ_lt_succ hkn]
          rw [Function.iterate_succ_apply' _ (k + 1)]
          rfl
        · have : ¬ k + 1 < n + 1 := by omega
          simp only [hkn, this, if_false]
          refine le_antisymm ?_ zero_le
          rw [show atNext (fun _ => (0 : ℝ≥0∞)) = fun _ => 0 from funext fun o => by cases o <;> rfl]
          exact (draws_E_zero _).le
      rw [← e]
      refine congrArg (fun F => (sliceMoveDraws A m x).E F) (funext fun o => ?_)
      cases o with
      | none => rfl
      | some y =>
        change _ = if k < n then (progN A m)^[k + 1] g y else 0
        rw [← hstep y]
        by_cases h1 : A.burn ≤ i + 1
        · have h2 : ¬ (i + 1) % A.lag = 0 := fun h => h0 ⟨h1, h⟩
          simp only [h1, h2, hlag, if_true, if_false]
        · simp only [h1, if_false]

end Cgpm.Sampler
