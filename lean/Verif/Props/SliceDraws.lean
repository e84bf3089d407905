import Verif.Lemmas.SliceJoint

/-!
C81: the slice sampler is correct. One iteration of `slice_sample` is reversible with respect to the
density it was given, ends with probability one if that density has finite mass, and leaves it
invariant; so does a whole run.
-/
namespace Cgpm.Props
open Cgpm Cgpm.Sampler MeasureTheory
open scoped ENNReal

/-- **C81.** Detailed balance, for every density, domain and width: among points drawn from the
density, moves from one set to another are as likely as moves back. Nothing is assumed about where the
log density raises, nor that the moves end. -/
theorem C81_reversible {A : SliceArgs} (hw : 0 < A.w) (hA : SliceTarget A) {S T : Set ℝ}
    (hS : MeasurableSet S) (hT : MeasurableSet T) :
    ∫⁻ x in {x | A.D.inside x} ∩ S, densityOf A.f x * sliceNext A x (T.indicator fun _ => 1)
      = ∫⁻ x in {x | A.D.inside x} ∩ T, densityOf A.f x * sliceNext A x (S.indicator fun _ => 1) := by
  have key : ∀ {S T : Set ℝ}, MeasurableSet S → MeasurableSet T →
      ∫⁻ x in {x | A.D.inside x} ∩ S, densityOf A.f x * sliceNext A x (T.indicator fun _ => 1)
        = ∫⁻ x in {x | A.D.inside x}, densityOf A.f x * (S.indicator (fun _ => 1) x *
            nextMean (densityOf A.f) (returnsAt A.f) A.D A.w x (T.indicator fun _ => 1)) := by
    intro S T hS hT
    rw [Set.inter_comm, ← Measure.restrict_restrict hS, ← lintegral_indicator hS]
    refine setLIntegral_congr_fun (measurableSet_inside _) fun x hx => ?_
    by_cases hxS : x ∈ S
    · simp only [Set.indicator_of_mem hxS, one_mul]
      by_cases h0 : densityOf A.f x = 0
      · rw [h0, zero_mul, zero_mul]
      · rw [sliceNext_eq hA (measurable_const.indicator hT) h0 (hA.finite x hx)]
    · simp only [Set.indicator_of_notMem hxS, zero_mul, mul_zero]
  rw [key hS hT, key hT hS]
  exact nextMean_balance hw hA.density hA.returns hA.finite (measurable_const.indicator hS)
    (measurable_const.indicator hT)

/-- **C81.** If the log density returns at every point of the domain and the density has finite mass,
then from almost every point an iteration ends, without an error, with probability one. -/
theorem C81_ends {A : SliceArgs} (hw : 0 < A.w) (hA : SliceTarget A)
    (hret : ∀ y, A.D.inside y → ∃ q, A.f y = .ok q)
    (hfin : ∫⁻ y in {y | A.D.inside y}, densityOf A.f y ≠ ⊤) :
    ∀ᵐ x, A.D.inside x → densityOf A.f x ≠ 0 → sliceNext A x (fun _ => 1) = 1 := by
  filter_upwards [ae_over_half hA.density] with x hx hin h0
  refine le_antisymm (iSup_le fun n => sliceMove_le_one (fun _ => le_rfl) n x) ?_
  rw [sliceNext_eq hA measurable_const h0 (hA.finite x hin)]
  exact nextMean_one hw hA.density hA.returns hret hfin hin hx h0 (hA.finite x hin)

/-- **C81.** Then an iteration leaves the density invariant. -/
theorem C81_invariant {A : SliceArgs} (hw : 0 < A.w) (hA : SliceTarget A)
    (hret : ∀ y, A.D.inside y → ∃ q, A.f y = .ok q)
    (hfin : ∫⁻ y in {y | A.D.inside y}, densityOf A.f y ≠ ⊤) :
    Invariant A.D (densityOf A.f) (sliceNext A) := by
  intro g hg
  rw [← meanS_invariant hw hA hret hfin hg]
  refine setLIntegral_congr_fun (measurableSet_inside _) fun x hx => ?_
  by_cases h0 : densityOf A.f x = 0
  · simp only [h0, zero_mul]
  · simp only [sliceNext_eq hA hg h0 (hA.finite x hx)]
    rfl

/-- **C81.** And so does a whole run that is asked for one sample, whatever `burn` and `lag`: if the
initial point has the density it was given, then so has the sample. -/
theorem C81_run {A : SliceArgs} (hw : 0 < A.w) (hA : SliceTarget A)
    (hret : ∀ y, A.D.inside y → ∃ q, A.f y = .ok q)
    (hfin : ∫⁻ y in {y | A.D.inside y}, densityOf A.f y ≠ ⊤) (hnum : A.num = 1) (hlag : A.lag ≠ 0) :
    Invariant A.D (densityOf A.f) (sliceResult A) := by
  classical
  intro g hg
  have hex : ∃ k, A.burn ≤ 0 + k + 1 ∧ (0 + k + 1) % A.lag = 0 := by
    refine ⟨A.lag * (A.burn + 1) - 1, ?_⟩
    have h1 : 0 < A.lag := Nat.pos_of_ne_zero hlag
    have h2 : A.burn + 1 ≤ A.lag * (A.burn + 1) := Nat.le_mul_of_pos_left _ h1
    have h3 : 0 + (A.lag * (A.burn + 1) - 1) + 1 = A.lag * (A.burn + 1) := by omega
    rw [h3]
    exact ⟨by omega, Nat.mul_mod_right _ _⟩
  have hres : ∀ x, Alive A x → sliceResult A x g = (meanS A)^[Nat.find hex + 1] g x := by
    intro x hx
    rw [(iterates hA hg _).2.2]
    unfold sliceResult
    refine iSup_congr fun m => ?_
    have e : ∀ n, (sliceSampleDraws A (.pure x) m n).E (oneSample g)
        = if Nat.find hex < n then (progN A m)^[Nat.find hex + 1] g x else 0 := fun n =>
      sliceLoop_E hnum hlag g n 0 (Nat.find_spec hex) (fun j hj => Nat.find_min hex hj) x
    simp only [e]
    rw [← progN_iterate hw hA hg m _ hx]
    refine le_antisymm (iSup_le fun n => ?_) (le_iSup_of_le (Nat.find hex + 1) ?_)
    · split
      · exact le_rfl
      · exact zero_le
    · rw [if_pos (Nat.lt_succ_self _)]
  have hk : ∀ k, ∫⁻ x in {x | A.D.inside x}, densityOf A.f x * (meanS A)^[k] g x
      = ∫⁻ x in {x | A.D.inside x}, densityOf A.f x * g x := by
    intro k
    induction k with
    | zero => rfl
    | succ k ih =>
      rw [← ih]
      simp only [Function.iterate_succ_apply']
      exact meanS_invariant hw hA hret hfin (iterates_measurable hA hg k)
  rw [← hk (Nat.find hex + 1)]
  refine setLIntegral_congr_fun (measurableSet_inside _) fun x hx => ?_
  by_cases h0 : densityOf A.f x = 0
  · simp only [h0, zero_mul]
  · simp only [hres x ⟨hx, h0⟩]

/-- **C81.** The joint law of the samples of a run, whatever their number, `burn` and `lag`: if the
initial point has the density, they are distributed as a point with the density and the points to which
`lag`, twice `lag`, … iterations take it.  (The law of a list is given by the expected values of the
products of functions of its elements.) -/
theorem C81_joint {A : SliceArgs} (hw : 0 < A.w) (hA : SliceTarget A)
    (hret : ∀ y, A.D.inside y → ∃ q, A.f y = .ok q)
    (hfin : ∫⁻ y in {y | A.D.inside y}, densityOf A.f y ≠ ⊤) (hlag : A.lag ≠ 0)
    {g : ℝ → ℝ≥0∞} {gs : List (ℝ → ℝ≥0∞)} (hnum : A.num = (g :: gs).length)
    (hg : ∀ h ∈ g :: gs, Measurable h) :
    ∫⁻ x in {x | A.D.inside x}, densityOf A.f x * sliceRun A x (g :: gs)
      = ∫⁻ x in {x | A.D.inside x}, densityOf A.f x * (g x * chainMean A gs x) := by
  rw [sliceRun_invariant hw hA hret hfin hlag (by simpa using hnum) hg]
  refine setLIntegral_congr_fun (measurableSet_inside _) fun x hx => ?_
  by_cases h0 : densityOf A.f x = 0
  · simp only [h0, zero_mul]
  · simp only [chainMean_eq hw hA (fun h hh => hg h (List.mem_cons_of_mem _ hh)) ⟨hx, h0⟩]

/-- **C81.** Each sample of a run, whatever their number, `burn` and `lag`, has the density, if the
initial point has; in particular the run returns with probability one. -/
theorem C81_samples {A : SliceArgs} (hw : 0 < A.w) (hA : SliceTarget A)
    (hret : ∀ y, A.D.inside y → ∃ q, A.f y = .ok q)
    (hfin : ∫⁻ y in {y | A.D.inside y}, densityOf A.f y ≠ ⊤) (hlag : A.lag ≠ 0) {i : ℕ}
    (hi : i < A.num) : Invariant A.D (densityOf A.f) (sliceNth A i) := by
  intro g hg
  simp only [sliceNth_eq hi]
  have hm : ∀ r, ∀ g ∈ List.replicate r (fun _ : ℝ => (1 : ℝ≥0∞)), Measurable g := fun r g hg => by
    rw [List.eq_of_mem_replicate hg]; exact measurable_const
  cases i with
  | zero =>
    rw [List.replicate_zero, List.nil_append, sliceRun_invariant hw hA hret hfin hlag (by simp; omega)
      (by
        intro h hh
        rcases List.mem_cons.mp hh with rfl | h2
        · exact hg
        · exact hm _ h h2)]
    refine lintegral_congr_ae ?_
    filter_upwards [chainS_ones hw hA hret hfin (A.num - 0 - 1)] with x hx
    by_cases h0 : densityOf A.f x = 0
    · simp only [h0, zero_mul]
    · rw [hx h0, mul_one]
  | succ i =>
    rw [List.replicate_succ, List.cons_append, sliceRun_invariant hw hA hret hfin hlag (by simp; omega)
      (by
        intro h hh
        rcases List.mem_cons.mp hh with rfl | h1
        · exact measurable_const
        · rcases List.mem_append.mp h1 with h1 | h1
          · exact hm i h h1
          · rcases List.mem_cons.mp h1 with rfl | h2
            · exact hg
            · exact hm _ h h2)]
    simp only [one_mul]
    exact chainS_pick hw hA hret hfin i _ hg

/-! ### A case: the density `x` on the unit interval, whose logarithm raises elsewhere -/

open Classical in
/-- `slice_sample` for the density `x` on (0, 1), with the default arguments but `burn=10`. -/
noncomputable def rampArgs : SliceArgs where
  f x := if 0 < x ∧ x < 1 then .ok (.fin (Real.log x)) else .error .valueError
  D := ⟨0, 1⟩
  num := 1
  burn := 10
  lag := 3
  w := 1 / 10

theorem ramp_density (x : ℝ) :
    densityOf rampArgs.f x = (Set.Ioo (0 : ℝ) 1).indicator ENNReal.ofReal x := by
  unfold densityOf rampArgs
  dsimp only
  by_cases h : 0 < x ∧ x < 1
  · rw [if_pos h, Set.indicator_of_mem (s := Set.Ioo (0 : ℝ) 1) h]
    change ENNReal.ofReal (Real.exp (Real.log x)) = _
    rw [Real.exp_log h.1]
  · rw [if_neg h, Set.indicator_of_notMem (s := Set.Ioo (0 : ℝ) 1) h]

theorem ramp_inside (x : ℝ) : rampArgs.D.inside x ↔ x ∈ Set.Ioo (0 : ℝ) 1 := by
  unfold Domain.inside rampArgs
  simp only [Set.mem_Ioo]
  norm_cast

theorem ramp_returns (x : ℝ) : (∃ q, rampArgs.f x = .ok q) ↔ x ∈ Set.Ioo (0 : ℝ) 1 := by
  unfold rampArgs
  dsimp only
  by_cases h : 0 < x ∧ x < 1
  · rw [if_pos h]; exact ⟨fun _ => h, fun _ => ⟨_, rfl⟩⟩
  · rw [if_neg h]
    refine ⟨?_, fun h' => absurd h' h⟩
    rintro ⟨q, hq⟩
    cases hq

theorem ramp_target : SliceTarget rampArgs := by
  refine ⟨?_, ?_, fun y _ => ?_⟩
  · rw [show densityOf rampArgs.f = _ from funext ramp_density]
    exact ENNReal.measurable_ofReal.indicator measurableSet_Ioo
  · simp only [ramp_returns]
    exact measurableSet_Ioo
  · rw [ramp_density]
    by_cases h : y ∈ Set.Ioo (0 : ℝ) 1
    · rw [Set.indicator_of_mem h]; exact ENNReal.ofReal_ne_top
    · rw [Set.indicator_of_notMem h]; exact ENNReal.zero_ne_top

theorem ramp_mass : ∫⁻ y in {y | rampArgs.D.inside y}, densityOf rampArgs.f y ≠ ⊤ := by
  simp only [ramp_inside, ramp_density]
  refine ne_top_of_le_ne_top (b := ∫⁻ _ in Set.Ioo (0 : ℝ) 1, (1 : ℝ≥0∞)) ?_ ?_
  · simp
  · refine setLIntegral_mono' measurableSet_Ioo fun y hy => ?_
    rw [Set.indicator_of_mem (s := Set.Ioo (0 : ℝ) 1) hy]
    exact ENNReal.ofReal_le_one.mpr hy.2.le

/-- A run from a point drawn from that density returns one with it. -/
example : Invariant rampArgs.D (densityOf rampArgs.f) (sliceResult rampArgs) :=
  C81_run (by unfold rampArgs; norm_num) ramp_target
    (fun y hy => (ramp_returns y).mpr ((ramp_inside y).mp hy)) ramp_mass rfl (by decide)

/-- The third of five samples of a longer run. -/
example : Invariant rampArgs.D (densityOf rampArgs.f) (sliceNth { rampArgs with num := 5 } 2) :=
  C81_samples (A := { rampArgs with num := 5 }) (by unfold rampArgs; norm_num)
    ⟨ramp_target.density, ramp_target.returns, ramp_target.finite⟩
    (fun y hy => (ramp_returns y).mpr ((ramp_inside y).mp hy)) ramp_mass (by decide) (by decide)

/-- The chance that of two samples the first is above and the second below one half. -/
example : ∫⁻ x in {x | rampArgs.D.inside x}, densityOf rampArgs.f x *
      sliceRun { rampArgs with num := 2 } x
        [(Set.Ioi (1 / 2 : ℝ)).indicator 1, (Set.Iio (1 / 2 : ℝ)).indicator 1]
    = ∫⁻ x in {x | rampArgs.D.inside x}, densityOf rampArgs.f x * ((Set.Ioi (1 / 2 : ℝ)).indicator 1 x *
      chainMean { rampArgs with num := 2 } [(Set.Iio (1 / 2 : ℝ)).indicator 1] x) :=
  C81_joint (A := { rampArgs with num := 2 }) (by unfold rampArgs; norm_num)
    ⟨ramp_target.density, ramp_target.returns, ramp_target.finite⟩
    (fun y hy => (ramp_returns y).mpr ((ramp_inside y).mp hy)) ramp_mass (by decide) rfl (by
      intro h hh
      simp only [List.mem_cons, List.not_mem_nil, or_false] at hh
      rcases hh with rfl | rfl
      · exact measurable_one.indicator measurableSet_Ioi
      · exact measurable_one.indicator measurableSet_Iio)

example : ∀ᵐ x, rampArgs.D.inside x → densityOf rampArgs.f x ≠ 0 →
    sliceNext rampArgs x (fun _ => 1) = 1 :=
  C81_ends (by unfold rampArgs; norm_num) ramp_target
    (fun y hy => (ramp_returns y).mpr ((ramp_inside y).mp hy)) ramp_mass

/-- The mass is not zero. -/
example : densityOf rampArgs.f (1 / 2) ≠ 0 := by
  rw [ramp_density, Set.indicator_of_mem (by constructor <;> norm_num)]
  simp

end Cgpm.Props
