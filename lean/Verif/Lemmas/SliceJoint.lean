import Verif.Lemmas.SliceChain

/-! The samples of a whole run of the slice sampler. -/
namespace Cgpm.Sampler
open Cgpm MeasureTheory Props
open scoped ENNReal

variable {A : SliceArgs}

/-- The iteration `i` stores its point. -/
def Stores (A : SliceArgs) (i : ℕ) : Prop := A.burn ≤ i ∧ i % A.lag = 0

open Classical in
/-- The mean of the product over the rest of a run with loops of at most `m` and `n` rounds. -/
noncomputable def meanV (A : SliceArgs) (m : ℕ) : ℕ → ℕ → List (ℝ → ℝ≥0∞) → ℝ → ℝ≥0∞
  | _, _, [] => fun _ => 1
  | 0, _, _ :: _ => fun _ => 0
  | n + 1, i, g :: gs => meanN A m fun y =>
      if Stores A (i + 1) then g y * meanV A m n (i + 1) gs y else meanV A m n (i + 1) (g :: gs) y

open Classical in
/-- The same without a bound on the inner loops. -/
noncomputable def supV (A : SliceArgs) : ℕ → ℕ → List (ℝ → ℝ≥0∞) → ℝ → ℝ≥0∞
  | _, _, [] => fun _ => 1
  | 0, _, _ :: _ => fun _ => 0
  | n + 1, i, g :: gs => meanS A fun y =>
      if Stores A (i + 1) then g y * supV A n (i + 1) gs y else supV A n (i + 1) (g :: gs) y

theorem meanV_facts (hA : SliceTarget A) (n : ℕ) (i : ℕ) (gs : List (ℝ → ℝ≥0∞))
    (hg : ∀ g ∈ gs, Measurable g) :
    (∀ m, Measurable (meanV A m n i gs)) ∧ (∀ y, Monotone fun m => meanV A m n i gs y) ∧
      supV A n i gs = fun y => ⨆ m, meanV A m n i gs y := by
  classical
  induction n generalizing i gs with
  | zero =>
    cases gs with
    | nil =>
      refine ⟨fun m => ?_, fun y => ?_, funext fun y => ?_⟩ <;> simp only [meanV, supV]
      · exact measurable_const
      · exact monotone_const
      · exact ciSup_const.symm
    | cons g gs =>
      refine ⟨fun m => ?_, fun y => ?_, funext fun y => ?_⟩ <;> simp only [meanV, supV]
      · exact measurable_const
      · exact monotone_const
      · exact ciSup_const.symm
  | succ n ih =>
    cases gs with
    | nil =>
      refine ⟨fun m => ?_, fun y => ?_, funext fun y => ?_⟩ <;> simp only [meanV, supV]
      · exact measurable_const
      · exact monotone_const
      · exact ciSup_const.symm
    | cons g gs =>
      have hgs : ∀ h ∈ gs, Measurable h := fun h hh => hg h (List.mem_cons_of_mem _ hh)
      obtain ⟨h1, h2, h3⟩ := ih (i + 1) gs hgs
      obtain ⟨k1, k2, k3⟩ := ih (i + 1) (g :: gs) hg
      have hgm : Measurable g := hg g List.mem_cons_self
      by_cases hs : Stores A (i + 1)
      · have hm : ∀ m, Measurable fun y => g y * meanV A m n (i + 1) gs y := fun m => hgm.mul (h1 m)
        have hmo : ∀ y, Monotone fun m => g y * meanV A m n (i + 1) gs y := fun y _ _ hij =>
          mul_le_mul' le_rfl (h2 y hij)
        refine ⟨fun m => ?_, fun y a b hab => ?_, funext fun y => ?_⟩ <;>
          simp only [meanV, supV, hs, if_true]
        · exact measurable_meanN hA (hm m) m
        · exact meanN_mono (fun z => hmo z hab) hab y
        · rw [meanN_iSup hA hm hmo, h3]
          congr 1
          funext z
          exact ENNReal.mul_iSup _ _
      · refine ⟨fun m => ?_, fun y a b hab => ?_, funext fun y => ?_⟩ <;>
          simp only [meanV, supV, hs, if_false]
        · exact measurable_meanN hA (k1 m) m
        · exact meanN_mono (fun z => k2 z hab) hab y
        · have := meanN_iSup hA k1 k2 y
          rw [this, k3]

theorem supV_measurable (hA : SliceTarget A) (n i : ℕ) {gs : List (ℝ → ℝ≥0∞)}
    (hg : ∀ g ∈ gs, Measurable g) : Measurable (supV A n i gs) := by
  obtain ⟨h1, -, h3⟩ := meanV_facts hA n i gs hg
  rw [h3]; exact Measurable.iSup h1

theorem meanN_const_mul (hA : SliceTarget A) {g : ℝ → ℝ≥0∞} (hg : Measurable g) (m : ℕ) (c : ℝ≥0∞)
    (x : ℝ) : meanN A m (fun y => c * g y) x = c * meanN A m g x := by
  unfold meanN
  have hm : Measurable fun q : ℝ × ℝ => g q.2 * levelDens (densityOf A.f) (returnsAt A.f) A.D A.w m
      (q.1 * (densityOf A.f x).toReal) x q.2 := by
    have hc : Measurable fun q : ℝ × ℝ => ((x, q.1), q.2) :=
      (measurable_const.prodMk measurable_fst).prodMk measurable_snd
    exact (measurable_mean_term hA hg m).comp hc
  rw [← lintegral_const_mul _ hm.lintegral_prod_right']
  refine lintegral_congr fun v => ?_
  have hv : Measurable fun x' => g x' * levelDens (densityOf A.f) (returnsAt A.f) A.D A.w m
      (v * (densityOf A.f x).toReal) x x' := hm.comp (measurable_const.prodMk measurable_id)
  rw [← lintegral_const_mul _ hv]
  exact lintegral_congr fun x' => mul_assoc _ _ _

theorem prodOf_append (gp gs : List (ℝ → ℝ≥0∞)) (g : ℝ → ℝ≥0∞) (ys : List ℝ) (y : ℝ)
    (h : gp.length = ys.length) : prodOf (gp ++ [g]) (ys ++ [y]) = prodOf gp ys * g y := by
  induction gp generalizing ys with
  | nil =>
    cases ys with
    | nil => simp [prodOf]
    | cons a l => simp at h
  | cons a l ih =>
    cases ys with
    | nil => simp at h
    | cons b k =>
      simp only [List.cons_append, prodOf]
      rw [ih k (by simpa using h), mul_assoc]

/-- The loop, from a point with a density. -/
theorem sliceLoop_run (hw : 0 < A.w) (hA : SliceTarget A) (hlag : A.lag ≠ 0) (m n i : ℕ)
    (gp gs : List (ℝ → ℝ≥0∞)) (ys : List ℝ) (hp : gp.length = ys.length)
    (hnum : A.num = ys.length + gs.length) (hg : ∀ g ∈ gs, Measurable g) {x : ℝ} (hx : Alive A x) :
    (sliceLoopDraws A m n i x ys).E (atRun (gp ++ gs)) = prodOf gp ys * meanV A m n i gs x := by
  classical
  induction n generalizing i gp gs ys x with
  | zero =>
    cases gs with
    | nil =>
      unfold sliceLoopDraws
      rw [if_pos (by simp [hnum])]
      simp only [Draws.E, atRun, meanV, List.append_nil, mul_one]
    | cons g gs =>
      unfold sliceLoopDraws
      rw [if_neg (by simp [hnum])]
      simp only [Draws.E, atRun, meanV, mul_zero]
  | succ n ih =>
    cases gs with
    | nil =>
      unfold sliceLoopDraws
      rw [if_pos (by simp [hnum])]
      simp only [Draws.E, atRun, meanV, List.append_nil, mul_one]
    | cons g gs =>
      have hgs : ∀ h ∈ gs, Measurable h := fun h hh => hg h (List.mem_cons_of_mem _ hh)
      have hgm : Measurable g := hg g List.mem_cons_self
      unfold sliceLoopDraws
      rw [if_neg (by simp [hnum])]
      dsimp only
      rw [Draws.E_bind]
      by_cases hs : Stores A (i + 1)
      · have hm : Measurable fun y => g y * meanV A m n (i + 1) gs y :=
          hgm.mul ((meanV_facts hA n (i + 1) gs hgs).1 m)
        have e : ∀ y, Alive A y → (sliceLoopDraws A m n (i + 1) y (ys ++ [y])).E (atRun (gp ++ g :: gs))
            = prodOf gp ys * (g y * meanV A m n (i + 1) gs y) := by
          intro y hy
          have := ih (i + 1) (gp ++ [g]) gs (ys ++ [y]) (by simp [hp]) (by simp [hnum]; omega) hgs hy
          rw [List.append_assoc, List.singleton_append] at this
          rw [this, prodOf_append gp gs g ys y hp, mul_assoc]
        simp only [meanV, hs, if_true]
        rw [← meanN_const_mul hA hm]
        refine Eq.trans ?_ ((sliceMove_congr hw hA m hx e).trans
          (sliceMove_E hA (measurable_const.mul hm) m hx.2 (hA.finite x hx.1)))
        refine congrArg (fun F => (sliceMoveDraws A m x).E F) (funext fun o => ?_)
        cases o with
        | none => rfl
        | some y =>
          simp only [hs.1, hs.2, hlag, if_true, if_false]
          rfl
      · have hm : Measurable (meanV A m n (i + 1) (g :: gs)) := (meanV_facts hA n (i + 1) _ hg).1 m
        have e : ∀ y, Alive A y → (sliceLoopDraws A m n (i + 1) y ys).E (atRun (gp ++ g :: gs))
            = prodOf gp ys * meanV A m n (i + 1) (g :: gs) y := fun y hy =>
          ih (i + 1) gp (g :: gs) ys hp hnum hg hy
        simp only [meanV, hs, if_false]
        rw [← meanN_const_mul hA hm]
        refine Eq.trans ?_ ((sliceMove_congr hw hA m hx e).trans
          (sliceMove_E hA (measurable_const.mul hm) m hx.2 (hA.finite x hx.1)))
        refine congrArg (fun F => (sliceMoveDraws A m x).E F) (funext fun o => ?_)
        cases o with
        | none => rfl
        | some y =>
          by_cases h1 : A.burn ≤ i + 1
          · have h2 : ¬ (i + 1) % A.lag = 0 := fun h => hs ⟨h1, h⟩
            simp only [h1, h2, hlag, if_true, if_false]
            rfl
          · simp only [h1, if_false]
            rfl

theorem sliceRun_eq (hw : 0 < A.w) (hA : SliceTarget A) (hlag : A.lag ≠ 0)
    {gs : List (ℝ → ℝ≥0∞)} (hnum : A.num = gs.length) (hg : ∀ g ∈ gs, Measurable g) {x : ℝ}
    (hx : Alive A x) : sliceRun A x gs = ⨆ n, supV A n 0 gs x := by
  unfold sliceRun
  rw [iSup_comm]
  refine iSup_congr fun n => ?_
  rw [(meanV_facts hA n 0 gs hg).2.2]
  refine iSup_congr fun m => ?_
  have := sliceLoop_run hw hA hlag m n 0 [] gs [] rfl (by simpa using hnum) hg hx
  rw [List.nil_append] at this
  simp only [prodOf, one_mul] at this
  exact this

theorem meanS_mono (hA : SliceTarget A) {g g' : ℝ → ℝ≥0∞} (hg : Measurable g) (hg' : Measurable g')
    (h : ∀ y, g y ≤ g' y) (x : ℝ) : meanS A g x ≤ meanS A g' x := by
  have e : ∀ {g : ℝ → ℝ≥0∞}, Measurable g → meanS A g x = ⨆ m, meanN A m g x := fun {g} hg => by
    rw [meanN_iSup hA (fun _ => hg) (fun _ => monotone_const)]
    congr 1
    funext y
    exact ciSup_const.symm
  rw [e hg, e hg']
  exact iSup_mono fun m => meanN_mono h le_rfl x

theorem supV_mono (hA : SliceTarget A) (n i : ℕ) (gs : List (ℝ → ℝ≥0∞))
    (hg : ∀ g ∈ gs, Measurable g) (x : ℝ) : supV A n i gs x ≤ supV A (n + 1) i gs x := by
  classical
  induction n generalizing i gs x with
  | zero =>
    cases gs with
    | nil => simp only [supV]; exact le_rfl
    | cons g gs => rw [supV]; exact zero_le
  | succ n ih =>
    cases gs with
    | nil => simp only [supV]; exact le_rfl
    | cons g gs =>
      have hgs : ∀ h ∈ gs, Measurable h := fun h hh => hg h (List.mem_cons_of_mem _ hh)
      have hgm : Measurable g := hg g List.mem_cons_self
      by_cases hs : Stores A (i + 1)
      · simp only [supV, hs, if_true]
        exact meanS_mono hA (hgm.mul (supV_measurable hA n _ hgs))
          (hgm.mul (supV_measurable hA (n + 1) _ hgs)) (fun y => mul_le_mul' le_rfl (ih _ gs hgs y)) x
      · rw [supV, supV]
        simp only [hs, if_false]
        exact meanS_mono hA (supV_measurable hA n _ hg)
          (supV_measurable hA (n + 1) _ hg) (fun y => ih _ (g :: gs) hg y) x

/-- The moves until the next sample. -/
theorem supV_next (n i k : ℕ) (g : ℝ → ℝ≥0∞) (gs : List (ℝ → ℝ≥0∞))
    (hk : Stores A (i + k + 1)) (hlt : ∀ j < k, ¬ Stores A (i + j + 1)) :
    supV A (n + k + 1) i (g :: gs) =
      (meanS A)^[k + 1] fun y => g y * supV A n (i + k + 1) gs y := by
  classical
  induction k generalizing i with
  | zero =>
    rw [Nat.add_zero] at hk
    simp only [Nat.add_zero, supV, Nat.zero_add, Function.iterate_one]
    congr 1
    funext y
    rw [if_pos hk]
  | succ k ih =>
    have h0 : ¬ Stores A (i + 1) := hlt 0 (Nat.succ_pos k)
    have := ih (i + 1) (by rw [show i + 1 + k + 1 = i + (k + 1) + 1 by omega]; exact hk)
      (fun j hj => by rw [show i + 1 + j + 1 = i + (j + 1) + 1 by omega]; exact hlt (j + 1) (by omega))
    rw [show n + (k + 1) + 1 = (n + k + 1) + 1 by omega, supV, Function.iterate_succ_apply']
    congr 1
    funext y
    rw [if_neg h0, this, show i + 1 + k + 1 = i + (k + 1) + 1 by omega]

/-- The chain of the moves between the samples. -/
noncomputable def chainS (A : SliceArgs) : List (ℝ → ℝ≥0∞) → ℝ → ℝ≥0∞
  | [] => fun _ => 1
  | g :: gs => (meanS A)^[A.lag] fun y => g y * chainS A gs y

theorem chainS_measurable (hA : SliceTarget A) {gs : List (ℝ → ℝ≥0∞)}
    (hg : ∀ g ∈ gs, Measurable g) : Measurable (chainS A gs) := by
  induction gs with
  | nil => exact measurable_const
  | cons g gs ih =>
    exact iterates_measurable hA ((hg g List.mem_cons_self).mul
      (ih fun h hh => hg h (List.mem_cons_of_mem _ hh))) _

/-- After a sample, the next ones follow at distance `lag`. -/
theorem supV_chain (hlag : A.lag ≠ 0) (i r : ℕ) (hi : Stores A i) (gs : List (ℝ → ℝ≥0∞)) :
    supV A (A.lag * gs.length + r) i gs = chainS A gs := by
  obtain ⟨l, hl⟩ := Nat.exists_eq_succ_of_ne_zero hlag
  induction gs generalizing i with
  | nil => cases r <;> simp only [supV, chainS, List.length_nil, Nat.mul_zero, Nat.zero_add]
  | cons g gs ih =>
    have hst : Stores A (i + l + 1) := by
      refine ⟨hi.1.trans (by omega), ?_⟩
      rw [show i + l + 1 = i + A.lag by omega, Nat.add_mod_right]
      exact hi.2
    have hno : ∀ j < l, ¬ Stores A (i + j + 1) := by
      rintro j hj ⟨-, h2⟩
      have h1 := hi.2
      rw [Nat.add_assoc, Nat.add_mod, h1, Nat.zero_add, Nat.mod_mod, Nat.mod_eq_of_lt (by omega)] at h2
      omega
    rw [List.length_cons, Nat.mul_succ,
      show A.lag * gs.length + A.lag + r = A.lag * gs.length + r + l + 1 by omega,
      supV_next _ _ _ _ _ hst hno, ih _ hst, chainS, hl]

theorem supV_all (hA : SliceTarget A) (hlag : A.lag ≠ 0) (g : ℝ → ℝ≥0∞) (gs : List (ℝ → ℝ≥0∞))
    (hg : ∀ h ∈ g :: gs, Measurable h) :
    ∃ k, ∀ x, ⨆ n, supV A n 0 (g :: gs) x = (meanS A)^[k] (fun y => g y * chainS A gs y) x := by
  classical
  have hex : ∃ k, Stores A (0 + k + 1) := by
    refine ⟨A.lag * (A.burn + 1) - 1, ?_⟩
    have h1 : 0 < A.lag := Nat.pos_of_ne_zero hlag
    have h2 : A.burn + 1 ≤ A.lag * (A.burn + 1) := Nat.le_mul_of_pos_left _ h1
    have h3 : 0 + (A.lag * (A.burn + 1) - 1) + 1 = A.lag * (A.burn + 1) := by omega
    rw [h3]
    exact ⟨by omega, Nat.mul_mod_right _ _⟩
  refine ⟨Nat.find hex + 1, fun x => ?_⟩
  have hmono : Monotone fun n => supV A n 0 (g :: gs) x :=
    monotone_nat_of_le_succ fun n => supV_mono hA n 0 _ hg x
  have hval : ∀ r, supV A (A.lag * gs.length + r + Nat.find hex + 1) 0 (g :: gs)
      = (meanS A)^[Nat.find hex + 1] fun y => g y * chainS A gs y := fun r => by
    rw [supV_next _ _ _ _ _ (Nat.find_spec hex) (fun j hj => Nat.find_min hex hj),
      supV_chain hlag _ _ (Nat.find_spec hex)]
  refine le_antisymm (iSup_le fun n => ?_) (le_iSup_of_le (A.lag * gs.length + 0 + Nat.find hex + 1) ?_)
  · rw [← hval n]
    exact hmono (by omega)
  · rw [hval 0]

/-- The chain of the specification is this one. -/
theorem chainMean_eq (hw : 0 < A.w) (hA : SliceTarget A) {gs : List (ℝ → ℝ≥0∞)}
    (hg : ∀ g ∈ gs, Measurable g) {x : ℝ} (hx : Alive A x) : chainMean A gs x = chainS A gs x := by
  have step : ∀ {h h' : ℝ → ℝ≥0∞}, (∀ y, Alive A y → h y = h' y) → Measurable h' →
      ∀ {x}, Alive A x → sliceNext A x h = meanS A h' x := by
    intro h h' he hm x hx
    rw [meanS, ← sliceNext_eq hA hm hx.2 (hA.finite x hx.1)]
    exact iSup_congr fun n => sliceMove_congr hw hA n hx he
  have iter : ∀ (k : ℕ) {h h' : ℝ → ℝ≥0∞}, (∀ y, Alive A y → h y = h' y) → Measurable h' →
      ∀ {x}, Alive A x → (fun h x => sliceNext A x h)^[k] h x = (meanS A)^[k] h' x := by
    intro k h h' he hm
    induction k with
    | zero => exact fun {x} hx => he x hx
    | succ k ih =>
      intro x hx
      rw [Function.iterate_succ_apply', Function.iterate_succ_apply']
      exact step (fun y hy => ih hy) (iterates_measurable hA hm k) hx
  induction gs generalizing x with
  | nil => rfl
  | cons g gs ih =>
    have hgs : ∀ h ∈ gs, Measurable h := fun h hh => hg h (List.mem_cons_of_mem _ hh)
    unfold chainMean chainS lagNext
    exact iter _ (fun y hy => congrArg (g y * ·) (ih hgs hy))
      ((hg g List.mem_cons_self).mul (chainS_measurable hA hgs)) hx

/-! ### Starting from the density -/

section
variable (hw : 0 < A.w) (hA : SliceTarget A) (hret : ∀ y, A.D.inside y → ∃ q, A.f y = .ok q)
  (hfin : ∫⁻ y in {y | A.D.inside y}, densityOf A.f y ≠ ⊤)

include hw hA hret hfin

theorem meanS_iterate_invariant {g : ℝ → ℝ≥0∞} (hg : Measurable g) (k : ℕ) :
    ∫⁻ x in {x | A.D.inside x}, densityOf A.f x * (meanS A)^[k] g x
      = ∫⁻ x in {x | A.D.inside x}, densityOf A.f x * g x := by
  induction k with
  | zero => rfl
  | succ k ih =>
    rw [← ih]
    simp only [Function.iterate_succ_apply']
    exact meanS_invariant hw hA hret hfin (iterates_measurable hA hg k)

theorem meanS_step {g : ℝ → ℝ≥0∞} {gs : List (ℝ → ℝ≥0∞)} (hg : Measurable g)
    (hgs : ∀ h ∈ gs, Measurable h) (k : ℕ) :
    ∫⁻ x in {x | A.D.inside x}, densityOf A.f x * (meanS A)^[k] (fun y => g y * chainS A gs y) x
      = ∫⁻ x in {x | A.D.inside x}, densityOf A.f x * (g x * chainS A gs x) :=
  meanS_iterate_invariant hw hA hret hfin (hg.mul (chainS_measurable hA hgs)) k

theorem chainS_ones (r : ℕ) : ∀ᵐ x ∂volume.restrict {x | A.D.inside x}, densityOf A.f x ≠ 0 →
    chainS A (List.replicate r fun _ => 1) x = 1 := by
  have hm : ∀ r, ∀ g ∈ List.replicate r (fun _ : ℝ => (1 : ℝ≥0∞)), Measurable g := fun r g hg => by
    rw [List.eq_of_mem_replicate hg]; exact measurable_const
  have hint : ∫⁻ x in {x | A.D.inside x}, densityOf A.f x * chainS A (List.replicate r fun _ => 1) x
      = ∫⁻ x in {x | A.D.inside x}, densityOf A.f x := by
    induction r with
    | zero => simp only [List.replicate, chainS, mul_one]
    | succ r ih =>
      rw [← ih, List.replicate_succ, chainS, meanS_step hw hA hret hfin measurable_const (hm r)]
      simp only [one_mul]
  have hle : ∀ r x, Alive A x → chainMean A (List.replicate r fun _ => 1) x ≤ 1 := by
    intro r
    have hnext : ∀ {h : ℝ → ℝ≥0∞}, (∀ y, Alive A y → h y ≤ 1) → ∀ x, Alive A x → sliceNext A x h ≤ 1 := by
      intro h hh x hx
      classical
      refine iSup_le fun n => ?_
      rw [sliceMove_congr hw hA n hx (g' := fun y => min (h y) 1) fun y hy => (min_eq_left (hh y hy)).symm]
      exact sliceMove_le_one (fun y => min_le_right _ _) n x
    have hit : ∀ (k : ℕ) {h : ℝ → ℝ≥0∞}, (∀ y, Alive A y → h y ≤ 1) → ∀ x, Alive A x →
        (fun h x => sliceNext A x h)^[k] h x ≤ 1 := by
      intro k h hh
      induction k with
      | zero => exact hh
      | succ k ih =>
        intro x hx
        rw [Function.iterate_succ_apply']
        exact hnext ih x hx
    induction r with
    | zero => exact fun x _ => le_rfl
    | succ r ih =>
      intro x hx
      rw [List.replicate_succ, chainMean, lagNext]
      exact hit _ (fun y hy => by rw [one_mul]; exact ih y hy) x hx
  have hmeas : Measurable fun x => densityOf A.f x * chainS A (List.replicate r fun _ => 1) x :=
    hA.density.mul (chainS_measurable hA (hm r))
  have hpt : ∀ x, A.D.inside x →
      densityOf A.f x * chainS A (List.replicate r fun _ => 1) x ≤ densityOf A.f x := by
    intro x hx
    by_cases h0 : densityOf A.f x = 0
    · rw [h0, zero_mul]
    · rw [← chainMean_eq hw hA (hm r) ⟨hx, h0⟩]
      exact mul_le_of_le_one_right' (hle r x ⟨hx, h0⟩)
  have hae : (fun x => densityOf A.f x * chainS A (List.replicate r fun _ => 1) x)
      =ᵐ[volume.restrict {x | A.D.inside x}] densityOf A.f := by
    refine ae_eq_of_ae_le_of_lintegral_le ?_ ?_ hA.density.aemeasurable hint.ge
    · rw [Filter.EventuallyLE, ae_restrict_iff' (measurableSet_inside _)]
      exact .of_forall hpt
    · rw [hint]; exact hfin
  rw [Filter.EventuallyEq, ae_restrict_iff' (measurableSet_inside _)] at hae
  rw [ae_restrict_iff' (measurableSet_inside _)]
  filter_upwards [hae] with x hx hin h0
  have := hx hin
  have ht := hA.finite x hin
  calc chainS A (List.replicate r fun _ => 1) x
      = (densityOf A.f x)⁻¹ * (densityOf A.f x * chainS A (List.replicate r fun _ => 1) x) := by
        rw [← mul_assoc, ENNReal.inv_mul_cancel h0 ht, one_mul]
    _ = 1 := by rw [this, ENNReal.inv_mul_cancel h0 ht]

theorem sliceRun_invariant (hlag : A.lag ≠ 0) {g : ℝ → ℝ≥0∞} {gs : List (ℝ → ℝ≥0∞)}
    (hnum : A.num = gs.length + 1) (hg : ∀ h ∈ g :: gs, Measurable h) :
    ∫⁻ x in {x | A.D.inside x}, densityOf A.f x * sliceRun A x (g :: gs)
      = ∫⁻ x in {x | A.D.inside x}, densityOf A.f x * (g x * chainS A gs x) := by
  obtain ⟨k, hk⟩ := supV_all hA hlag g gs hg
  have hgs : ∀ h ∈ gs, Measurable h := fun h hh => hg h (List.mem_cons_of_mem _ hh)
  rw [← meanS_step hw hA hret hfin (hg g List.mem_cons_self) hgs k]
  refine setLIntegral_congr_fun (measurableSet_inside _) fun x hx => ?_
  by_cases h0 : densityOf A.f x = 0
  · simp only [h0, zero_mul]
  · rw [sliceRun_eq hw hA hlag (by simpa using hnum) hg ⟨hx, h0⟩, hk x]

theorem chainS_pick (i r : ℕ) {g : ℝ → ℝ≥0∞} (hg : Measurable g) :
    ∫⁻ x in {x | A.D.inside x}, densityOf A.f x *
        chainS A (List.replicate i (fun _ => 1) ++ g :: List.replicate r fun _ => 1) x
      = ∫⁻ x in {x | A.D.inside x}, densityOf A.f x * g x := by
  have hm : ∀ r, ∀ g ∈ List.replicate r (fun _ : ℝ => (1 : ℝ≥0∞)), Measurable g := fun r g hg => by
    rw [List.eq_of_mem_replicate hg]; exact measurable_const
  induction i with
  | zero =>
    rw [List.replicate_zero, List.nil_append, chainS, meanS_step hw hA hret hfin hg (hm r)]
    refine lintegral_congr_ae ?_
    filter_upwards [chainS_ones hw hA hret hfin r] with x hx
    by_cases h0 : densityOf A.f x = 0
    · simp only [h0, zero_mul]
    · rw [hx h0, mul_one]
  | succ i ih =>
    rw [← ih, List.replicate_succ, List.cons_append, chainS,
      meanS_step hw hA hret hfin measurable_const ?_]
    · simp only [one_mul]
    · intro h hh
      rcases List.mem_append.mp hh with h1 | h1
      · exact hm i h h1
      · rcases List.mem_cons.mp h1 with rfl | h2
        · exact hg
        · exact hm r h h2

end

/-! ### One of the samples -/

/-- A run returns as many samples as it was asked for. -/
theorem sliceLoop_length {F F' : Option (List ℝ) → ℝ≥0∞} (h0 : F none = F' none)
    (h : ∀ ys, ys.length = A.num → F (some ys) = F' (some ys)) (m n i : ℕ) (x : ℝ) (ys : List ℝ)
    (hy : ys.length ≤ A.num) : (sliceLoopDraws A m n i x ys).E F = (sliceLoopDraws A m n i x ys).E F' := by
  induction n generalizing i x ys with
  | zero =>
    unfold sliceLoopDraws
    split
    · exact h ys (le_antisymm hy (by assumption))
    · exact h0
  | succ n ih =>
    unfold sliceLoopDraws
    split
    · exact h ys (le_antisymm hy (by assumption))
    · rename_i hlt
      dsimp only
      rw [Draws.E_bind, Draws.E_bind]
      refine congrArg (fun G => (sliceMoveDraws A m x).E G) (funext fun o => ?_)
      cases o with
      | none => exact h0
      | some y =>
        dsimp only
        split
        · split
          · rfl
          · split
            · exact ih _ _ _ (by simp; omega)
            · exact ih _ _ _ hy
        · exact ih _ _ _ hy

theorem prodOf_ones (ys : List ℝ) : prodOf (List.replicate ys.length fun _ => 1) ys = 1 := by
  induction ys with
  | nil => rfl
  | cons y ys ih => rw [List.length_cons, List.replicate_succ, prodOf, ih, one_mul]

theorem prodOf_pick (i r : ℕ) (g : ℝ → ℝ≥0∞) (ys : List ℝ) (h : ys.length = i + r + 1) :
    prodOf (List.replicate i (fun _ => 1) ++ g :: List.replicate r fun _ => 1) ys
      = atNth i g (some ys) := by
  induction i generalizing ys with
  | zero =>
    cases ys with
    | nil => simp at h
    | cons y ys =>
      have hr : r = ys.length := by simp at h; omega
      subst hr
      rw [List.replicate_zero, List.nil_append, prodOf, prodOf_ones, mul_one]
      rfl
  | succ i ih =>
    cases ys with
    | nil => simp at h
    | cons y ys =>
      rw [List.replicate_succ, List.cons_append, prodOf, one_mul, ih ys (by simp at h; omega)]
      simp only [atNth, List.getElem?_cons_succ]

theorem sliceNth_eq {i : ℕ} (hi : i < A.num) (x : ℝ) (g : ℝ → ℝ≥0∞) :
    sliceNth A i x g = sliceRun A x
      (List.replicate i (fun _ => 1) ++ g :: List.replicate (A.num - i - 1) fun _ => 1) := by
  unfold sliceNth sliceRun
  refine iSup_congr fun m => iSup_congr fun n => ?_
  refine sliceLoop_length (A := A) (F := atNth i g) (F' := atRun (List.replicate i (fun _ => 1) ++
    g :: List.replicate (A.num - i - 1) fun _ => 1)) rfl (fun ys hy => ?_) m n 0 x [] (Nat.zero_le _)
  exact (prodOf_pick i _ g ys (by omega)).symm

end Cgpm.Sampler
