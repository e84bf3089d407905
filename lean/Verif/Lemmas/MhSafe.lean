import Verif.Lemmas.MhTargets
import Verif.Lemmas.MhRun

/-!
Runs of `mh_sample` of any length: what is returned, and what is not raised.
-/
namespace Cgpm.Sampler
open Cgpm Classical MeasureTheory ProbabilityTheory
open scoped ENNReal

theorem Surely.mono {α : Type} {R R' : Exn → Prop} {P P' : α → Prop} (hR : ∀ e, R e → R' e)
    (hP : ∀ a, P a → P' a) : ∀ {m : Draws α}, Surely R P m → Surely R' P' m
  | .pure _, h => hP _ h
  | .raise _, h => hR _ h
  | .draw _ _, h => Filter.Eventually.mono h fun _ hx => Surely.mono hR hP hx

theorem Surely.bind {α β : Type} {R : Exn → Prop} {P : α → Prop} {Q : β → Prop} {f : α → Draws β}
    (hf : ∀ a, P a → Surely R Q (f a)) : ∀ {m : Draws α}, Surely R P m → Surely R Q (m.bind f)
  | .pure _, h => hf _ h
  | .raise _, h => h
  | .draw _ _, h => Filter.Eventually.mono h fun _ hx => Surely.bind hf hx

theorem noAtoms_npNormal (m : ℝ) {j : ℝ} (hj : 0 < j) : NullSingletonClass (npNormal m j) := by
  have : Real.toNNReal (j ^ 2) ≠ 0 := by rw [Ne, Real.toNNReal_eq_zero, not_le]; positivity
  exact nullSingletonClass_gaussianReal this

/-- The errors of a jump: only the search for a point of an interval can fail. -/
def jumpErrors (D : Domain) (e : Exn) : Prop :=
  e = .runtime ∧ ¬ (D.lo = 0 ∧ D.hi = 1) ∧ ¬ (0 ≤ D.lo ∧ D.hi = ⊤)

theorem jumpTrials_surely {R : Exn → Prop} (hR : R .runtime) (D : Domain) (x j : ℝ) :
    ∀ n, Surely R D.inside (jumpTrials D x j n)
  | 0 => hR
  | n + 1 => by
    refine Filter.Eventually.of_forall fun y => ?_
    simp only
    split
    · assumption
    · exact jumpTrials_surely hR D x j n

theorem jump_surely {D : Domain} (hD : 0 ≤ D.lo ∧ D.hi = ⊤ → D.lo = 0) (x : ℝ) {j : ℝ} (hj : 0 < j) :
    Surely (jumpErrors D) D.inside (jumpDraws D x j) := by
  unfold jumpDraws
  rw [if_neg (not_lt.mpr hj.le)]
  split
  · rename_i h
    have hDe : D = ⟨0, 1⟩ := by cases D; simp only at h; rw [h.1, h.2]
    have := noAtoms_npNormal x hj
    have hc : (Set.range fun k : ℤ => (k : ℝ)).Countable := Set.countable_range _
    have h0 : ∀ᵐ y ∂npNormal x j, y ∉ Set.range fun k : ℤ => (k : ℝ) :=
      measure_eq_zero_iff_ae_notMem.mp (hc.measure_zero _)
    refine h0.mono fun y hy => ?_
    have hi : ∀ k : ℤ, |y| ≠ k := fun k hk => hy (by
      rcases abs_choice y with e | e
      · exact ⟨k, by simp only; rw [← hk, e]⟩
      · exact ⟨-k, by push_cast; rw [← hk, e, neg_neg]⟩)
    change D.inside _
    rw [hDe, inside_unit]
    split
    · rename_i h1
      refine ⟨?_, ?_⟩
      · have := Int.floor_le |y|
        exact sub_pos.mpr (lt_of_le_of_ne this fun e => hi _ e.symm)
      · have := Int.lt_floor_add_one |y|
        linarith
    · rename_i h1
      refine ⟨lt_of_le_of_ne (abs_nonneg y) fun e => hi 0 (by simpa using e.symm),
        lt_of_le_of_ne (not_lt.mp h1) fun e => hi 1 (by simpa using e)⟩
  · split
    · rename_i h1 h
      have hDe : D = ⟨0, ⊤⟩ := by have := hD h; cases D; simp only at h this; rw [h.2, this]
      have := noAtoms_npNormal 0 hj
      have h0 : ∀ᵐ z ∂npNormal 0 j, z ∉ ({-x} : Set ℝ) :=
        measure_eq_zero_iff_ae_notMem.mp (measure_singleton _)
      refine h0.mono fun z hz => ?_
      change D.inside _
      rw [hDe, inside_half]
      refine abs_pos.mpr fun e => hz ?_
      rw [Set.mem_singleton_iff]; linarith
    · rename_i h1 h2
      exact jumpTrials_surely ⟨rfl, h1, h2⟩ D x j 1000

theorem uniform_pos : ∀ᵐ u ∂npUniform 0 1, 0 < u := by
  unfold npUniform
  rw [sub_zero, ENNReal.ofReal_one, inv_one, one_smul]
  have h0 : ∀ᵐ u : ℝ ∂volume.restrict (Set.Ico 0 1), u ∉ ({0} : Set ℝ) :=
    ae_restrict_of_ae (measure_eq_zero_iff_ae_notMem.mp (measure_singleton _))
  have h1 : ∀ᵐ u : ℝ ∂volume.restrict (Set.Ico 0 1), u ∈ Set.Ico (0 : ℝ) 1 :=
    ae_restrict_mem measurableSet_Ico
  filter_upwards [h0, h1] with u h0 h1
  exact lt_of_le_of_ne h1.1 fun e => h0 (by rw [Set.mem_singleton_iff]; exact e.symm)

/-- The states of the loop. -/
def goodState (A : MhArgs) (s : MhState) : Prop := A.D.inside s.x ∧ 0 < s.jumpStd

theorem mhTune_good {A : MhArgs} {s : MhState} (h : goodState A s) :
    goodState A (mhTune A s) ∧ (mhTune A s).iters = s.iters + 1 ∧ (mhTune A s).samples = s.samples := by
  unfold mhTune goodState
  obtain ⟨h1, h2⟩ := h
  split
  · refine ⟨⟨h1, ?_⟩, rfl, rfl⟩
    simp only
    split
    · positivity
    · split
      · positivity
      · exact h2
  · exact ⟨⟨h1, h2⟩, rfl, rfl⟩

/-- What an iteration does to the count and the samples. -/
def stepTo (A : MhArgs) (s s' : MhState) : Prop :=
  goodState A s' ∧ s'.iters = s.iters + 1 ∧
    (s.iters ≤ A.burn → s'.samples = s.samples) ∧
    (A.burn < s.iters → ∃ y, A.D.inside y ∧ s'.samples = s.samples ++ [y])

theorem step_surely {A : MhArgs} (hD : 0 ≤ A.D.lo ∧ A.D.hi = ⊤ → A.D.lo = 0)
    (hf : ∀ x, A.D.inside x → ∃ v, A.f x = .ok v) (hlag : A.lag = 1) {s : MhState}
    (hs : goodState A s) : Surely (jumpErrors A.D) (stepTo A s) (mhStepDraws A s) := by
  unfold mhStepDraws
  refine Surely.bind (fun y hy => ?_) (jump_surely hD s.x hs.2)
  rw [if_neg (not_not.mpr hy)]
  obtain ⟨v, hv⟩ := hf y hy
  rw [hv]
  simp only
  refine uniform_pos.mono fun u hu => ?_
  cases ha : mhAccept u y v s with
  | error e =>
    unfold mhAccept Fl.log at ha
    simp only [if_pos hu] at ha
    split at ha <;> cases ha
  | ok s1 =>
    obtain ⟨hx, hi, hj, hsm⟩ := mhAccept_ok ha
    have hg1 : goodState A s1 := by
      refine ⟨?_, by rw [hj]; exact hs.2⟩
      rcases hx with ⟨e, _⟩ | ⟨e, _⟩
      · rw [e]; exact hy
      · rw [e]; exact hs.1
    simp only [ha]
    unfold mhCollect
    by_cases hb : A.burn < s1.iters
    · rw [if_pos hb, if_neg (by rw [hlag]; exact one_ne_zero), hlag, Nat.mod_one, if_pos rfl]
      obtain ⟨t1, t2, t3⟩ := mhTune_good (A := A) (s := { s1 with samples := s1.samples ++ [s1.x] }) hg1
      refine ⟨t1, by rw [t2, hi], fun h => absurd h (by rw [← hi]; exact not_le.mpr hb), fun _ =>
        ⟨s1.x, hg1.1, by rw [t3, hsm]⟩⟩
    · rw [if_neg hb]
      obtain ⟨t1, t2, t3⟩ := mhTune_good (A := A) hg1
      exact ⟨t1, by rw [t2, hi], fun _ => by rw [t3, hsm], fun h => absurd h (by rw [← hi]; exact hb)⟩

theorem loop_surely {A : MhArgs} (hD : 0 ≤ A.D.lo ∧ A.D.hi = ⊤ → A.D.lo = 0)
    (hf : ∀ x, A.D.inside x → ∃ v, A.f x = .ok v) (hlag : A.lag = 1) (hnum : A.num = 1) :
    ∀ (n : ℕ) (s : MhState), goodState A s → s.samples = [] → A.burn + 1 < n + s.iters →
      s.iters ≤ A.burn + 1 →
      Surely (jumpErrors A.D) (fun o => ∃ y, A.D.inside y ∧ o = some [y]) (mhLoopDraws A n s)
  | 0, s, _, _, h, h' => absurd h (by omega)
  | n + 1, s, hs, he, h, h' => by
    have hloop : mhLoopDraws A (n + 1) s = (mhStepDraws A s).bind (mhLoopDraws A n) := by
      rw [mhLoopDraws, if_neg (by rw [hnum, he]; simp)]
    rw [hloop]
    refine Surely.bind (fun s' hs' => ?_) (step_surely hD hf hlag hs)
    obtain ⟨g, hi, h1, h2⟩ := hs'
    by_cases hb : s.iters ≤ A.burn
    · exact loop_surely hD hf hlag hnum n s' g (by rw [h1 hb, he]) (by omega) (by omega)
    · obtain ⟨y, hy, hsm⟩ := h2 (by omega)
      rw [he, List.nil_append] at hsm
      have hend : mhLoopDraws A n s' = .pure (some [y]) := by
        rw [mhLoopDraws.eq_def]
        simp only
        rw [if_pos (by rw [hnum, hsm]; simp), hsm]
      rw [hend]
      exact ⟨y, hy, rfl⟩

theorem sample_surely {A : MhArgs} (hD : 0 ≤ A.D.lo ∧ A.D.hi = ⊤ → A.D.lo = 0)
    (hf : ∀ x, A.D.inside x → ∃ v, A.f x = .ok v) (hlag : A.lag = 1) (hnum : A.num = 1) {n : ℕ}
    (hn : A.burn < n) {x j : ℝ} (hx : A.D.inside x) (hj : 0 < j) :
    Surely (jumpErrors A.D) (fun o => ∃ y, A.D.inside y ∧ o = some [y]) (mhSampleDraws A n x j) := by
  unfold mhSampleDraws
  have hw : A.D.within x := ⟨hx.1.le, hx.2.le⟩
  obtain ⟨v, hv⟩ := hf x hx
  rw [if_neg (not_not.mpr hw), hv]
  exact loop_surely hD hf hlag hnum n _ ⟨hx, hj⟩ rfl (by simp only; omega) (by simp only; omega)

theorem firstDraw_surely {α : Type} {R R' : Exn → Prop} {P : ℝ → Prop} {Q : Option α → Prop}
    {m : Draws (Option (List ℝ))} {k : ℝ → Draws (Option α)} (hR : ∀ e, R e → R' e)
    (hm : Surely R (fun o => ∃ y, P y ∧ o = some [y]) m) (hk : ∀ y, P y → Surely R' Q (k y)) :
    Surely R' Q (firstDraw m k) := by
  unfold firstDraw
  refine Surely.bind (fun o ho => ?_) (hm.mono hR fun _ h => h)
  obtain ⟨y, hy, rfl⟩ := ho
  exact hk y hy

end Cgpm.Sampler
