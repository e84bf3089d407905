import Verif.Lemmas.HyperKernels

/-!
C63. Inference with all kernels, also that of the hyperparameters, leaves the posterior on
hyperparameters and latent structures invariant, whatever the schedule of kernels.

`State.transition` (Model/HyperSweep) runs the kernels of a list in turn.  The columns have collapsed
primitive types.  The State is seen through the hyperparameters of its columns and its latent
structure; `IsFullPosterior` says which weight each of them has (Spec/HyperSweep).
-/
namespace Cgpm.Props
open Cgpm Cgpm.View Cgpm.State Cgpm.Spec Cgpm.Spec.Hyper Cgpm.Hyper

variable {cfg : Cfg colCat} {s : State colCat} {grids : Col → Grids} {cols : Option (List Col)}
  {rowids : Option (List Row)}

/-- The components of the columns, as inference of hyperparameters calls them. -/
noncomputable abbrev primLib : HyperLib colCat := hyperLib Prim.collapsed

theorem gridsBuilt_sound (hg : GridsBuilt s grids) :
    SoundState primLib grids primVal (fun i => Admissible i.1) s := fun c d hd => by
  obtain ⟨kappa, Y, h1, h2, h3, h4⟩ := hg c d hd
  exact prim_sound d.kind h1 h2 (by norm_num) h3 h4

/-- **C63** The posterior is well defined: States of one model with the same hyperparameters and the same
latent structure have the same weight, every choice from the grids occurs with every latent structure,
and the weight is positive just for the structures that keep the columns declared independent apart. -/
theorem C63_posterior (hs : StateReachable cfg s) (hg : GridsBuilt s grids) :
    (∀ (κ : Choice (colsOf s) grids), ∀ L ∈ latents (colsOf s) (rowsOf s), ∃ t, FullState cfg s t ∧
      hypersOf primLib (colsOf s) t = κ.hypers ∧ latentOf (colsOf s) (rowsOf s) t = L) ∧
    (∃ W, IsFullPosterior cfg primLib grids s W) ∧
    ∀ W, IsFullPosterior cfg primLib grids s W →
      (∀ κ, ∀ L ∈ latents (colsOf s) (rowsOf s), 0 ≤ W κ L ∧ (0 < W κ L ↔
        ∀ a b, (a.1, b.1) ∈ s.Ci → a ≠ b → ¬ L.part.r a b)) ∧
      0 < ∑ κ, ∑ L ∈ latents (colsOf s) (rowsOf s), W κ L := by
  classical
  have hL := catOf_lawful Prim.collapsed
  have hS := gridsBuilt_sound hg
  obtain ⟨Q, V, hF⟩ := exists_fibers hL hs hS
  refine ⟨fun κ L hLg => ?_, ?_, fun W hW => ⟨fun κ L hLg => ?_, ?_⟩⟩
  · obtain ⟨t, ht, e⟩ := exists_at hL hs hS κ hLg
    exact ⟨t, ht.full, ht.chosen, e⟩
  · choose W hW using fun κ => (C60_posterior hL (hF.full κ).reachable).2.1
    refine ⟨W, fun κ t h1 h2 => ?_⟩
    exact hW κ t ((full_iff_same hL hs hS (hF.full κ) (hF.chosen κ)).mp ⟨h1, h2⟩)
  · exact ((C60_posterior hL (hF.full κ).reachable).2.2 (W κ) (hF.joint hL hs hS hW κ)).1 L hLg
  · refine Finset.sum_pos (fun κ _ =>
      ((C60_posterior hL (hF.full κ).reachable).2.2 (W κ) (hF.joint hL hs hS hW κ)).2) ?_
    have hne : ∀ (a : {c // c ∈ colsOf s}) (j : Fin (grids a.1).length),
        Nonempty (Fin (grids a.1)[j].2.length) := fun a j => by
      obtain ⟨d, hd⟩ := (dimFor_of_mem (hs.inv hL)).mpr (mem_colsOf.mp a.2)
      have := ((hS a.1 d hd).good []).nonempty (grids a.1)[j].1 (grids a.1)[j].2 (List.getElem_mem _)
      exact ⟨⟨0, List.length_pos_iff.mpr this⟩⟩
    exact ⟨fun a j => (hne a j).some, Finset.mem_univ _⟩

/-- **C63** Inference with any list of kernels never raises, stays among the States of the model, and
leaves all hyperparameters and concentrations on their grids, whatever the number of kernel calls, the
orders and the draws. -/
theorem C63_transition (hs : StateReachable cfg s) (hg : GridsBuilt s grids)
    (hn : namesExist s cols rowids) {kernels : List AnyKernel} (hne : kernels ≠ [])
    (hm : .of .columns ∈ kernels → ColumnsMove cfg s cols) (calls : ℕ) {orders : ℕ → AnyOrders}
    (ho : ∀ i, AnyOrders.Lists grids s cols rowids (orders i)) {t : State colCat}
    (ht : FullState cfg s t) {κ : Choice (colsOf s) grids}
    (hκ : hypersOf primLib (colsOf s) t = κ.hypers)
    (hgr : (latentOf (colsOf s) (rowsOf s) t).OnGrid) {us : List ℝ}
    (hl : us.length = totalAnyDraws grids s cols rowids kernels calls)
    (hu : ∀ u ∈ us, 0 ≤ u ∧ u < 1) :
    ∃ (t' : State colCat) (κ' : Choice (colsOf s) grids),
      t.transitionAny cfg primLib grids calls kernels cols rowids orders us = .ok t' ∧
      FullState cfg s t' ∧ hypersOf primLib (colsOf s) t' = κ'.hypers ∧
      (latentOf (colsOf s) (rowsOf s) t').OnGrid := by
  obtain ⟨W, hW⟩ := (C63_posterior hs hg).2.1
  obtain ⟨P, hP⟩ := transitionAny_chain (catOf_lawful _) collapsedCat_chain hs
    (gridsBuilt_sound hg) hn hne hm calls ho hW
  obtain ⟨κ', t', e, h'⟩ := hP.ok κ t ⟨ht, hκ, hgr⟩ us hl hu
  exact ⟨t', κ', e, h'.full, h'.chosen, h'.grid⟩

/-- **C63** Inference with any list of kernels, stopped after any number of kernel calls, leaves the
posterior invariant: if hyperparameters and latent structure are drawn from the posterior, so they are
afterwards.  `V κ L` is any State of the model with hyperparameters `κ` and latent structure `L`. -/
theorem C63_invariant (hs : StateReachable cfg s) (hg : GridsBuilt s grids)
    (hn : namesExist s cols rowids) {kernels : List AnyKernel} (hne : kernels ≠ [])
    (hm : .of .columns ∈ kernels → ColumnsMove cfg s cols) (calls : ℕ) {orders : ℕ → AnyOrders}
    (ho : ∀ i, AnyOrders.Lists grids s cols rowids (orders i))
    {W : Choice (colsOf s) grids → Latent (colsOf s) (rowsOf s) → ℝ}
    (hW : IsFullPosterior cfg primLib grids s W)
    (V : Choice (colsOf s) grids → Latent (colsOf s) (rowsOf s) → State colCat)
    (hV : ∀ κ, ∀ L ∈ latents (colsOf s) (rowsOf s), FullState cfg s (V κ L) ∧
      hypersOf primLib (colsOf s) (V κ L) = κ.hypers ∧ latentOf (colsOf s) (rowsOf s) (V κ L) = L)
    (f : ({c // c ∈ colsOf s} → Hypers) → Latent (colsOf s) (rowsOf s) → ℝ) :
    ∑ κ, ∑ L ∈ latents (colsOf s) (rowsOf s), W κ L *
        average (totalAnyDraws grids s cols rowids kernels calls) (fun us =>
          f (hypersOf primLib (colsOf s) ((V κ L).transitionAny cfg primLib grids calls kernels cols
              rowids orders us).state)
            (latentOf (colsOf s) (rowsOf s) ((V κ L).transitionAny cfg primLib grids calls kernels
              cols rowids orders us).state))
      = ∑ κ : Choice (colsOf s) grids, ∑ L ∈ latents (colsOf s) (rowsOf s),
          W κ L * f κ.hypers L := by
  obtain ⟨P, hP⟩ := transitionAny_chain (catOf_lawful _) collapsedCat_chain hs
    (gridsBuilt_sound hg) hn hne hm calls ho hW
  have h1 := hP.step.inv (onChoice f)
  unfold fullLatents at h1
  rw [Finset.sum_product, Finset.sum_product] at h1
  refine Eq.trans (Finset.sum_congr rfl fun κ _ => Finset.sum_congr rfl fun L hLg => ?_) h1
  obtain ⟨v1, v2, v3⟩ := hV κ L hLg
  rw [hP.law κ (V κ L) ⟨v1, v2, by rw [v3]; exact Latent.mem_latents.mp hLg⟩ f, v3]

/-- **C63** Inference changes only what it is asked to: the hyperparameters only of the columns named, and
only with the kernel for them; that kernel changes nothing else, and the others change what C61 says. -/
theorem C63_untouched (hs : StateReachable cfg s) (hg : GridsBuilt s grids)
    (hn : namesExist s cols rowids) {kernels : List AnyKernel} (hne : kernels ≠ [])
    (hm : .of .columns ∈ kernels → ColumnsMove cfg s cols) (calls : ℕ) {orders : ℕ → AnyOrders}
    (ho : ∀ i, AnyOrders.Lists grids s cols rowids (orders i)) {t t' : State colCat}
    (ht : FullState cfg s t) {κ : Choice (colsOf s) grids}
    (hκ : hypersOf primLib (colsOf s) t = κ.hypers)
    (hgr : (latentOf (colsOf s) (rowsOf s) t).OnGrid) {us : List ℝ}
    (hl : us.length = totalAnyDraws grids s cols rowids kernels calls)
    (hu : ∀ u ∈ us, 0 ≤ u ∧ u < 1)
    (he : t.transitionAny cfg primLib grids calls kernels cols rowids orders us = .ok t') :
    Untouched (otherKernels kernels) cols rowids t t' ∧
    ∀ a, .columnHypers ∉ kernels ∨ a.1 ∉ cols.getD s.outputs →
      hypersOf primLib (colsOf s) t' a = hypersOf primLib (colsOf s) t a := by
  unfold transitionAny at he
  rw [if_neg (by rw [not_not, ht.outputs]; exact hn.1), if_neg hne] at he
  obtain ⟨κ', t'', e, h', u', f'⟩ := callAnys_untouched (catOf_lawful _) collapsedCat_chain hs
    (gridsBuilt_sound hg) hn (all := kernels) _ (fun k hk => by
      obtain ⟨i, -, hi⟩ := List.mem_filterMap.mp hk
      obtain ⟨k', hk', rfl⟩ := Option.map_eq_some_iff.mp hi
      have := List.mem_of_getElem? hk'
      exact ⟨this, fun e => hm (by rw [← e]; exact this), ho i⟩) ⟨ht, hκ, hgr⟩
    (hl.trans (totalAnyDraws_eq s grids cols rowids kernels calls orders).symm) hu
  rw [e] at he
  cases he
  refine ⟨u', fun a ha => ?_⟩
  rw [h'.chosen, hκ]
  unfold Choice.hypers
  rw [f' a ha]

/-- **C63** Inference on columns that do not exist, or with no kernels, is refused and changes nothing. -/
theorem C63_refused (s : State colCat) (calls : ℕ) (kernels : List AnyKernel)
    (cols : Option (List Col)) (rowids : Option (List Row)) (orders : ℕ → AnyOrders) (us : List ℝ) :
    ((∃ c ∈ cols.getD [], c ∉ s.outputs) →
      s.transitionAny cfg primLib grids calls kernels cols rowids orders us = .err .valueError s) ∧
    ((∀ c ∈ cols.getD [], c ∈ s.outputs) → kernels = [] →
      s.transitionAny cfg primLib grids calls kernels cols rowids orders us = .err .assertion s) := by
  unfold transitionAny
  refine ⟨fun ⟨c, hc, hne⟩ => if_pos fun h => hne (h c hc), fun h1 h2 => ?_⟩
  rw [if_neg (not_not.mpr h1), if_pos h2]

/-! ### The hypotheses hold -/

/-- A State with three columns, and grids for them. -/
theorem hyperDemo : ∃ (s : State colCat) (grids : Col → Grids), StateReachable (libCfg _) s ∧
    s.outputs = [0, 1, 2] ∧ s.nRows = 2 ∧ s.Ci = [(0, 1)] ∧ ColumnsMove (libCfg _) s none ∧
    GridsBuilt s grids ∧ (∀ c, (grids c).keys = ["m", "r", "s", "nu"]) ∧
    ∀ c, constructHyperGrids .normal none [0, 3] 30 = .ok (grids c) := by
  obtain ⟨s, h1, -, h3, h4, h5, h6, h7, h8, -, h9⟩ := sweepDemoKinds
  have hp : ∀ x ∈ [(0 : ℝ), 3], ∃ y, Prim.normal.fam.prep x = .ok y := fun x _ => ⟨x, rfl⟩
  obtain ⟨g, hg, -⟩ := grids_ok .normal none (X := [0, 3]) (by simp) hp (n := 30) (by norm_num)
    (fun f h => by cases h)
  refine ⟨s, fun _ => g, h1, h3, h4, h5, ⟨h7, h6, h8⟩, fun c d hd => ?_, fun c => ?_, fun _ => hg⟩
  · rw [h9 c d hd]
    exact ⟨none, [0, 3], by simp, hp, (fun f h => by cases h), hg⟩
  · rw [grids_keys hg]; rfl

/-- Any orders will do. -/
noncomputable def plainAny (s : State colCat) (grids : Col → Grids) : AnyOrders :=
  { plainOrders s with names := fun c => (grids c).keys }

theorem plainAny_lists (s : State colCat) (grids : Col → Grids) :
    AnyOrders.Lists grids s none none (plainAny s grids) :=
  ⟨plainOrders_lists s, fun _ => List.Perm.refl _⟩

/-- All the kernels, in the order of `State.transition`. -/
def allKernels : List AnyKernel :=
  [.of .alpha, .of .viewAlphas, .of .columnParams, .columnHypers, .of .rows, .of .columns]

/-- The hypotheses can be met: on a State with three normal columns, two of them declared independent,
all kernels run from every choice of hyperparameters and latent structure, and the posterior is
invariant, also when inference stops in the middle of a sweep. -/
example : ∃ (s : State colCat) (grids : Col → Grids)
    (W : Choice (colsOf s) grids → Latent (colsOf s) (rowsOf s) → ℝ)
    (V : Choice (colsOf s) grids → Latent (colsOf s) (rowsOf s) → State colCat),
    StateReachable (libCfg _) s ∧ s.outputs = [0, 1, 2] ∧ s.nRows = 2 ∧ s.Ci = [(0, 1)] ∧
    (∀ c, (grids c).keys = ["m", "r", "s", "nu"]) ∧
    IsFullPosterior (libCfg _) primLib grids s W ∧
    0 < ∑ κ, ∑ L ∈ latents (colsOf s) (rowsOf s), W κ L ∧
    (∀ κ, ∀ L ∈ latents (colsOf s) (rowsOf s), latentOf (colsOf s) (rowsOf s) (V κ L) = L) ∧
    ∀ f : ({c // c ∈ colsOf s} → Hypers) → Latent (colsOf s) (rowsOf s) → ℝ,
      ∑ κ, ∑ L ∈ latents (colsOf s) (rowsOf s), W κ L *
        average (totalAnyDraws grids s none none allKernels 15) (fun us =>
          f (hypersOf primLib (colsOf s) ((V κ L).transitionAny (libCfg _) primLib grids 15 allKernels
              none none (fun _ => plainAny s grids) us).state)
            (latentOf (colsOf s) (rowsOf s) ((V κ L).transitionAny (libCfg _) primLib grids 15
              allKernels none none (fun _ => plainAny s grids) us).state))
      = ∑ κ : Choice (colsOf s) grids, ∑ L ∈ latents (colsOf s) (rowsOf s),
          W κ L * f κ.hypers L := by
  classical
  obtain ⟨s, grids, h1, h2, h3, h4, h5, h6, h7, -⟩ := hyperDemo
  obtain ⟨p1, ⟨W, hW⟩, p3⟩ := C63_posterior h1 h6
  choose V hV using p1
  refine ⟨s, grids, W, fun κ L => if h : L ∈ latents (colsOf s) (rowsOf s) then V κ L h else s, h1, h2,
    h3, h4, h7, hW, (p3 W hW).2, fun κ L hLg => ?_, fun f => ?_⟩
  · simp only [dif_pos hLg]; exact (hV κ L hLg).2.2
  · refine C63_invariant (cols := none) (rowids := none) h1 h6 ⟨by simp, by simp⟩
      (by simp [allKernels]) (fun _ => h5) 15 (fun _ => plainAny_lists s grids) hW _
      (fun κ L hLg => ?_) f
    simp only [dif_pos hLg]
    exact hV κ L hLg

/-- The hypotheses of the frame can be met: the hyperparameters of column 1 are redrawn. -/
example : ∃ (s t t' : State colCat) (grids : Col → Grids), FullState (libCfg _) s t ∧
    GridsBuilt s grids ∧
    t.transitionAny (libCfg _) primLib grids 2 [.columnHypers] (some [1]) none
      (fun _ => { (⟨id, fun _ => List.range s.nRows, [1]⟩ : Orders) with
        names := fun c => (grids c).keys })
      (List.replicate (totalAnyDraws grids s (some [1]) none [.columnHypers] 2) (1 / 2)) = .ok t' ∧
    Untouched [] (some [1]) none t t' ∧ ∀ a : {c // c ∈ colsOf s}, a.1 ≠ 1 →
      hypersOf primLib (colsOf s) t' a = hypersOf primLib (colsOf s) t a := by
  obtain ⟨s, grids, h1, h2, h3, h4, h5, h6, h7, -⟩ := hyperDemo
  obtain ⟨p1, ⟨W, hW⟩, p3⟩ := C63_posterior h1 h6
  obtain ⟨κ, -, hκ⟩ := Finset.exists_ne_zero_of_sum_ne_zero (p3 W hW).2.ne'
  obtain ⟨L, hLg, -⟩ := Finset.exists_ne_zero_of_sum_ne_zero hκ
  obtain ⟨t, t1, t2, t3⟩ := p1 κ L hLg
  have hn : namesExist s (some [1]) none := ⟨by simp [h2], by simp⟩
  have ho : ∀ _ : ℕ, AnyOrders.Lists grids s (some [1]) none
      { (⟨id, fun _ => List.range s.nRows, [1]⟩ : Orders) with names := fun c => (grids c).keys } :=
    fun _ => ⟨⟨fun _ => List.Perm.refl _, fun _ => List.Perm.refl _, List.Perm.refl _⟩,
      fun _ => List.Perm.refl _⟩
  have hu : ∀ u ∈ List.replicate (totalAnyDraws grids s (some [1]) none [.columnHypers] 2)
      (1 / 2 : ℝ), 0 ≤ u ∧ u < 1 := fun u hu => by
    rw [(List.mem_replicate.mp hu).2]; norm_num
  have hgr : (latentOf (colsOf s) (rowsOf s) t).OnGrid := by
    rw [t3]; exact Latent.mem_latents.mp hLg
  obtain ⟨t', κ', e, -⟩ := C63_transition h1 h6 hn (by simp) (by simp) 2 ho t1 t2 hgr
    (List.length_replicate ..) hu
  obtain ⟨u1, u2⟩ := C63_untouched h1 h6 hn (by simp) (by simp) 2 ho t1 t2 hgr
    (List.length_replicate ..) hu e
  exact ⟨s, t, t', grids, t1, h6, e, u1, fun a ha => u2 a (Or.inr (by simpa using ha))⟩

end Cgpm.Props
