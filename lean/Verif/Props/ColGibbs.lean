import Verif.Lemmas.ColStep
import Verif.Lemmas.StateDemo

/-!
C60. Inference over columns leaves the CrossCat posterior invariant.

The State is seen through its latent structure (Spec/ColGibbs): the concentration and the partition
of the columns, and for each block of columns the concentration and the partition of the rows.
`gibbsDim` and `transitionDims` (Model/ColGibbs) are the column transitions with all their uniform
draws, including those of the auxiliary views; `average n F` (Spec/HyperGrid) is the mean of `F` over
`n` independent uniform draws.

The columns have collapsed types: the parameters of a column are integrated out of its score.
-/
namespace Cgpm.Props
open Cgpm Cgpm.View Cgpm.State Cgpm.Spec Cgpm.Spec.Hyper

variable {C : Cat} {cfg : Cfg C} {s : State C}

theorem StateReachable.step {t : State C} (h : StateReachable cfg t) {op : State.Op C}
    (hl : stateLegal cfg t op) : StateReachable cfg (t.apply cfg op).state := by
  obtain ⟨X, n, schema, alpha, Zv, order, rows, Cd, Ci, hi, s, hs, ops, hr⟩ := h
  have hrun : ∀ (ops : List (State.Op C)) (s : State C), stateLegalRun cfg s ops →
      stateLegal cfg (s.run cfg ops) op → stateLegalRun cfg s (ops ++ [op]) := by
    intro ops
    induction ops with
    | nil => intro s _ h2; exact ⟨h2, trivial⟩
    | cons o os ih => intro s h1 h2; exact ⟨h1.1, ih _ h1.2 h2⟩
  have := StateReachable.of X n schema alpha Zv order rows Cd Ci hi s hs (ops ++ [op])
    (hrun ops s hr hl)
  unfold State.run at this ⊢
  rw [List.foldl_append] at this
  exact this

theorem sameState_onModel (hL : C.Lawful) {t : State C} (h : SameState cfg s t)
    (hg : (latentOf (colsOf s) (rowsOf s) t).OnGrid) : OnModel s t :=
  ⟨SameState.kin hL h, h.sorted, hg⟩

/-- The latent structure determines the posterior weight: States of one model with the same latent
structure have the same score and the same weight, whatever the labels of views and clusters. -/
theorem C60_weight (hL : C.Lawful) (hs : StateReachable cfg s) {t t' : State C}
    (h : SameState cfg s t) (h' : SameState cfg s t')
    (he : latentOf (colsOf s) (rowsOf s) t = latentOf (colsOf s) (rowsOf s) t') :
    t.score = t'.score ∧ posteriorWeight t = posteriorWeight t' := by
  classical
  obtain ⟨h1, h2⟩ := KinS.weight hL (hs.inv hL) (SameState.kin hL h) (SameState.kin hL h')
    (fun c => mem_colsOf) rfl he
  refine ⟨h2, ?_⟩
  rw [posteriorWeight_eq, posteriorWeight_eq, h1]
  have : Separated t ↔ Separated t' := by
    rw [separated_iff (SameState.kin hL h), separated_iff (SameState.kin hL h'), he]
  simp only [this]

/-- Every latent structure whose concentrations are on the grids is that of a State of the model; the
posterior weights are well defined, and positive exactly where no two columns declared independent
are in one block; some weight is positive. -/
theorem C60_posterior (hL : C.Lawful) (hs : StateReachable cfg s) :
    (∀ L ∈ latents (colsOf s) (rowsOf s), ∃ t, SameState cfg s t ∧
      latentOf (colsOf s) (rowsOf s) t = L) ∧
    (∃ W, IsJointPosterior cfg s W) ∧
    ∀ W, IsJointPosterior cfg s W →
      (∀ L ∈ latents (colsOf s) (rowsOf s), 0 ≤ W L ∧ (0 < W L ↔
        ∀ a b, (a.1, b.1) ∈ s.Ci → a ≠ b → ¬ L.part.r a b)) ∧
      0 < ∑ L ∈ latents (colsOf s) (rowsOf s), W L := by
  classical
  have hI := hs.inv hL
  refine ⟨fun L hLg => hI.realise cfg hLg, ?_, fun W hW => ?_⟩
  · refine ⟨fun L => if h : ∃ t, SameState cfg s t ∧ latentOf (colsOf s) (rowsOf s) t = L
      then posteriorWeight h.choose else 0, fun t ht => ?_⟩
    have hex : ∃ t', SameState cfg s t' ∧ latentOf (colsOf s) (rowsOf s) t' =
      latentOf (colsOf s) (rowsOf s) t := ⟨t, ht, rfl⟩
    simp only [dif_pos hex]
    exact (C60_weight hL hs hex.choose_spec.1 ht hex.choose_spec.2).2
  · obtain ⟨U, hU, hpos⟩ := hI.exists_weight hL cfg
    have hWU := hI.posterior_weight hL hU hW
    have key : ∀ L ∈ latents (colsOf s) (rowsOf s), 0 ≤ W L ∧ (0 < W L ↔ Apart s.Ci L) :=
      fun L hLg => by
        rw [hWU L hLg]
        have := hpos L hLg
        by_cases h : Apart s.Ci L
        · rw [if_pos h]; exact ⟨this.le, fun _ => h, fun _ => this⟩
        · rw [if_neg h]; exact ⟨le_refl _, fun h0 => absurd h0 (lt_irrefl _), fun h1 => absurd h1 h⟩
    refine ⟨key, ?_⟩
    obtain ⟨c0, hc0⟩ := List.exists_mem_of_ne_nil _ hI.data.ne
    have hcard : 0 < (colsOf s).card := Finset.card_pos.mpr ⟨c0, mem_colsOf.mpr hc0⟩
    have hrcard : 0 < (rowsOf s).card := by unfold rowsOf; rw [Finset.card_range]; exact hI.pos
    have hne : ∀ n, 0 < n → ∃ a, a ∈ concentrations n := fun n hn => by
      obtain ⟨-, hlen, -⟩ := concentrations_ok hn
      exact List.exists_mem_of_ne_nil _ (fun e => by rw [e] at hlen; simp at hlen)
    obtain ⟨a, ha⟩ := hne _ hcard
    obtain ⟨b, hb⟩ := hne _ hrcard
    have hsep : (⟨a, ⊥, fun _ => (b, ⊥), fun _ _ _ => rfl⟩ : Latent (colsOf s) (rowsOf s)) ∈
        latents (colsOf s) (rowsOf s) := Latent.mem_latents.mpr ⟨ha, fun _ => hb⟩
    refine Finset.sum_pos' (fun L hLg => (key L hLg).1) ⟨_, hsep, ?_⟩
    exact (key _ hsep).2.mpr fun x y _ hne hr => hne hr

/-- A column transition never raises; it stays among the States of the model, with concentrations on
the grids; the other columns keep their views, the concentration stays, and the column is put in a view without columns
declared independent of it. -/
theorem C60_transition (hL : C.Lawful) (hs : StateReachable cfg s)
    (hcond : s.anyConditional cfg = false) (hCd : s.Cd = []) {col : Col} (hcol : col ∈ s.outputs)
    (hCi : partnersExist s col) {m : Nat} (hm : 0 < m) {t : State C} (ht : SameState cfg s t)
    (hg : (latentOf (colsOf s) (rowsOf s) t).OnGrid) {us : List ℝ}
    (hl : us.length = s.dimDraws m) (hu : ∀ u ∈ us, 0 ≤ u ∧ u < 1) :
    ∃ t', t.gibbsDim cfg col m us = .ok t' ∧ SameState cfg s t' ∧
      (latentOf (colsOf s) (rowsOf s) t').OnGrid ∧ (∀ c, c ≠ col → t'.Zv c = t.Zv c) ∧
      t'.crp.alpha = t.crp.alpha ∧
      ∀ a, a ≠ col → (a, col) ∈ s.Ci ∨ (col, a) ∈ s.Ci → t'.Zv a ≠ t'.Zv col := by
  have hI := hs.inv hL
  have hom := sameState_onModel hL ht hg
  obtain ⟨t', d, cur, new, va, g1, g2, g3, g4, g5, g6, aux, u, g7, g8⟩ := hom.gibbsDim_ok hL hI hcol
    hcond hCd hCi hm (us := us) (by rw [hl]; unfold dimDraws; rw [hom.kin.nRows]) hu
  have hpart : partnersExist t col := fun a ha hm => by
    rw [ht.independent] at hm; rw [ht.outputs]; exact hCi a ha hm
  have hr := ht.reachable.step (op := .column col m aux u)
    ⟨hm, g7, hpart, fun _ _ => Or.inr ht.sorted⟩
  rw [State.apply, g8] at hr
  refine ⟨t', g1, ⟨hr, g2.sorted, g2.kin.X, g2.kin.outputs, g2.kin.Cd, g2.kin.Ci,
    fun c d d' h1 h2 => ?_⟩, g2.grid, fun c hc => ?_, g5.alpha, fun a ha hm he => ?_⟩
  · have := g2.kin.columns c d d' h1 h2
    exact ⟨this.index, this.inputs, this.kind, this.hyp⟩
  · rw [g5.Zv, upd_ne _ _ hc]
  · rw [g5.Zv, upd_ne _ _ ha] at he
    exact g6 a (mem_avoid.mpr ⟨ha, hm⟩) (he.trans (by simp))

/-- Inference over columns is a chain on the States of the model. -/
theorem transitionDims_kernel (hL : C.Lawful) (hs : StateReachable cfg s)
    (hcond : s.anyConditional cfg = false) (hCd : s.Cd = []) {m : Nat} (hm : 0 < m)
    {W : Latent (colsOf s) (rowsOf s) → ℝ} (hW : IsJointPosterior cfg s W) (order : List Col)
    (ho : ∀ c ∈ order, c ∈ s.outputs ∧ partnersExist s c) :
    IsKernel s W (order.length * s.dimDraws m) (fun t us => t.transitionDims cfg m order us) := by
  have hI := hs.inv hL
  obtain ⟨U, hU, hpos⟩ := hI.exists_weight hL cfg
  have hWU := hI.posterior_weight hL hU hW
  induction order with
  | nil =>
    rw [List.length_nil, zero_mul]
    exact isKernel_id s W
  | cons c cs ih =>
    have h1 := gibbsDim_kernel hL hI hU hpos hWU (ho c (by simp)).1 hcond hCd (ho c (by simp)).2 hm
    have h2 := ih fun c hc => ho c (by simp [hc])
    have h3 := h1.comp h2
    rw [List.length_cons, Nat.succ_mul, Nat.add_comm]
    refine h3.congr fun t ht us => ?_
    have : t.dimDraws m = s.dimDraws m := by unfold dimDraws; rw [ht.kin.nRows]
    simp only [transitionDims, this]

/-- One column transition leaves the posterior invariant: if the latent structure is drawn from the
posterior, so it is after the transition of a column, for every number `m > 0` of auxiliary views and
every choice `V` of a State for each latent structure. -/
theorem C60_invariant_column (hL : C.Lawful) (hs : StateReachable cfg s)
    (hcond : s.anyConditional cfg = false) (hCd : s.Cd = []) {col : Col} (hcol : col ∈ s.outputs)
    (hCi : partnersExist s col) {m : Nat} (hm : 0 < m)
    {W : Latent (colsOf s) (rowsOf s) → ℝ} (hW : IsJointPosterior cfg s W)
    (V : Latent (colsOf s) (rowsOf s) → State C)
    (hV : ∀ L ∈ latents (colsOf s) (rowsOf s), SameState cfg s (V L) ∧
      latentOf (colsOf s) (rowsOf s) (V L) = L)
    (f : Latent (colsOf s) (rowsOf s) → ℝ) :
    ∑ L ∈ latents (colsOf s) (rowsOf s), W L * average (s.dimDraws m) (fun us =>
        f (latentOf (colsOf s) (rowsOf s) ((V L).gibbsDim cfg col m us).state))
      = ∑ L ∈ latents (colsOf s) (rowsOf s), W L * f L := by
  have hI := hs.inv hL
  obtain ⟨U, hU, hpos⟩ := hI.exists_weight hL cfg
  exact (gibbsDim_kernel hL hI hU hpos (hI.posterior_weight hL hU hW) hcol hcond hCd hCi
    hm).invariant (fun L hLg => sameState_onModel hL (hV L hLg).1
      (by rw [(hV L hLg).2]; exact Latent.mem_latents.mp hLg)) (fun L hLg => (hV L hLg).2) f

/-- A pass over any list of columns, in any order, never raises, stays among the States of the model,
and leaves the posterior invariant. -/
theorem C60_invariant (hL : C.Lawful) (hs : StateReachable cfg s)
    (hcond : s.anyConditional cfg = false) (hCd : s.Cd = []) {m : Nat} (hm : 0 < m)
    (order : List Col) (ho : ∀ c ∈ order, c ∈ s.outputs ∧ partnersExist s c) :
    (∀ t, SameState cfg s t → (latentOf (colsOf s) (rowsOf s) t).OnGrid → ∀ us : List ℝ,
      us.length = order.length * s.dimDraws m → (∀ u ∈ us, 0 ≤ u ∧ u < 1) →
      ∃ t', t.transitionDims cfg m order us = .ok t' ∧ SameState cfg s t' ∧
        (latentOf (colsOf s) (rowsOf s) t').OnGrid ∧
        t'.crp.alpha = t.crp.alpha ∧ ∀ c, c ∉ order → t'.Zv c = t.Zv c) ∧
    ∀ W, IsJointPosterior cfg s W → ∀ V : Latent (colsOf s) (rowsOf s) → State C,
      (∀ L ∈ latents (colsOf s) (rowsOf s), SameState cfg s (V L) ∧
        latentOf (colsOf s) (rowsOf s) (V L) = L) →
      ∀ f : Latent (colsOf s) (rowsOf s) → ℝ,
      ∑ L ∈ latents (colsOf s) (rowsOf s), W L * average (order.length * s.dimDraws m) (fun us =>
          f (latentOf (colsOf s) (rowsOf s) ((V L).transitionDims cfg m order us).state))
        = ∑ L ∈ latents (colsOf s) (rowsOf s), W L * f L := by
  refine ⟨?_, fun W hW V hV f => ?_⟩
  · induction order with
    | nil => intro t ht hg us _ _; exact ⟨t, rfl, ht, hg, rfl, fun _ _ => rfl⟩
    | cons c cs ih =>
      intro t ht hg us hl hu
      rw [List.length_cons, Nat.succ_mul] at hl
      obtain ⟨t1, e1, e2, e3, e4, e5, -⟩ := C60_transition hL hs hcond hCd (ho c (by simp)).1
        (ho c (by simp)).2 hm ht hg (us := us.take (s.dimDraws m))
        (by rw [List.length_take]; omega) (fun u hm => hu u (List.mem_of_mem_take hm))
      obtain ⟨t2, f1, f2, f3, f5, f4⟩ := ih (fun c hc => ho c (by simp [hc])) t1 e2 e3
        (us.drop (s.dimDraws m)) (by rw [List.length_drop]; omega)
        (fun u hm => hu u (List.mem_of_mem_drop hm))
      have hdr : t.dimDraws m = s.dimDraws m := by
        unfold dimDraws; rw [(SameState.kin hL ht).nRows]
      refine ⟨t2, ?_, f2, f3, f5.trans e5, fun x hx => ?_⟩
      · simp only [transitionDims, hdr, e1, Out.bind_ok, f1]
      · rw [f4 x (fun h => hx (by simp [h])), e4 x (fun h => hx (by simp [h]))]
  · exact (transitionDims_kernel hL hs hcond hCd hm hW order ho).invariant
      (fun L hLg => sameState_onModel hL (hV L hLg).1
        (by rw [(hV L hLg).2]; exact Latent.mem_latents.mp hLg)) (fun L hLg => (hV L hLg).2) f

/-- A State with two columns that are declared independent, two rows and two views. -/
theorem colDemo : ∃ s : State libCat, StateReachable plainCfg s ∧ viewsSorted s ∧
    s.outputs = [0, 1] ∧ s.nRows = 2 ∧ s.Ci = [(0, 1)] ∧ s.Cd = [] ∧
    s.anyConditional plainCfg = false ∧ ∀ c ∈ s.outputs, partnersExist s c := by
  obtain ⟨s, h1, h2, h3, h4, h5, h6, h7, h8, h9, h10, -, h12⟩ := stateDemo_init
    (normal_remembered 0) normal_hyp (a := 0) (b := 1) (by decide) [] [(0, 1)]
  refine ⟨s, h1, by unfold viewsSorted; rw [h8]; simp, h4, h5, h10, h9, ?_, fun c _ a ha hm => ?_⟩
  · rw [Bool.eq_false_iff, ne_eq, anyConditional_iff]
    rintro ⟨c, hc, d, hd, hk⟩
    rw [(h12 c d hd).1] at hk
    cases hk
  · rw [h10] at hm
    rw [h4]
    simp at hm ⊢
    rcases hm with hm | hm
    · exact Or.inl hm.1
    · exact Or.inr hm.2

/-- The hypotheses can be met: this State is in its own model, and every latent structure on the
grids (there are some) is that of a State on which column transitions run. -/
example : ∃ s : State libCat, StateReachable plainCfg s ∧ SameState plainCfg s s ∧
    (∃ L, L ∈ latents (colsOf s) (rowsOf s)) ∧ ∀ L ∈ latents (colsOf s) (rowsOf s),
      ∃ t t', SameState plainCfg s t ∧ latentOf (colsOf s) (rowsOf s) t = L ∧
        t.gibbsDim plainCfg 1 2 (List.replicate (s.dimDraws 2) (1 / 2)) = .ok t' ∧
        SameState plainCfg s t' := by
  obtain ⟨s, h1, h2, h3, h4, h5, h6, h7, h8⟩ := colDemo
  obtain ⟨p1, ⟨W, hW⟩, p3⟩ := C60_posterior (catOf_lawful fun _ => True) h1
  refine ⟨s, h1, ⟨h1, h2, rfl, rfl, rfl, rfl, fun c d d' e e' => ?_⟩, ?_, fun L hLg => ?_⟩
  · rw [e] at e'; cases e'; exact ⟨rfl, rfl, rfl, rfl⟩
  · obtain ⟨L, hL, -⟩ := Finset.exists_ne_zero_of_sum_ne_zero (p3 W hW).2.ne'
    exact ⟨L, hL⟩
  · obtain ⟨t, t1, rfl⟩ := p1 L hLg
    obtain ⟨t', e1, e2, -⟩ := C60_transition (catOf_lawful fun _ => True) h1 h7 h6 (col := 1)
      (by rw [h3]; simp) (h8 1 (by rw [h3]; simp)) (m := 2) (by norm_num) t1
      (Latent.mem_latents.mp hLg) (us := List.replicate (s.dimDraws 2) (1 / 2)) (by simp)
      (fun u hu => by rw [List.eq_of_mem_replicate hu]; norm_num)
    exact ⟨t, t', t1, rfl, e1, e2⟩

/-- The State has a posterior, and a pass over its columns with two auxiliary views leaves it
invariant. -/
example : ∃ s : State libCat, StateReachable plainCfg s ∧ s.outputs = [0, 1] ∧ s.nRows = 2 ∧
    s.Ci = [(0, 1)] ∧ ∃ (W : Latent (colsOf s) (rowsOf s) → ℝ)
    (V : Latent (colsOf s) (rowsOf s) → State libCat), IsJointPosterior plainCfg s W ∧
    ∀ f : _ → ℝ, ∑ L ∈ latents (colsOf s) (rowsOf s), W L * average (2 * s.dimDraws 2) (fun us =>
        f (latentOf (colsOf s) (rowsOf s) ((V L).transitionDims plainCfg 2 [1, 0] us).state))
      = ∑ L ∈ latents (colsOf s) (rowsOf s), W L * f L := by
  obtain ⟨s, h1, h2, h3, h4, h5, h6, h7, h8⟩ := colDemo
  obtain ⟨p1, ⟨W, hW⟩, -⟩ := C60_posterior (catOf_lawful fun _ => True) h1
  choose V hV using p1
  classical
  refine ⟨s, h1, h3, h4, h5, W, fun L => if h : L ∈ latents (colsOf s) (rowsOf s) then V L h else s,
    hW, fun f => ?_⟩
  refine (C60_invariant (catOf_lawful fun _ => True) h1 h7 h6 (by norm_num) [1, 0]
    fun c hc => ?_).2 W hW _ (fun L hLg => ?_) f
  · have : c ∈ s.outputs := by rw [h3]; simpa [or_comm] using hc
    exact ⟨this, h8 c this⟩
  · simp only [dif_pos hLg]
    exact hV L hLg

end Cgpm.Props
