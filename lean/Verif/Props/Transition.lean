import Verif.Spec.Transition
import Verif.Lemmas.TransitionReach
import Verif.Lemmas.SweepDemo

/-!
C61. Inference leaves the CrossCat posterior invariant, whatever the schedule of kernels.

`State.transition` (Model/Transition) runs the kernels of a list in turn: the concentration of the
column partition, the concentrations of the views, the rows of the views, and the columns.  The State
is seen through its latent structure, and `IsJointPosterior` says which weight each latent structure
has (Spec/ColGibbs).
-/
namespace Cgpm.Props
open Cgpm Cgpm.View Cgpm.State Cgpm.Spec Cgpm.Spec.Hyper

variable {C : Cat} {cfg : Cfg C} {s : State C} {cols : Option (List Col)}
  {rowids : Option (List Row)}

/-- A kernel call with `N` draws: it never raises, stays among the States of the model, and leaves
the weights invariant. -/
structure GoodKernel (cfg : Cfg C) (s : State C) (W : Latent (colsOf s) (rowsOf s) → ℝ) (N : ℕ)
    (K : State C → List ℝ → Out (State C)) : Prop where
  kernel : IsKernel s W N K
  reach : ∀ t t', OnModel s t → StateReachable cfg t → ∀ us : List ℝ, us.length = N →
    (∀ u ∈ us, 0 ≤ u ∧ u < 1) → K t us = .ok t' → StateReachable cfg t'

theorem GoodKernel.comp {W : Latent (colsOf s) (rowsOf s) → ℝ} {a b : ℕ}
    {K K' : State C → List ℝ → Out (State C)} (h : GoodKernel cfg s W a K)
    (h' : GoodKernel cfg s W b K') : GoodKernel cfg s W (a + b)
      (fun t us => (K t (us.take a)).bind fun t' => K' t' (us.drop a)) := by
  refine ⟨h.kernel.comp h'.kernel, fun t t' ht hr us hl hu he => ?_⟩
  obtain ⟨P, p1, -, -⟩ := h.kernel
  have l1 : (us.take a).length = a := by rw [List.length_take]; omega
  have u1 : ∀ u ∈ us.take a, 0 ≤ u ∧ u < 1 := fun u hm => hu u (List.mem_of_mem_take hm)
  obtain ⟨t1, e1, h1⟩ := p1 t ht (us.take a) l1 u1
  simp only [e1, Out.bind_ok] at he
  exact h'.reach t1 t' h1 (h.reach t t1 ht hr _ l1 u1 e1) _ (by rw [List.length_drop]; omega)
    (fun u hm => hu u (List.mem_of_mem_drop hm)) he

theorem GoodKernel.congr {W : Latent (colsOf s) (rowsOf s) → ℝ} {N : ℕ}
    {K K' : State C → List ℝ → Out (State C)} (h : GoodKernel cfg s W N K)
    (he : ∀ t, OnModel s t → ∀ us, K' t us = K t us) : GoodKernel cfg s W N K' :=
  ⟨h.kernel.congr he, fun t t' ht hr us hl hu e => h.reach t t' ht hr us hl hu (by rw [← he t ht, e])⟩

theorem goodKernel_id (cfg : Cfg C) (s : State C) (W : Latent (colsOf s) (rowsOf s) → ℝ) (N : ℕ) :
    GoodKernel cfg s W N (fun t _ => .ok t) :=
  ⟨⟨fun f => f, fun t ht us _ _ => ⟨t, rfl, ht⟩, fun t _ f => average_const N _, fun f => rfl,
    fun _ _ _ _ _ => rfl⟩,
    fun t t' _ hr us _ _ e => by cases e; exact hr⟩

theorem kernelDraws_eq {t : State C} (h : OnModel s t) (k : Kernel) :
    t.kernelDraws cols rowids k = s.kernelDraws cols rowids k := by
  cases k <;> simp only [kernelDraws, h.kin.outputs, h.kin.nRows, dimDraws]

theorem rowids_lt (hn : namesExist s cols rowids) {r : Row}
    (h : r ∈ rowids.getD (List.range s.nRows)) : r < s.nRows := by
  cases rowids with
  | none => simpa using h
  | some l => exact hn.2 r h

theorem cols_mem (hn : namesExist s cols rowids) {c : Col} (h : c ∈ cols.getD s.outputs) :
    c ∈ s.outputs := by
  cases cols with
  | none => exact h
  | some l => exact hn.1 c h

/-- The factors of the weight. -/
theorem posterior_factor (hL : C.Lawful) (hs : Inv s) {W : Latent (colsOf s) (rowsOf s) → ℝ}
    (hW : IsJointPosterior cfg s W) : ∃ (U : Latent (colsOf s) (rowsOf s) → ℝ)
      (w : Setoid {c // c ∈ colsOf s} → {c // c ∈ colsOf s} → ℝ × RowPartition (rowsOf s) → ℝ)
      (χ : Setoid {c // c ∈ colsOf s} → ℝ),
      (∀ t, KinS s t → (latentOf (colsOf s) (rowsOf s) t).OnGrid →
        U (latentOf (colsOf s) (rowsOf s) t) = freeWeight t) ∧
      (∀ L ∈ latents (colsOf s) (rowsOf s), 0 < U L) ∧
      (∀ L ∈ latents (colsOf s) (rowsOf s), W L = χ L.part * U L) ∧ ViewWeight s w ∧
      IsFactor W w := by
  classical
  obtain ⟨U, hU, hpos⟩ := hs.exists_weight hL cfg
  have hWU := hs.posterior_weight hL hU hW
  obtain ⟨w, w1, w2, w3⟩ := hs.exists_factor hL cfg hU
  let χ : Setoid {c // c ∈ colsOf s} → ℝ := fun p =>
    if ∀ a b : {c // c ∈ colsOf s}, (a.1, b.1) ∈ s.Ci → a ≠ b → ¬ p.r a b then 1 else 0
  have hχ : ∀ L ∈ latents (colsOf s) (rowsOf s), W L = χ L.part * U L := fun L hLg => by
    rw [hWU L hLg]
    by_cases h : Apart s.Ci L
    · rw [if_pos h]
      have : χ L.part = 1 := if_pos h
      rw [this, one_mul]
    · rw [if_neg h]
      have : χ L.part = 0 := if_neg h
      rw [this, zero_mul]
  refine ⟨U, w, χ, hU, hpos, hχ, ⟨w2, w1.pos, w3⟩, ⟨w1.pos, fun L hLg c l hl => ?_⟩⟩
  rw [hχ L hLg, hχ _ (Latent.mem_latents_setView hLg hl), Latent.setView_part, mul_assoc,
    w1.factor L hLg c l hl, mul_assoc]

theorem callKernel_good (hL : C.Lawful) (hCh : C.Chain) (hs : StateReachable cfg s)
    (hn : namesExist s cols rowids) {W : Latent (colsOf s) (rowsOf s) → ℝ}
    (hW : IsJointPosterior cfg s W) {k : Kernel}
    (hm : k = .columns → ColumnsMove cfg s cols) {o : Orders} (ho : Orders.Lists s cols rowids o) :
    GoodKernel cfg s W (s.kernelDraws cols rowids k)
      (fun t us => t.callKernel cfg cols rowids o us k) := by
  have hI := hs.inv hL
  obtain ⟨U, w, χ, hU, hpos, hχ, hw, hF⟩ := posterior_factor hL hI hW
  have hlen : ∀ t, OnModel s t → (o.views (t.viewsFor cols)).length ≤ s.outputs.length := by
    intro t ht
    exact viewsFor_length hI ht ho.views
  cases k with
  | alpha =>
    refine ⟨⟨_, transitionCrpAlpha_chain hI hU hpos hχ⟩, fun t t' ht hr us hl hu he => ?_⟩
    obtain ⟨u, rfl⟩ := List.length_eq_one_iff.mp hl
    have hc : 0 < t.outputs.length := by rw [colsOf_card ht.kin]; exact colsOf_pos hI
    obtain ⟨a, ha, e⟩ := Crp.transitionAlpha_ok hc t.crp ht.kin.inv.alpha (hu u (by simp))
    simp only [callKernel, State.transitionCrpAlpha, e, Out.map_ok] at he
    cases he
    exact reach_alpha hr ((concentrations_ok hc).2.2 a ha)
  | viewAlphas =>
    have hv := transitionCrpAlpha_viewKernel hI hw
    have e : ∀ t, OnModel s t → ∀ us, t.callKernel cfg cols rowids o us .viewAlphas
        = visitViews (fun v => v.transitionCrpAlpha s.nRows) 2 (o.views (t.viewsFor cols)) t us :=
      fun t ht us => by simp only [callKernel, ht.kin.nRows]
    refine GoodKernel.congr ⟨⟨_, visitViews_chain hI hF hv hn.1 ho.views⟩,
      fun t t' ht hr us hl hu he => ?_⟩ e
    exact visitViews_reach hv (keepsReach_alpha hI cfg) ht hr
      (by rw [hl]; exact Nat.mul_le_mul_right 2 (hlen t ht)) hu he
  | columnParams => exact goodKernel_id cfg s W 0
  | rows =>
    by_cases h1 : s.nRows = 1
    · refine (goodKernel_id cfg s W _).congr fun t ht us => ?_
      simp only [callKernel, ht.kin.nRows, if_pos h1]
    · have hR : ∀ B, (o.rows B).length = (rowids.getD (List.range s.nRows)).length ∧
          ∀ r ∈ o.rows B, r < s.nRows := fun B =>
        ⟨(ho.rows B).length_eq, fun r hr => rowids_lt hn ((ho.rows B).mem_iff.mp hr)⟩
      have hv := transitionRows_viewKernel hL hCh hI hw hR
      have e : ∀ t, OnModel s t → ∀ us, t.callKernel cfg cols rowids o us .rows
          = visitViews (fun v => v.transitionRowsIn s.tbl o.rows)
            (rowids.getD (List.range s.nRows)).length (o.views (t.viewsFor cols)) t us :=
        fun t ht us => by simp only [callKernel, ht.kin.nRows, if_neg h1, ht.kin.tbl]
      refine GoodKernel.congr ⟨⟨_, visitViews_chain hI hF hv hn.1 ho.views⟩,
        fun t t' ht hr us hl hu he => ?_⟩ e
      exact visitViews_reach hv (keepsReach_rows hL hCh cfg h1 hR) ht hr
        (by rw [hl]; exact Nat.mul_le_mul_right _ (hlen t ht)) hu he
  | columns =>
    obtain ⟨m1, m2, m3⟩ := hm rfl
    have hoc : ∀ c ∈ o.cols, c ∈ s.outputs ∧ partnersExist s c := fun c hc => by
      have := (ho.cols).mem_iff.mp hc
      exact ⟨cols_mem hn this, m3 c this⟩
    have hN : s.kernelDraws cols rowids .columns = o.cols.length * s.dimDraws 1 := by
      rw [ho.cols.length_eq]; rfl
    rw [hN]
    refine ⟨transitionDims_kernel hL hs m1 m2 one_pos hW o.cols hoc,
      fun t t' ht hr us hl hu he => ?_⟩
    obtain ⟨t'', e, h2, -⟩ := (C60_invariant hL hs m1 m2 one_pos o.cols hoc).1 t
      (sameState_of ht hr) ht.grid us hl hu
    have he' : t.transitionDims cfg 1 o.cols us = .ok t' := he
    rw [e] at he'
    cases he'
    exact h2.reachable

theorem callKernels_good (hL : C.Lawful) (hCh : C.Chain) (hs : StateReachable cfg s)
    (hn : namesExist s cols rowids) {W : Latent (colsOf s) (rowsOf s) → ℝ}
    (hW : IsJointPosterior cfg s W) (ks : List (Kernel × Orders))
    (hk : ∀ k ∈ ks, (k.1 = .columns → ColumnsMove cfg s cols) ∧ Orders.Lists s cols rowids k.2) :
    GoodKernel cfg s W (ks.map fun k => s.kernelDraws cols rowids k.1).sum
      (fun t us => callKernels cfg cols rowids ks t us) := by
  induction ks with
  | nil => exact goodKernel_id cfg s W 0
  | cons k ks ih =>
    have h1 := callKernel_good hL hCh hs hn hW (hk k (by simp)).1 (hk k (by simp)).2
    have h2 := ih fun k' hk' => hk k' (by simp [hk'])
    rw [List.map_cons, List.sum_cons]
    refine (h1.comp h2).congr fun t ht us => ?_
    simp only [callKernels, kernelDraws_eq ht]

theorem totalDraws_eq (s : State C) (cols : Option (List Col)) (rowids : Option (List Row))
    (kernels : List Kernel) (calls : ℕ) (orders : ℕ → Orders) :
    (((List.range calls).filterMap fun i => (kernels[i % kernels.length]?).map
      fun k => (k, orders i)).map fun k => s.kernelDraws cols rowids k.1).sum
      = totalDraws s cols rowids kernels calls := by
  unfold totalDraws
  rw [List.map_filterMap, List.map_filterMap]
  simp only [Option.map_map]
  rfl

theorem transition_good (hL : C.Lawful) (hCh : C.Chain) (hs : StateReachable cfg s)
    (hn : namesExist s cols rowids) {kernels : List Kernel} (hne : kernels ≠ [])
    (hm : .columns ∈ kernels → ColumnsMove cfg s cols) (calls : ℕ) {orders : ℕ → Orders}
    (ho : ∀ i, Orders.Lists s cols rowids (orders i)) {W : Latent (colsOf s) (rowsOf s) → ℝ}
    (hW : IsJointPosterior cfg s W) :
    GoodKernel cfg s W (totalDraws s cols rowids kernels calls)
      (fun t us => t.transition cfg calls kernels cols rowids orders us) := by
  have h := callKernels_good hL hCh hs hn hW ((List.range calls).filterMap fun i =>
    (kernels[i % kernels.length]?).map fun k => (k, orders i)) (fun k hk => by
      obtain ⟨i, -, hi⟩ := List.mem_filterMap.mp hk
      obtain ⟨k', hk', rfl⟩ := Option.map_eq_some_iff.mp hi
      have := List.mem_of_getElem? hk'
      exact ⟨fun e => hm (by rw [← e]; exact this), ho i⟩)
  rw [totalDraws_eq] at h
  refine h.congr fun t ht us => ?_
  unfold transition
  rw [if_neg (by rw [not_not, ht.kin.outputs]; exact hn.1), if_neg hne]

/-- Inference with any list of kernels never raises and stays among the States of the model, whatever
the number of kernel calls, the orders and the draws. -/
theorem C61_transition (hL : C.Lawful) (hCh : C.Chain) (hs : StateReachable cfg s)
    (hn : namesExist s cols rowids) {kernels : List Kernel} (hne : kernels ≠ [])
    (hm : .columns ∈ kernels → ColumnsMove cfg s cols) (calls : ℕ) {orders : ℕ → Orders}
    (ho : ∀ i, Orders.Lists s cols rowids (orders i)) {t : State C} (ht : SameState cfg s t)
    (hg : (latentOf (colsOf s) (rowsOf s) t).OnGrid) {us : List ℝ}
    (hl : us.length = totalDraws s cols rowids kernels calls) (hu : ∀ u ∈ us, 0 ≤ u ∧ u < 1) :
    ∃ t', t.transition cfg calls kernels cols rowids orders us = .ok t' ∧ SameState cfg s t' ∧
      (latentOf (colsOf s) (rowsOf s) t').OnGrid := by
  obtain ⟨W, hW⟩ := (C60_posterior hL hs).2.1
  have h := transition_good hL hCh hs hn hne hm calls ho hW
  have ht' := sameState_onModel hL ht hg
  obtain ⟨P, p1, -, -⟩ := h.kernel
  obtain ⟨t', e, h'⟩ := p1 t ht' us hl hu
  exact ⟨t', e, sameState_of h' (h.reach t t' ht' ht.reachable us hl hu e), h'.grid⟩

/-- Inference with any list of kernels, stopped after any number of kernel calls, leaves the
posterior invariant: if the latent structure is drawn from the posterior, so it is afterwards.  `V L`
is any State of the model with latent structure `L`. -/
theorem C61_invariant (hL : C.Lawful) (hCh : C.Chain) (hs : StateReachable cfg s)
    (hn : namesExist s cols rowids) {kernels : List Kernel} (hne : kernels ≠ [])
    (hm : .columns ∈ kernels → ColumnsMove cfg s cols) (calls : ℕ) {orders : ℕ → Orders}
    (ho : ∀ i, Orders.Lists s cols rowids (orders i)) {W : Latent (colsOf s) (rowsOf s) → ℝ}
    (hW : IsJointPosterior cfg s W) (V : Latent (colsOf s) (rowsOf s) → State C)
    (hV : ∀ L ∈ latents (colsOf s) (rowsOf s), SameState cfg s (V L) ∧
      latentOf (colsOf s) (rowsOf s) (V L) = L)
    (f : Latent (colsOf s) (rowsOf s) → ℝ) :
    ∑ L ∈ latents (colsOf s) (rowsOf s), W L * average (totalDraws s cols rowids kernels calls)
        (fun us => f (latentOf (colsOf s) (rowsOf s)
          ((V L).transition cfg calls kernels cols rowids orders us).state))
      = ∑ L ∈ latents (colsOf s) (rowsOf s), W L * f L :=
  (transition_good hL hCh hs hn hne hm calls ho hW).kernel.invariant
    (fun L hLg => sameState_onModel hL (hV L hLg).1
      (by rw [(hV L hLg).2]; exact Latent.mem_latents.mp hLg)) (fun L hLg => (hV L hLg).2) f

/-- Inference on columns that do not exist, or with no kernels, is refused and changes nothing. -/
theorem C61_refused (s : State C) (calls : ℕ) (kernels : List Kernel) (cols : Option (List Col))
    (rowids : Option (List Row)) (orders : ℕ → Orders) (us : List ℝ) :
    ((∃ c ∈ cols.getD [], c ∉ s.outputs) →
      s.transition cfg calls kernels cols rowids orders us = .err .valueError s) ∧
    ((∀ c ∈ cols.getD [], c ∈ s.outputs) → kernels = [] →
      s.transition cfg calls kernels cols rowids orders us = .err .assertion s) := by
  unfold transition
  refine ⟨fun ⟨c, hc, hne⟩ => if_pos fun h => hne (h c hc), fun h1 h2 => ?_⟩
  rw [if_neg (not_not.mpr h1), if_pos h2]

/-! ### What is left as it is -/

theorem _root_.Cgpm.Spec.Untouched.refl (ks : List Kernel) (cols : Option (List Col)) (rowids : Option (List Row))
    (t : State C) : Untouched ks cols rowids t t :=
  ⟨fun _ => rfl, fun _ _ => rfl, fun _ => ⟨rfl, fun i v v' h h' => by
    rw [h] at h'; cases h'; exact ⟨fun _ => rfl, fun _ _ => rfl⟩⟩⟩

theorem _root_.Cgpm.Spec.Untouched.trans {ks : List Kernel} {t t' t'' : State C}
    (ho : t'.outputs = t.outputs) (hn : t'.nRows = t.nRows)
    (h : Untouched ks cols rowids t t') (h' : Untouched ks cols rowids t' t'') :
    Untouched ks cols rowids t t'' := by
  refine ⟨fun e => (h'.alpha e).trans (h.alpha e), fun c e => ?_, fun e => ?_⟩
  · rw [h'.columns c (by rw [ho]; exact e), h.columns c e]
  · obtain ⟨k1, k2⟩ := h.views e
    obtain ⟨k1', k2'⟩ := h'.views e
    refine ⟨k1'.trans k1, fun i v v'' hv hv'' => ?_⟩
    have hi : i ∈ t'.views.keys := by rw [k1]; exact Dict.mem_keys_of_get? hv
    obtain ⟨v', hv'⟩ := Dict.exists_of_mem_keys hi
    obtain ⟨a1, a2⟩ := k2 i v v' hv hv'
    obtain ⟨b1, b2⟩ := k2' i v' v'' hv' hv''
    have hu : unvisited t cols i → unvisited t' cols i := fun hu =>
      ⟨hu.1, fun c hc => by rw [h.columns c (Or.inl e)]; exact hu.2 c hc⟩
    refine ⟨fun g => (b1 (g.imp_right hu)).trans (a1 g), fun r g => (b2 r ?_).trans (a2 r g)⟩
    rw [hn]
    exact g.imp_right (Or.imp_left hu)

theorem visitViews_untouched {w : Setoid {c // c ∈ colsOf s} → {c // c ∈ colsOf s} →
    ℝ × RowPartition (rowsOf s) → ℝ} {k : ℕ} {K : View C → List ℝ → Out (View C)}
    {κ : Local (colsOf s) (rowsOf s)} (h : IsViewKernel s w k K κ) {vs : List Nat}
    {t t' : State C} (ht : OnModel s t) {us : List ℝ} (hl : vs.length * k ≤ us.length)
    (hu : ∀ u ∈ us, 0 ≤ u ∧ u < 1) {R : Nat → View C → View C → Prop} (hrefl : ∀ i v, R i v v)
    (htrans : ∀ i v v' v'', R i v v' → R i v' v'' → R i v v'')
    (hR : ∀ i ∈ vs, ∀ t, OnModel s t → ∀ v v', t.views.get? i = some v → ∀ us : List ℝ,
      us.length = k → (∀ u ∈ us, 0 ≤ u ∧ u < 1) → K v us = .ok v' → R i v v')
    (he : visitViews K k vs t us = .ok t') :
    t'.crp = t.crp ∧ t'.views.keys = t.views.keys ∧ ∀ i v v', t.views.get? i = some v →
      t'.views.get? i = some v' → R i v v' := by
  induction vs generalizing t us with
  | nil =>
    cases he
    refine ⟨rfl, rfl, fun i v v' h h' => ?_⟩
    rw [h] at h'; cases h'; exact hrefl i v
  | cons j vs ih =>
    rw [List.length_cons, Nat.succ_mul] at hl
    unfold visitViews at he
    cases hv : t.views.get? j with
    | none => simp only [onView, hv] at he; cases he
    | some w =>
      have l1 : (us.take k).length = k := by rw [List.length_take]; omega
      have u1 : ∀ u ∈ us.take k, 0 ≤ u ∧ u < 1 := fun u hm => hu u (List.mem_of_mem_take hm)
      obtain ⟨w', hk, i1, r1, s1, a1⟩ := h.ok t ht j w hv (us.take k) l1 u1
      simp only [onView, hv, hk, Out.bind_ok] at he
      obtain ⟨h1, h2, h3⟩ := ih (ht.setView hv i1 r1 s1 a1) (by rw [List.length_drop]; omega)
        (fun u hm => hu u (List.mem_of_mem_drop hm)) (fun i hi => hR i (by simp [hi])) he
      refine ⟨h1, ?_, fun i v v' hi hi' => ?_⟩
      · rw [h2]
        show (t.views.set j w').keys = _
        rw [Dict.keys_set, if_pos (Dict.mem_keys_of_get? hv)]
      · by_cases e : i = j
        · subst e
          rw [hv] at hi; cases hi
          exact htrans _ _ _ _ (hR i (by simp) t ht _ _ hv _ l1 u1 hk)
            (h3 i w' v' (Dict.get?_set_self _ _ _) hi')
        · exact h3 i v v' (by
            show (t.views.set j w').get? i = some v
            rw [Dict.get?_set, if_neg e]; exact hi) hi'

theorem viewsFor_visited {t : State C} {cols : Option (List Col)} {i : Nat}
    (h : i ∈ t.viewsFor cols) : ¬ unvisited t cols i := by
  rintro ⟨h1, h2⟩
  match cols with
  | none => exact h1 rfl
  | some [] => exact h1 rfl
  | some (c0 :: cs) =>
    obtain ⟨c, hc, hz⟩ := List.mem_filterMap.mp (List.mem_dedup.mp h)
    exact h2 c hc hz

theorem callKernel_untouched (hL : C.Lawful) (hCh : C.Chain) (hs : StateReachable cfg s)
    (hn : namesExist s cols rowids) {ks : List Kernel} {k : Kernel} (hk : k ∈ ks)
    (hm : k = .columns → ColumnsMove cfg s cols) {o : Orders} (ho : Orders.Lists s cols rowids o)
    {t t' : State C} (ht : OnModel s t) (hr : StateReachable cfg t) {us : List ℝ}
    (hl : us.length = s.kernelDraws cols rowids k) (hu : ∀ u ∈ us, 0 ≤ u ∧ u < 1)
    (he : t.callKernel cfg cols rowids o us k = .ok t') : Untouched ks cols rowids t t' := by
  have hI := hs.inv hL
  obtain ⟨W, hW⟩ := (C60_posterior hL hs).2.1
  obtain ⟨U, w, χ, hU, hpos, hχ, hw, hF⟩ := posterior_factor hL hI hW
  have hlen : (o.views (t.viewsFor cols)).length ≤ s.outputs.length := viewsFor_length hI ht ho.views
  have hvis : ∀ i ∈ o.views (t.viewsFor cols), ¬ unvisited t cols i := fun i hi =>
    viewsFor_visited ((ho.views _).mem_iff.mp hi)
  cases k with
  | alpha =>
    obtain ⟨u, rfl⟩ := List.length_eq_one_iff.mp hl
    have hc : 0 < t.outputs.length := by rw [colsOf_card ht.kin]; exact colsOf_pos hI
    obtain ⟨a, ha, e⟩ := Crp.transitionAlpha_ok hc t.crp ht.kin.inv.alpha (hu u (by simp))
    simp only [callKernel, State.transitionCrpAlpha, e, Out.map_ok] at he
    cases he
    have := Untouched.refl ks cols rowids t
    exact ⟨fun h => absurd hk h, fun c _ => rfl, this.views⟩
  | viewAlphas =>
    have hv := transitionCrpAlpha_viewKernel hI hw
    simp only [callKernel, ht.kin.nRows] at he
    obtain ⟨h1, h2, h3⟩ := visitViews_untouched hv ht
      (by rw [hl]; exact Nat.mul_le_mul_right 2 hlen) hu
      (R := fun i v v' => (unvisited t cols i → v'.crp.alpha = v.crp.alpha) ∧ v'.seat = v.seat)
      (fun _ _ => ⟨fun _ => rfl, rfl⟩)
      (fun i v v' v'' g g' => ⟨fun x => (g'.1 x).trans (g.1 x), g'.2.trans g.2⟩)
      (fun i hi t1 ht1 v v' hv us hl hu e => ⟨fun x => absurd x (hvis i hi), by
        obtain ⟨u, u', rfl⟩ := List.length_eq_two.mp hl
        have hpos := (concentrations_ok hI.pos).2.2
        obtain ⟨a, ha, e1⟩ := Crp.transitionAlpha_ok hI.pos v.crp
          (ht1.kin.inv.views.view i v hv).inv.alpha (hu u (by simp))
        obtain ⟨a', ha', e2⟩ := Crp.transitionAlpha_ok hI.pos { v.crp with alpha := a } (hpos a ha)
          (hu u' (by simp))
        simp only [View.transitionCrpAlpha, e1, Out.bind_ok, e2, Out.map_ok] at e
        cases e
        rfl⟩) he
    refine ⟨fun _ => by rw [h1], fun c _ => by unfold State.Zv; rw [h1], fun _ => ⟨h2, fun i v v' g g' => ?_⟩⟩
    exact ⟨fun x => (h3 i v v' g g').1 (x.resolve_left fun h => h hk),
      fun r _ => by rw [(h3 i v v' g g').2]⟩
  | columnParams =>
    cases he
    exact Untouched.refl ks cols rowids t
  | rows =>
    by_cases h1 : s.nRows = 1
    · simp only [callKernel, ht.kin.nRows, if_pos h1] at he
      cases he
      exact Untouched.refl ks cols rowids t
    have hR : ∀ B, (o.rows B).length = (rowids.getD (List.range s.nRows)).length ∧
        ∀ r ∈ o.rows B, r < s.nRows := fun B =>
      ⟨(ho.rows B).length_eq, fun r hr => rowids_lt hn ((ho.rows B).mem_iff.mp hr)⟩
    have hv := transitionRows_viewKernel hL hCh hI hw hR
    simp only [callKernel, ht.kin.nRows, if_neg h1, ht.kin.tbl] at he
    obtain ⟨h1, h2, h3⟩ := visitViews_untouched hv ht
      (by rw [hl]; exact Nat.mul_le_mul_right _ hlen) hu
      (R := fun i v v' => v'.crp.alpha = v.crp.alpha ∧
        ∀ r, unvisited t cols i ∨ r ∉ rowids.getD (List.range s.nRows) → v'.seat r = v.seat r)
      (fun _ _ => ⟨rfl, fun _ _ => rfl⟩)
      (fun i v v' v'' g g' => ⟨g'.1.trans g.1, fun r x => (g'.2 r x).trans (g.2 r x)⟩)
      (fun i hi t1 ht1 v v' hv us hl hu e => by
        have ho' := ht1.kin.inv.views.view i v hv
        have hk : Kin s.tbl v v := ⟨ht1.kin.tbl ▸ ho'.inv, fun _ => Iff.rfl, rfl, Same.refl v⟩
        have hrows : IsRows (rowsOf s) v := fun r => by
          rw [ho'.rows r, ht1.kin.nRows]; simp [rowsOf]
        obtain ⟨v'', e2, hk', hfr⟩ := transitionRows_okM hL hCh (rowClosed_kin hL s.tbl v) hrows hk
          ((o.rows v.dims.keys.toFinset).zip us) (fun d hd => ⟨by
            have := (hR v.dims.keys.toFinset).2 d.1 (List.of_mem_zip hd).1
            simpa [rowsOf] using this, hu d.2 (List.of_mem_zip hd).2⟩)
        change v.transitionRows s.tbl ((o.rows v.dims.keys.toFinset).zip us) = .ok v' at e
        rw [e2] at e
        cases e
        refine ⟨hk'.alpha, fun r x => hfr r fun d hd e => ?_⟩
        have hm := (ho.rows v.dims.keys.toFinset).mem_iff.mp (List.of_mem_zip hd).1
        rw [e] at hm
        exact (x.resolve_left (hvis i hi)) hm) he
    refine ⟨fun _ => by rw [h1], fun c _ => by unfold State.Zv; rw [h1], fun _ => ⟨h2, fun i v v' g g' => ?_⟩⟩
    refine ⟨fun _ => (h3 i v v' g g').1, fun r x => (h3 i v v' g g').2 r ?_⟩
    rw [ht.kin.nRows] at x
    exact x.resolve_left fun h => h hk
  | columns =>
    obtain ⟨m1, m2, m3⟩ := hm rfl
    have hoc : ∀ c ∈ o.cols, c ∈ s.outputs ∧ partnersExist s c := fun c hc => by
      have := (ho.cols).mem_iff.mp hc
      exact ⟨cols_mem hn this, m3 c this⟩
    have hN : s.kernelDraws cols rowids .columns = o.cols.length * s.dimDraws 1 := by
      rw [ho.cols.length_eq]; rfl
    rw [hN] at hl
    obtain ⟨t'', e, h2, -, h3, h4⟩ := (C60_invariant hL hs m1 m2 one_pos o.cols hoc).1 t
      (sameState_of ht hr) ht.grid us hl hu
    have he' : t.transitionDims cfg 1 o.cols us = .ok t' := he
    rw [e] at he'
    cases he'
    refine ⟨fun _ => h3, fun c hc => h4 c fun hm => ?_,
      fun h => absurd hk h⟩
    have := ho.cols.mem_iff.mp hm
    rw [← ht.kin.outputs] at this
    exact (hc.resolve_left fun h => h hk) this

theorem callKernels_untouched (hL : C.Lawful) (hCh : C.Chain) (hs : StateReachable cfg s)
    (hn : namesExist s cols rowids) {all : List Kernel} (ks : List (Kernel × Orders))
    (hk : ∀ k ∈ ks, k.1 ∈ all ∧ (k.1 = .columns → ColumnsMove cfg s cols) ∧
      Orders.Lists s cols rowids k.2)
    {t t' : State C} (ht : OnModel s t) (hr : StateReachable cfg t) {us : List ℝ}
    (hl : us.length = (ks.map fun k => s.kernelDraws cols rowids k.1).sum)
    (hu : ∀ u ∈ us, 0 ≤ u ∧ u < 1) (he : callKernels cfg cols rowids ks t us = .ok t') :
    Untouched all cols rowids t t' := by
  obtain ⟨W, hW⟩ := (C60_posterior hL hs).2.1
  induction ks generalizing t us with
  | nil => cases he; exact Untouched.refl all cols rowids _
  | cons k ks ih =>
    obtain ⟨k1, k2, k3⟩ := hk k (by simp)
    have h1 := callKernel_good hL hCh hs hn hW k2 k3
    rw [List.map_cons, List.sum_cons] at hl
    have l1 : (us.take (s.kernelDraws cols rowids k.1)).length = s.kernelDraws cols rowids k.1 := by
      rw [List.length_take]; omega
    have u1 : ∀ u ∈ us.take (s.kernelDraws cols rowids k.1), 0 ≤ u ∧ u < 1 := fun u hm =>
      hu u (List.mem_of_mem_take hm)
    obtain ⟨P, p1, -, -⟩ := h1.kernel
    obtain ⟨t1, e1, o1⟩ := p1 t ht _ l1 u1
    have r1 := h1.reach t t1 ht hr _ l1 u1 e1
    simp only [callKernels, kernelDraws_eq ht, e1, Out.bind_ok] at he
    refine (callKernel_untouched hL hCh hs hn k1 k2 k3 ht hr l1 u1 e1).trans
      (o1.kin.outputs.trans ht.kin.outputs.symm) (o1.kin.nRows.trans ht.kin.nRows.symm)
      (ih (fun k' hk' => hk k' (by simp [hk'])) o1 r1 (us := us.drop (s.kernelDraws cols rowids k.1))
        (by rw [List.length_drop]; omega) (fun u hm => hu u (List.mem_of_mem_drop hm)) he)

/-- Inference changes only what it is asked to: the concentration of the column partition only with
the kernel for it; only the columns named change views, and only with the kernel for columns; without
that kernel the views stay, and concentrations and rows change only in views of the columns named,
with the kernels for them, and only the rows named. -/
theorem C61_untouched (hL : C.Lawful) (hCh : C.Chain) (hs : StateReachable cfg s)
    (hn : namesExist s cols rowids) {kernels : List Kernel} (hne : kernels ≠ [])
    (hm : .columns ∈ kernels → ColumnsMove cfg s cols) (calls : ℕ) {orders : ℕ → Orders}
    (ho : ∀ i, Orders.Lists s cols rowids (orders i)) {t t' : State C} (ht : SameState cfg s t)
    (hg : (latentOf (colsOf s) (rowsOf s) t).OnGrid) {us : List ℝ}
    (hl : us.length = totalDraws s cols rowids kernels calls) (hu : ∀ u ∈ us, 0 ≤ u ∧ u < 1)
    (he : t.transition cfg calls kernels cols rowids orders us = .ok t') :
    Untouched kernels cols rowids t t' := by
  have ht' := sameState_onModel hL ht hg
  unfold transition at he
  rw [if_neg (by rw [not_not, ht'.kin.outputs]; exact hn.1), if_neg hne] at he
  refine callKernels_untouched hL hCh hs hn _ (fun k hk => ?_) ht' ht.reachable
    (hl.trans (totalDraws_eq s cols rowids kernels calls orders).symm) hu he
  obtain ⟨i, -, hi⟩ := List.mem_filterMap.mp hk
  obtain ⟨k', hk', rfl⟩ := Option.map_eq_some_iff.mp hi
  have := List.mem_of_getElem? hk'
  exact ⟨this, fun e => hm (by rw [← e]; exact this), ho i⟩

/-- Any orders of dictionaries, sets and permutations will do. -/
def plainOrders (s : State C) : Orders := ⟨id, fun _ => List.range s.nRows, s.outputs⟩

theorem plainOrders_lists (s : State C) : Orders.Lists s none none (plainOrders s) :=
  ⟨fun _ => List.Perm.refl _, fun _ => List.Perm.refl _, List.Perm.refl _⟩

/-- The hypotheses can be met: on a State with three columns, two of them declared independent, all
kernels run from every latent structure, and the posterior is invariant, also when inference stops in
the middle of a sweep. -/
example : ∃ s : State colCat, StateReachable (libCfg _) s ∧ s.outputs = [0, 1, 2] ∧ s.nRows = 2 ∧
    s.Ci = [(0, 1)] ∧ (∃ L, L ∈ latents (colsOf s) (rowsOf s)) ∧
    ∃ (W : Latent (colsOf s) (rowsOf s) → ℝ) (V : Latent (colsOf s) (rowsOf s) → State colCat),
    IsJointPosterior (libCfg _) s W ∧
    (∀ L ∈ latents (colsOf s) (rowsOf s), latentOf (colsOf s) (rowsOf s) (V L) = L) ∧
    ∀ f : _ → ℝ, ∑ L ∈ latents (colsOf s) (rowsOf s), W L *
        average (totalDraws s none none [.alpha, .viewAlphas, .columnParams, .rows, .columns] 12)
          (fun us => f (latentOf (colsOf s) (rowsOf s) ((V L).transition (libCfg _) 12
            [.alpha, .viewAlphas, .columnParams, .rows, .columns] none none
            (fun _ => plainOrders s) us).state))
      = ∑ L ∈ latents (colsOf s) (rowsOf s), W L * f L := by
  classical
  have hL := catOf_lawful Prim.collapsed
  obtain ⟨s, h1, h2, h3, h4, h5, h6, h7, h8, -⟩ := sweepDemo
  obtain ⟨p1, ⟨W, hW⟩, p3⟩ := C60_posterior hL h1
  obtain ⟨L0, hL0, -⟩ := Finset.exists_ne_zero_of_sum_ne_zero (p3 W hW).2.ne'
  choose V hV using p1
  refine ⟨s, h1, h3, h4, h5, ⟨L0, hL0⟩, W,
    fun L => if h : L ∈ latents (colsOf s) (rowsOf s) then V L h else s, hW, fun L hLg => ?_,
    fun f => ?_⟩
  · simp only [dif_pos hLg]; exact (hV L hLg).2
  · refine C61_invariant (cols := none) (rowids := none) hL collapsedCat_chain h1
      ⟨by simp, by simp⟩ (by simp)
      (fun _ => ⟨h7, h6, h8⟩) 12 (fun _ => plainOrders_lists s) hW _ (fun L hLg => ?_) f
    simp only [dif_pos hLg]
    exact hV L hLg

/-- The hypotheses of the frame can be met: inference over the rows and concentrations of column 0,
limited to row 1, runs on this State; view 1 is not visited. -/
example : ∃ (s t t' : State colCat), SameState (libCfg _) s t ∧
    t.transition (libCfg _) 5 [.alpha, .viewAlphas, .rows] (some [0]) (some [1])
      (fun _ => ⟨id, fun _ => [1], [0]⟩)
      (List.replicate (totalDraws s (some [0]) (some [1]) [.alpha, .viewAlphas, .rows] 5) (1 / 2))
      = .ok t' ∧ Untouched [.alpha, .viewAlphas, .rows] (some [0]) (some [1]) t t' ∧
    ∃ i, unvisited t (some [0]) i := by
  classical
  have hL := catOf_lawful Prim.collapsed
  obtain ⟨s, h1, h2, h3, h4, h5, h6, h7, h8, -⟩ := sweepDemo
  obtain ⟨p1, ⟨W, hW⟩, p3⟩ := C60_posterior hL h1
  obtain ⟨L0, hL0, hne⟩ := Finset.exists_ne_zero_of_sum_ne_zero (p3 W hW).2.ne'
  obtain ⟨t, ht, hl⟩ := p1 L0 hL0
  have hn : namesExist s (some [0]) (some [1]) := by
    refine ⟨?_, ?_⟩
    · intro c hc; rw [h3]; simp at hc ⊢; exact Or.inl hc
    · intro r hr; rw [h4]; simp at hr; subst hr; decide
  have hg : (latentOf (colsOf s) (rowsOf s) t).OnGrid := by
    rw [hl]; exact Latent.mem_latents.mp hL0
  have ho : ∀ i : ℕ, Orders.Lists s (some [0]) (some [1])
      ((fun _ => ⟨id, fun _ => [1], [0]⟩ : ℕ → Orders) i) := fun _ =>
    ⟨fun _ => List.Perm.refl _, fun _ => List.Perm.refl _, List.Perm.refl _⟩
  have hu : ∀ u ∈ List.replicate (totalDraws s (some [0]) (some [1]) [.alpha, .viewAlphas, .rows] 5)
      (1 / 2 : ℝ), 0 ≤ u ∧ u < 1 := fun u hu => by rw [List.eq_of_mem_replicate hu]; norm_num
  obtain ⟨t', e, -, -⟩ := C61_transition hL collapsedCat_chain h1 hn
    (kernels := [.alpha, .viewAlphas, .rows]) (by simp) (by simp) 5 ho ht hg
    (by simp) hu
  refine ⟨s, t, t', ht, e, C61_untouched hL collapsedCat_chain h1 hn (by simp) (by simp) 5 ho ht hg
    (by simp) hu e, ?_⟩
  -- columns 0 and 1 are in different views, since the weight is positive
  have hpos := ((p3 W hW).1 L0 hL0).2.mp (lt_of_le_of_ne ((p3 W hW).1 L0 hL0).1 hne.symm)
  have hk := SameState.kin hL ht
  have m0 : (0 : Col) ∈ colsOf s := by rw [mem_colsOf, h3]; simp
  have m1 : (1 : Col) ∈ colsOf s := by rw [mem_colsOf, h3]; simp
  have hap := hpos ⟨0, m0⟩ ⟨1, m1⟩ (by rw [h5]; simp) (by simp)
  obtain ⟨i, -, -, hz, -⟩ := hk.inv.dim (c := 1) (by rw [hk.outputs, h3]; simp)
  refine ⟨i, by simp, fun c hc he => hap ?_⟩
  simp at hc
  subst hc
  rw [← hl]
  show t.Zv 0 = t.Zv 1
  rw [he, hz]

end Cgpm.Props
