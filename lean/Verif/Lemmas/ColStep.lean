import Verif.Lemmas.ColExists
import Verif.Lemmas.Composite
import Verif.Lemmas.StateConstraints

/-! Column transitions among the States of one model, and the chain they make on the latent
structures. -/
namespace Cgpm.State
open Cgpm.View Cgpm.Spec Cgpm.Props
open Cgpm.Spec.Hyper
variable {C : Cat}

/-- The States of the model of `s` whose views are sorted and whose concentrations are on the
grids. -/
structure OnModel (s t : State C) : Prop where
  kin : KinS s t
  sorted : t.Sorted
  grid : (latentOf (colsOf s) (rowsOf s) t).OnGrid

theorem mem_colsOf {s : State C} {c : Col} : c ∈ colsOf s ↔ c ∈ s.outputs := by simp [colsOf]

theorem KinS.steady {s t : State C} (hs : Inv s) (h : KinS s t) : Steady s t := by
  refine ⟨fun c d' hd' => ?_, fun c => ?_⟩
  · have hc : c ∈ s.outputs := by rw [← h.outputs]; exact (dimFor_of_mem h.inv).mp ⟨d', hd'⟩
    obtain ⟨d, hd⟩ := (dimFor_of_mem hs).mpr hc
    have := h.columns c d d' hd hd'
    exact ⟨d, hd, this.kind, this.inputs⟩
  · rw [← not_iff_not, ← ne_eq, ← ne_eq, h.inv.cols, hs.cols, h.outputs]

theorem OnModel.gibbsDim_ok (hL : C.Lawful) {cfg : Cfg C} {s t : State C} (hs : Inv s)
    (h : OnModel s t) {col : Col} (hcol : col ∈ s.outputs) (hc : s.anyConditional cfg = false)
    (hCd : s.Cd = []) (hCi : partnersExist s col) {m : Nat} (hm : 0 < m) {us : List ℝ}
    (hl : us.length = t.dimDraws m) (hu : ∀ u ∈ us, 0 ≤ u ∧ u < 1) :
    ∃ t' d cur new va, t.gibbsDim cfg col m us = .ok t' ∧ OnModel s t' ∧ t.dimFor col = .ok d ∧
      t.Zv col = some cur ∧ Moved t col d cur new va t' ∧
      (∀ a ∈ avoid s.Ci col, t.Zv a ≠ some new) ∧ ∃ aux u, goodDraws aux u ∧
        t.gibbsTransitionDim cfg col m aux u = .ok t' := by
  have hI := h.kin.inv
  obtain ⟨d, hd⟩ := (dimFor_of_mem hI).mpr (h.kin.outputs ▸ hcol)
  have hc' : t.anyConditional cfg = false := by
    rw [(h.kin.steady hs).anyConditional hs hI]; exact hc
  have hCd' : t.Cd = [] := h.kin.Cd.trans hCd
  have hCi' : ∀ a ∈ avoid t.Ci col, a ∈ t.outputs := fun a ha => by
    rw [h.kin.Ci] at ha; rw [h.kin.outputs]; exact partners_of hCi a ha
  unfold dimDraws at hl
  obtain ⟨l, hl1, hl2, hl3⟩ := auxViews_ok hI.pos m (us := us.take (m * (t.nRows + 1)))
    (by rw [List.length_take]; omega) (fun u hm => hu u (List.mem_of_mem_take hm))
  obtain ⟨u, us', hus⟩ : ∃ u us', us.drop (m * (t.nRows + 1)) = u :: us' := by
    cases hdr : us.drop (m * (t.nRows + 1)) with
    | nil =>
      have := congrArg List.length hdr
      rw [List.length_drop] at this
      simp at this; omega
    | cons u us' => exact ⟨u, us', rfl⟩
  have hu' := hu u (List.mem_of_mem_drop (i := m * (t.nRows + 1)) (by rw [hus]; simp))
  have haux := getD_pos hI.pos hl3
  obtain ⟨t', cur, new, va, g1, g2, g3, g4, g5, g6⟩ := hI.gibbsTransitionDim_ok (cfg := cfg) hd hc'
    hCd' hm haux hCi' hu'.1 hu'.2 (Or.inr h.sorted)
  have hkin := h.kin.moved hs hd g4 g2
  -- the concentration of the view
  obtain ⟨tables, dims, auxVs, w, s1, const, cur2, e1, e2, e3, e4, e5⟩ :=
    hI.gibbsDimScore_full (cfg := cfg) hL hd hm haux hCi' h.sorted
  have hgt := g1
  unfold gibbsTransitionDim at hgt
  rw [hc', if_neg (by simp), if_neg (by simp [hCd']), e1] at hgt
  simp only [e3, ne_eq, not_true_eq_false, if_false] at hgt
  rw [g3] at e4
  obtain rfl := Option.some.inj e4
  have hcols : ∀ c, c ∈ colsOf s ↔ c ∈ t.outputs := fun c => by rw [mem_colsOf, h.kin.outputs]
  have hcol' : col ∈ colsOf s := mem_colsOf.mpr hcol
  have hgrid : (latentOf (colsOf s) (rowsOf s) t').OnGrid := by
    split at hgt
    · cases hgt
    · rename_i draw hdraw
      obtain ⟨new2, hnew2⟩ : ∃ x, tables[draw]? = some x := by
        unfold gibbsDimMove at hgt
        cases hx : tables[draw]? with
        | none => rw [hx] at hgt; cases hgt
        | some x => exact ⟨x, rfl⟩
      obtain ⟨s2, va2, f1, f2, f3, f4, -⟩ := e5 draw new2 hnew2
      rw [f1] at hgt
      cases hgt
      obtain ⟨k1, k2, k3, k4⟩ := f3.latent hI g3 hcols hcol' s.nRows
      refine k1.onGrid h.grid ?_
      rw [Finset.card_range]
      rcases f4 with f4 | ⟨j, j1, j2, -, -, j3, -⟩
      · obtain ⟨v, hv⟩ := Dict.exists_of_mem_keys f4
        rw [k4 v hv]
        exact views_onGrid hI hcols h.grid new2 v hv
      · rw [k3 (by omega)]
        have hjl : j < l.length := by
          have : t.mAux col m ≤ m := by unfold mAux; split <;> omega
          omega
        rw [List.getElem?_eq_getElem hjl] at j3
        show va2.crp.alpha ∈ _
        rw [j3]
        have := hl3 _ (List.getElem_mem hjl)
        rw [h.kin.nRows] at this
        exact this
  refine ⟨t', d, cur, new, va, ?_, ⟨hkin, g4.sorted h.sorted g5, hgrid⟩, hd, g3, g4,
    fun a ha => g6 h.sorted a (by rw [h.kin.Ci]; exact ha), _, u, ⟨haux, hu'⟩, g1⟩
  unfold gibbsDim
  rw [hl1, hus]
  exact g1

/-! ### Kernels -/

/-- With `N` uniform draws, `K` takes States of the model of `s` to States of the model, `P f L` is
the expected value of `f` at the new latent structure if the old one is `L`, and `W` is invariant. -/
structure IsChain (s : State C) (W : Latent (colsOf s) (rowsOf s) → ℝ) (N : ℕ)
    (K : State C → List ℝ → Out (State C))
    (P : (Latent (colsOf s) (rowsOf s) → ℝ) → Latent (colsOf s) (rowsOf s) → ℝ) : Prop where
  ok : ∀ t, OnModel s t → ∀ us : List ℝ, us.length = N → (∀ u ∈ us, 0 ≤ u ∧ u < 1) →
    ∃ t', K t us = .ok t' ∧ OnModel s t'
  law : ∀ t, OnModel s t → ∀ f, average N (fun us =>
    f (latentOf (colsOf s) (rowsOf s) (K t us).state)) = P f (latentOf (colsOf s) (rowsOf s) t)
  inv : ∀ f, ∑ L ∈ latents (colsOf s) (rowsOf s), W L * P f L
    = ∑ L ∈ latents (colsOf s) (rowsOf s), W L * f L
  lin : ∀ f g a b L, P (fun x => a * f x + b * g x) L = a * P f L + b * P g L

/-- With `N` uniform draws, `K` takes States of the model of `s` to States of the model, the
distribution of the new latent structure depends on the old one only, and `W` is invariant. -/
def IsKernel (s : State C) (W : Latent (colsOf s) (rowsOf s) → ℝ) (N : ℕ)
    (K : State C → List ℝ → Out (State C)) : Prop := ∃ P, IsChain s W N K P

theorem isKernel_id (s : State C) (W : Latent (colsOf s) (rowsOf s) → ℝ) :
    IsKernel s W 0 (fun t _ => .ok t) :=
  ⟨fun f => f, fun t ht us _ _ => ⟨t, rfl, ht⟩, fun t _ f => rfl, fun f => rfl,
    fun _ _ _ _ _ => rfl⟩

theorem IsChain.comp {s : State C} {W : Latent (colsOf s) (rowsOf s) → ℝ} {a b : ℕ}
    {K K' : State C → List ℝ → Out (State C)}
    {P Q : (Latent (colsOf s) (rowsOf s) → ℝ) → Latent (colsOf s) (rowsOf s) → ℝ}
    (h : IsChain s W a K P) (h' : IsChain s W b K' Q) :
    IsChain s W (a + b) (fun t us => (K t (us.take a)).bind fun t' => K' t' (us.drop a))
      (fun f => P (Q f)) := by
  obtain ⟨p1, p2, p3, p4⟩ := h
  obtain ⟨q1, q2, q3, q4⟩ := h'
  refine ⟨fun t ht us hl hu => ?_, fun t ht f => ?_, fun f => ?_, fun f g a b L => ?_⟩
  · obtain ⟨t1, e1, h1⟩ := p1 t ht (us.take a) (by rw [List.length_take]; omega)
      (fun u hm => hu u (List.mem_of_mem_take hm))
    obtain ⟨t2, e2, h2⟩ := q1 t1 h1 (us.drop a) (by rw [List.length_drop]; omega)
      (fun u hm => hu u (List.mem_of_mem_drop hm))
    exact ⟨t2, by simp only [e1, Out.bind_ok, e2], h2⟩
  · show _ = P (Q f) _
    rw [average_append, ← p2 t ht (Q f)]
    refine average_congr fun us hl hu => ?_
    obtain ⟨t1, e1, h1⟩ := p1 t ht us hl hu
    rw [e1, Out.state_ok, ← q2 t1 h1 f]
    refine average_congr fun vs hl' hu' => ?_
    simp only [List.take_left' hl, List.drop_left' hl, e1, Out.bind_ok]
  · rw [p3, q3]
  · rw [← p4]
    exact congrArg (fun F => P F L) (funext fun x => q4 f g a b x)

theorem IsChain.congr {s : State C} {W : Latent (colsOf s) (rowsOf s) → ℝ} {N : ℕ}
    {K K' : State C → List ℝ → Out (State C)}
    {P : (Latent (colsOf s) (rowsOf s) → ℝ) → Latent (colsOf s) (rowsOf s) → ℝ}
    (h : IsChain s W N K P) (he : ∀ t, OnModel s t → ∀ us, K' t us = K t us) :
    IsChain s W N K' P := by
  obtain ⟨p1, p2, p3, p4⟩ := h
  refine ⟨fun t ht us hl hu => ?_, fun t ht f => ?_, p3, p4⟩
  · rw [he t ht]; exact p1 t ht us hl hu
  · simp only [he t ht]; exact p2 t ht f

theorem IsKernel.comp {s : State C} {W : Latent (colsOf s) (rowsOf s) → ℝ} {a b : ℕ}
    {K K' : State C → List ℝ → Out (State C)} (h : IsKernel s W a K) (h' : IsKernel s W b K') :
    IsKernel s W (a + b) (fun t us => (K t (us.take a)).bind fun t' => K' t' (us.drop a)) :=
  let ⟨_, h⟩ := h; let ⟨_, h'⟩ := h'; ⟨_, h.comp h'⟩

theorem IsKernel.congr {s : State C} {W : Latent (colsOf s) (rowsOf s) → ℝ} {N : ℕ}
    {K K' : State C → List ℝ → Out (State C)} (h : IsKernel s W N K)
    (he : ∀ t, OnModel s t → ∀ us, K' t us = K t us) : IsKernel s W N K' :=
  let ⟨_, h⟩ := h; ⟨_, h.congr he⟩

theorem IsKernel.invariant {s : State C} {W : Latent (colsOf s) (rowsOf s) → ℝ} {N : ℕ}
    {K : State C → List ℝ → Out (State C)} (h : IsKernel s W N K)
    {V : Latent (colsOf s) (rowsOf s) → State C}
    (hV : ∀ L ∈ latents (colsOf s) (rowsOf s), OnModel s (V L))
    (hV' : ∀ L ∈ latents (colsOf s) (rowsOf s), latentOf (colsOf s) (rowsOf s) (V L) = L)
    (f : Latent (colsOf s) (rowsOf s) → ℝ) :
    ∑ L ∈ latents (colsOf s) (rowsOf s), W L * average N (fun us =>
        f (latentOf (colsOf s) (rowsOf s) (K (V L) us).state))
      = ∑ L ∈ latents (colsOf s) (rowsOf s), W L * f L := by
  obtain ⟨P, p1, p2, p3, -⟩ := h
  rw [← p3 f]
  refine Finset.sum_congr rfl fun L hLg => ?_
  rw [p2 (V L) (hV L hLg) f, hV' L hLg]

/-! ### The weights of the latent structures -/

/-- The columns declared independent are apart. -/
def Apart {cols : Finset Col} {rows : Finset Row} (Ci : Pairs) (L : Latent cols rows) : Prop :=
  ∀ a b : {c // c ∈ cols}, (a.1, b.1) ∈ Ci → a ≠ b → ¬ L.part.r a b

/-- Column `c` is apart from the columns declared independent of it. -/
def ApartAt {cols : Finset Col} {rows : Finset Row} (Ci : Pairs) (c : {c // c ∈ cols})
    (L : Latent cols rows) : Prop :=
  ∀ a : {c // c ∈ cols}, a.1 ∈ avoid Ci c.1 → ¬ L.part.r a c

/-- The columns declared independent, other than `c`, are apart. -/
def ApartOff {cols : Finset Col} {rows : Finset Row} (Ci : Pairs) (c : {c // c ∈ cols})
    (L : Latent cols rows) : Prop :=
  ∀ a b : {c // c ∈ cols}, (a.1, b.1) ∈ Ci → a ≠ b → a ≠ c → b ≠ c → ¬ L.part.r a b

theorem apart_iff {cols : Finset Col} {rows : Finset Row} {Ci : Pairs} {c : {c // c ∈ cols}}
    {L : Latent cols rows} : Apart Ci L ↔ ApartAt Ci c L ∧ ApartOff Ci c L := by
  constructor
  · intro h
    refine ⟨fun a ha hr => ?_, fun a b hab hne _ _ => h a b hab hne⟩
    obtain ⟨h1, h2⟩ := mem_avoid.mp ha
    have hne : a ≠ c := fun e => h1 (congrArg Subtype.val e)
    rcases h2 with h2 | h2
    · exact h a c h2 hne hr
    · exact h c a h2 hne.symm (L.part.symm hr)
  · rintro ⟨h1, h2⟩ a b hab hne hr
    by_cases ha : a = c
    · subst ha
      exact h1 b (mem_avoid.mpr ⟨fun e => hne (Subtype.ext e.symm), Or.inr hab⟩) (L.part.symm hr)
    · by_cases hb : b = c
      · subst hb
        exact h1 a (mem_avoid.mpr ⟨fun e => hne (Subtype.ext e), Or.inl hab⟩) hr
      · exact h2 a b hab hne ha hb hr

theorem apartAt_alone {cols : Finset Col} {rows : Finset Row} {Ci : Pairs} {c : {c // c ∈ cols}}
    {L : Latent cols rows} (h : L.Alone c) : ApartAt Ci c L := fun a ha hr =>
  (mem_avoid.mp ha).1 (congrArg Subtype.val (h a hr))

theorem apartOff_congr {cols : Finset Col} {rows : Finset Row} {Ci : Pairs} {c : {c // c ∈ cols}}
    {L L' : Latent cols rows} (h : L.Off c L') : ApartOff Ci c L ↔ ApartOff Ci c L' := by
  unfold ApartOff
  refine forall_congr' fun a => forall_congr' fun b => forall_congr' fun _ => forall_congr' fun _ =>
    forall_congr' fun ha => forall_congr' fun hb => ?_
  rw [h.part a b ha hb]

theorem separated_iff {s t : State C} (h : KinS s t) :
    Separated t ↔ Apart s.Ci (latentOf (colsOf s) (rowsOf s) t) := by
  have hcol : ∀ {c v}, t.Zv c = some v → c ∈ colsOf s := fun {c v} hz => by
    rw [mem_colsOf, ← h.outputs, ← h.inv.cols, hz]; simp
  constructor
  · intro hs a b hab hne hr
    have hr' : t.Zv a.1 = t.Zv b.1 := hr
    obtain ⟨v, hv⟩ := Option.ne_none_iff_exists'.mp ((h.inv.cols a.1).mpr
      (h.outputs ▸ mem_colsOf.mp a.2))
    exact hs a.1 b.1 (h.Ci ▸ hab) (fun e => hne (Subtype.ext e)) v hv (hr' ▸ hv)
  · intro hs a b hab hne v ha hb
    refine hs ⟨a, hcol ha⟩ ⟨b, hcol hb⟩ (h.Ci ▸ hab) (fun e => hne (congrArg Subtype.val e)) ?_
    show t.Zv a = t.Zv b
    rw [ha, hb]

open Classical in
theorem posteriorWeight_eq (t : State C) :
    posteriorWeight t = if Separated t then freeWeight t else 0 := by
  unfold posteriorWeight freeWeight
  split <;> rfl

theorem freeWeight_pos {s t : State C} (h : OnModel s t) : 0 < freeWeight t := by
  have hcols : ∀ c, c ∈ colsOf s ↔ c ∈ t.outputs := fun c => by rw [mem_colsOf, h.kin.outputs]
  have h1 : colsOf t = colsOf s := by unfold colsOf; rw [h.kin.outputs]
  have h2 : rowsOf t = rowsOf s := by unfold rowsOf; rw [h.kin.nRows]
  unfold freeWeight
  refine mul_pos (mul_pos ?_ ?_) (Real.exp_pos _)
  · rw [h1]; exact concentrationPrior_pos h.grid.1
  · refine List.prod_pos fun x hx => ?_
    obtain ⟨v, hv, rfl⟩ := List.mem_map.mp hx
    obtain ⟨p, hp, rfl⟩ := List.mem_map.mp hv
    have := views_onGrid h.kin.inv hcols h.grid p.1 p.2 (Dict.get?_of_mem h.kin.inv.views.wf hp)
    rw [h2]
    unfold rowsOf
    rw [Finset.card_range]
    exact concentrationPrior_pos this

theorem SameState.kin {cfg : Cfg C} {s t : State C} (hL : C.Lawful) (h : SameState cfg s t) :
    KinS s t :=
  ⟨h.reachable.inv hL, h.data, h.outputs, h.dependent, h.independent, fun c d d' h1 h2 =>
    ⟨(h.columns c d d' h1 h2).1, (h.columns c d d' h1 h2).2.1, (h.columns c d d' h1 h2).2.2.1,
      (h.columns c d d' h1 h2).2.2.2⟩⟩

/-- Every latent structure on the grids is that of a State. -/
theorem Inv.realise (cfg : Cfg C) {s : State C} (h : Inv s) {L : Latent (colsOf s) (rowsOf s)}
    (hLg : L ∈ latents (colsOf s) (rowsOf s)) :
    ∃ t, SameState cfg s t ∧ latentOf (colsOf s) (rowsOf s) t = L := by
  have hg := Latent.mem_latents.mp hLg
  refine h.exists_latent cfg L ?_ fun c => ?_
  · refine (concentrations_ok ?_).2.2 _ hg.1
    obtain ⟨c0, hc0⟩ := List.exists_mem_of_ne_nil _ h.data.ne
    exact Finset.card_pos.mpr ⟨c0, mem_colsOf.mpr hc0⟩
  · refine (concentrations_ok ?_).2.2 _ (hg.2 c)
    unfold rowsOf
    rw [Finset.card_range]; exact h.pos

/-- The weights of the latent structures, without constraints. -/
theorem Inv.exists_weight (hL : C.Lawful) (cfg : Cfg C) {s : State C} (h : Inv s) :
    ∃ U : Latent (colsOf s) (rowsOf s) → ℝ, (∀ t, KinS s t →
      (latentOf (colsOf s) (rowsOf s) t).OnGrid →
      U (latentOf (colsOf s) (rowsOf s) t) = freeWeight t) ∧
      ∀ L ∈ latents (colsOf s) (rowsOf s), 0 < U L := by
  classical
  have hreal := fun L hLg => h.realise cfg (L := L) hLg
  choose V hV1 hV2 using hreal
  have hU : ∀ t, KinS s t → (latentOf (colsOf s) (rowsOf s) t).OnGrid → (if hLg : latentOf (colsOf s) (rowsOf s) t ∈
      latents (colsOf s) (rowsOf s) then freeWeight (V _ hLg) else 0) = freeWeight t := fun t ht hg => by
    have hm := Latent.mem_latents.mpr hg
    rw [dif_pos hm]
    exact (KinS.weight hL h (SameState.kin hL (hV1 _ hm)) ht (fun c => mem_colsOf) rfl
      (hV2 _ hm)).1
  refine ⟨fun L => if hLg : L ∈ latents (colsOf s) (rowsOf s) then freeWeight (V L hLg) else 0,
    hU, fun L hLg => ?_⟩
  have ho : OnModel s (V L hLg) := ⟨SameState.kin hL (hV1 L hLg), (hV1 L hLg).sorted, by
    rw [hV2]; exact Latent.mem_latents.mp hLg⟩
  simp only [dif_pos hLg]
  exact freeWeight_pos ho

open Classical in
/-- The weights that the posterior gives. -/
theorem Inv.posterior_weight (hL : C.Lawful) {cfg : Cfg C} {s : State C} (h : Inv s)
    {U : Latent (colsOf s) (rowsOf s) → ℝ} (hU : ∀ t, KinS s t →
      (latentOf (colsOf s) (rowsOf s) t).OnGrid →
      U (latentOf (colsOf s) (rowsOf s) t) = freeWeight t)
    {W : Latent (colsOf s) (rowsOf s) → ℝ} (hW : IsJointPosterior cfg s W) :
    ∀ L ∈ latents (colsOf s) (rowsOf s), W L = if Apart s.Ci L then U L else 0 := fun L hLg => by
  obtain ⟨t, ht1, rfl⟩ := h.realise cfg hLg
  have hk := SameState.kin hL ht1
  have ho : OnModel s t := ⟨hk, ht1.sorted, Latent.mem_latents.mp hLg⟩
  rw [hW t ht1, posteriorWeight_eq, hU t hk ho.grid]
  simp only [separated_iff hk]

open Classical in
/-- The weights with which column `c` is drawn: those of the structures where it is apart from the
columns declared independent of it. -/
noncomputable def apartWeight {cols : Finset Col} {rows : Finset Row} (Ci : Pairs)
    (U : Latent cols rows → ℝ) (c : {c // c ∈ cols}) (L : Latent cols rows) : ℝ :=
  if ApartAt Ci c L then U L else 0

open Classical in
theorem gibbsDim_chain (hL : C.Lawful) {cfg : Cfg C} {s : State C} (hs : Inv s)
    {U : Latent (colsOf s) (rowsOf s) → ℝ} (hU : ∀ t, KinS s t →
      (latentOf (colsOf s) (rowsOf s) t).OnGrid →
      U (latentOf (colsOf s) (rowsOf s) t) = freeWeight t)
    (hpos : ∀ L ∈ latents (colsOf s) (rowsOf s), 0 < U L)
    {W : Latent (colsOf s) (rowsOf s) → ℝ}
    (hW : ∀ L ∈ latents (colsOf s) (rowsOf s), W L = if Apart s.Ci L then U L else 0)
    {col : Col} (hcol : col ∈ s.outputs) (hc : s.anyConditional cfg = false)
    (hCd : s.Cd = []) (hCi : partnersExist s col) (k : Nat) :
    IsChain s W (s.dimDraws (k + 1)) (fun t us => t.gibbsDim cfg col (k + 1) us)
      (colRedraw (apartWeight s.Ci U ⟨col, mem_colsOf.mpr hcol⟩) ⟨col, mem_colsOf.mpr hcol⟩ k) := by
  have hcol' : col ∈ colsOf s := mem_colsOf.mpr hcol
  have hm : 0 < k + 1 := Nat.succ_pos k
  have hdr : ∀ t, OnModel s t → t.dimDraws (k + 1) = s.dimDraws (k + 1) := fun t ht => by
    unfold dimDraws; rw [ht.kin.nRows]
  set Wc : Latent (colsOf s) (rowsOf s) → ℝ := apartWeight s.Ci U ⟨col, hcol'⟩ with hWc
  set χ : Latent (colsOf s) (rowsOf s) → ℝ := fun L =>
    if ApartOff s.Ci ⟨col, hcol'⟩ L then 1 else 0 with hχ
  have hW1 : ∀ L, ApartAt s.Ci ⟨col, hcol'⟩ L → Wc L = U L := fun L h => if_pos h
  have hW0 : ∀ L, ¬ ApartAt s.Ci ⟨col, hcol'⟩ L → Wc L = 0 := fun L h => if_neg h
  have hχc : ∀ L L', L.Off ⟨col, hcol'⟩ L' → χ L = χ L' := fun L L' ho => by
    simp only [hχ, apartOff_congr ho]
  have hmul : ∀ L ∈ latents (colsOf s) (rowsOf s), W L = χ L * Wc L := fun L hLg => by
    rw [hW L hLg]
    have hiff := apart_iff (Ci := s.Ci) (c := ⟨col, hcol'⟩) (L := L)
    simp only [hWc, hχ, apartWeight]
    by_cases h1 : ApartAt s.Ci ⟨col, hcol'⟩ L
    · by_cases h2 : ApartOff s.Ci ⟨col, hcol'⟩ L
      · rw [if_pos (hiff.mpr ⟨h1, h2⟩), if_pos h1, if_pos h2, one_mul]
      · rw [if_neg (fun h => h2 (hiff.mp h).2), if_neg h2, zero_mul]
    · rw [if_neg (fun h => h1 (hiff.mp h).1), if_neg h1, mul_zero]
  refine ⟨fun t ht us hl hu => ?_, fun t ht f => ?_, fun f => ?_,
    fun f g a b L => colRedraw_lin Wc _ k f g a b L⟩
  · obtain ⟨t', d, cur, new, va, e, h', -⟩ := ht.gibbsDim_ok hL hs hcol hc hCd hCi hm
      (hl.trans (hdr t ht).symm) hu
    exact ⟨t', e, h'⟩
  · rw [← hdr t ht]
    have hI := ht.kin.inv
    obtain ⟨d, hd⟩ := (dimFor_of_mem hI).mpr (ht.kin.outputs ▸ hcol)
    have hCi' : ∀ a ∈ avoid t.Ci col, a ∈ s.outputs := fun a ha => by
      rw [ht.kin.Ci] at ha; exact partners_of hCi a ha
    refine hI.gibbsDim_law hL ht.sorted hd ?_ (ht.kin.Cd.trans hCd) k
      (fun a ha => ht.kin.outputs ▸ hCi' a ha) ht.kin.nRows
      (fun c => by rw [mem_colsOf, ht.kin.outputs]) hcol' ht.grid
      (fun cur new va s' hmv hi' hg' => ?_) f
    · rw [(ht.kin.steady hs).anyConditional hs hI]; exact hc
    · have hk' := ht.kin.moved hs hd hmv hi'
      have hcl : Clash t.Ci col s' ↔ ¬ ApartAt s.Ci ⟨col, hcol'⟩
          (latentOf (colsOf s) (Finset.range s.nRows) s') := by
        unfold Clash ApartAt
        push Not
        constructor
        · rintro ⟨a, ha, hz⟩
          exact ⟨⟨a, mem_colsOf.mpr (hCi' a ha)⟩, ht.kin.Ci ▸ ha, hz⟩
        · rintro ⟨a, ha, hz⟩
          exact ⟨a.1, ht.kin.Ci ▸ ha, hz⟩
      refine ⟨fun h1 => ?_, fun h1 => ?_⟩
      · exact hW0 _ (hcl.mp h1)
      · rw [hcl, not_not] at h1
        exact (hW1 _ h1).trans (hU s' hk' hg')
  · rw [Finset.sum_congr rfl fun L hLg => by rw [hmul L hLg]]
    conv_rhs => rw [Finset.sum_congr rfl fun L hLg => by rw [hmul L hLg]]
    refine colRedraw_invariant hs.pos (fun L hLg => ?_) (fun L hLg ha => ?_)
      (fun L _ L' _ ho => ?_) k f
    · by_cases h1 : ApartAt s.Ci ⟨col, hcol'⟩ L
      · exact (hpos L hLg).le.trans_eq (hW1 L h1).symm
      · exact (hW0 L h1).ge
    · exact (hpos L hLg).trans_eq (hW1 L (apartAt_alone ha)).symm
    · exact hχc L L' ho

theorem gibbsDim_kernel (hL : C.Lawful) {cfg : Cfg C} {s : State C} (hs : Inv s)
    {U : Latent (colsOf s) (rowsOf s) → ℝ} (hU : ∀ t, KinS s t →
      (latentOf (colsOf s) (rowsOf s) t).OnGrid →
      U (latentOf (colsOf s) (rowsOf s) t) = freeWeight t)
    (hpos : ∀ L ∈ latents (colsOf s) (rowsOf s), 0 < U L)
    {W : Latent (colsOf s) (rowsOf s) → ℝ} (hW : ∀ L ∈ latents (colsOf s) (rowsOf s),
      open Classical in W L = if Apart s.Ci L then U L else 0)
    {col : Col} (hcol : col ∈ s.outputs) (hc : s.anyConditional cfg = false)
    (hCd : s.Cd = []) (hCi : partnersExist s col) {m : Nat} (hm : 0 < m) :
    IsKernel s W (s.dimDraws m) (fun t us => t.gibbsDim cfg col m us) := by
  obtain ⟨k, rfl⟩ : ∃ k, m = k + 1 := ⟨m - 1, by omega⟩
  exact ⟨_, gibbsDim_chain hL hs hU hpos hW hcol hc hCd hCi k⟩

end Cgpm.State
