import Verif.Spec.StateQuery
import Verif.Lemmas.Ancestors
import Verif.Lemmas.StateRun
import Verif.Lemmas.ViewFast

/-! Structure queries: matrices, sets of views, the network of a State. -/
namespace Cgpm
namespace State
variable {C : Cat} {Ω : Type}

/-! ### Pairs and matrices -/

theorem mem_pairsOf {α : Type} {l : List α} {a b : α} (h : (a, b) ∈ pairsOf l) :
    a ∈ l ∧ b ∈ l := by
  induction l with
  | nil => cases h
  | cons x t ih =>
    rw [pairsOf, List.mem_append] at h
    rcases h with h | h
    · obtain ⟨y, hy, e⟩ := List.mem_map.mp h
      cases e; exact ⟨by simp, by simp [hy]⟩
    · exact ⟨by simp [(ih h).1], by simp [(ih h).2]⟩

theorem pairsOf_total {α : Type} {l : List α} {a b : α} (ha : a ∈ l) (hb : b ∈ l) (hne : a ≠ b) :
    (a, b) ∈ pairsOf l ∨ (b, a) ∈ pairsOf l := by
  induction l with
  | nil => cases ha
  | cons x t ih =>
    simp only [pairsOf, List.mem_append, List.mem_map]
    rcases List.mem_cons.mp ha with rfl | ha'
    · rcases List.mem_cons.mp hb with rfl | hb'
      · exact absurd rfl hne
      · exact .inl (.inl ⟨b, hb', rfl⟩)
    · rcases List.mem_cons.mp hb with rfl | hb'
      · exact .inr (.inl ⟨a, ha', rfl⟩)
      · rcases ih ha' hb' with h | h
        · exact .inl (.inr h)
        · exact .inr (.inr h)

theorem _root_.List.Nodup.getElem?_inj_of {α : Type} {l : List α} (h : l.Nodup) {i j : Nat} {a : α}
    (hi : l[i]? = some a) (hj : l[j]? = some a) : i = j := by
  obtain ⟨h1, e1⟩ := List.getElem?_eq_some_iff.mp hi
  obtain ⟨h2, e2⟩ := List.getElem?_eq_some_iff.mp hj
  exact (h.getElem_inj_iff).mp (e1.trans e2.symm)

/-- The entries of the matrix: each was written for some pair, or not at all. -/
theorem fillPairs_ok {α : Type} {f : Nat → Nat → Except Exn α} {g : Nat → Nat → α}
    {ix : Nat → Nat} {L : List (Nat × Nat)} {D : Nat → Nat → α}
    (h : ∀ p ∈ L, f p.1 p.2 = .ok (g p.1 p.2)) :
    ∃ D', fillPairs f ix L D = .ok D' ∧ ∀ a b,
      (D' a b = D a b ∧ ∀ p ∈ L, ¬ (a = ix p.1 ∧ b = ix p.2 ∨ a = ix p.2 ∧ b = ix p.1)) ∨
      ∃ p ∈ L, (a = ix p.1 ∧ b = ix p.2 ∨ a = ix p.2 ∧ b = ix p.1) ∧ D' a b = g p.1 p.2 := by
  induction L generalizing D with
  | nil => exact ⟨D, rfl, fun a b => .inl ⟨rfl, by simp⟩⟩
  | cons p t ih =>
    obtain ⟨i, j⟩ := p
    obtain ⟨D', h1, h2⟩ := ih (D := setSym D (ix i) (ix j) (g i j)) fun p hp => h p (by simp [hp])
    have h0 := h (i, j) (by simp)
    refine ⟨D', by simp only [fillPairs, h0, h1], fun a b => ?_⟩
    rcases h2 a b with ⟨e, hn⟩ | ⟨p, hp, hq, e⟩
    · by_cases hm : a = ix i ∧ b = ix j ∨ a = ix j ∧ b = ix i
      · refine .inr ⟨(i, j), by simp, hm, ?_⟩
        rw [e]; unfold setSym
        rcases hm with hm | hm
        · split
          · rfl
          · rfl
        · rw [if_pos hm]
      · refine .inl ⟨?_, ?_⟩
        · rw [e]; unfold setSym
          rw [if_neg fun h => hm (.inr h), if_neg fun h => hm (.inl h)]
        · intro p hp
          rcases List.mem_cons.mp hp with rfl | hp
          · exact hm
          · exact hn p hp
    · exact .inr ⟨p, by simp [hp], hq, e⟩

theorem fillPairs_symm {α : Type} {f : Nat → Nat → Except Exn α} {ix : Nat → Nat}
    {L : List (Nat × Nat)} {D D' : Nat → Nat → α} (h : fillPairs f ix L D = .ok D')
    (hD : ∀ a b, D a b = D b a) (a b : Nat) : D' a b = D' b a := by
  induction L generalizing D with
  | nil => cases h; exact hD a b
  | cons p t ih =>
    obtain ⟨i, j⟩ := p
    simp only [fillPairs] at h
    split at h
    · cases h
    · refine ih h fun a b => ?_
      unfold setSym
      by_cases h1 : a = ix j ∧ b = ix i
      · rw [if_pos h1]
        by_cases h2 : b = ix j ∧ a = ix i
        · rw [if_pos h2]
        · rw [if_neg h2, if_pos h1.symm]
      · rw [if_neg h1]
        by_cases h2 : a = ix i ∧ b = ix j
        · rw [if_pos h2, if_pos h2.symm]
        · rw [if_neg h2, if_neg fun h => h2 h.symm, if_neg fun h => h1 h.symm]
          exact hD a b

theorem fillPairs_err {α : Type} {f : Nat → Nat → Except Exn α} {ix : Nat → Nat}
    {L : List (Nat × Nat)} {D : Nat → Nat → α} {e : Exn}
    (h : fillPairs f ix L D = .error e) : ∃ p ∈ L, f p.1 p.2 = .error e := by
  induction L generalizing D with
  | nil => cases h
  | cons p t ih =>
    simp only [fillPairs] at h
    split at h
    · rename_i e' he
      cases h; exact ⟨p, by simp, he⟩
    · obtain ⟨q, hq, he⟩ := ih h
      exact ⟨q, by simp [hq], he⟩

/-- The index of a column. -/
theorem reindex_get? {cols : List Nat} {c k : Nat}
    (h : (Dict.update [] cols.zipIdx : Dict Nat Nat).get? c = some k) : cols[k]? = some c := by
  have := Dict.get?_update_nil_mem h
  exact List.mem_zipIdx_iff_getElem?.mp this

theorem reindex_some {cols : List Nat} {c : Nat} (h : c ∈ cols) :
    ∃ k, (Dict.update [] cols.zipIdx : Dict Nat Nat).get? c = some k ∧ cols[k]? = some c := by
  have hm : c ∈ (Dict.update [] cols.zipIdx : Dict Nat Nat).keys := by
    rw [Dict.mem_keys_update]
    right
    simpa [Dict.keys] using h
  obtain ⟨k, hk⟩ := Dict.exists_of_mem_keys hm
  exact ⟨k, hk, reindex_get? hk⟩

/-! ### The network of a State -/

theorem get?_mapPair {α β : Type} [DecidableEq α] (f : α → β) (l : List α) (c : α) :
    Dict.get? (l.map fun i => (i, f i)) c = if c ∈ l then some (f c) else none := by
  induction l with
  | nil => simp
  | cons a t ih =>
    rw [List.map_cons, Dict.get?_cons, ih]
    by_cases h : a = c
    · subst h; simp
    · simp [h, Ne.symm h]

theorem Inv.zvDict {s : State C} (h : Inv s) :
    ∃ Z : Dict Col Nat, Net.collect s.zvItem s.outputs = .ok Z ∧ Z.keys = s.outputs ∧ ∀ c, Z.get? c = s.Zv c := by
  refine ⟨s.outputs.map fun i => (i, (s.Zv i).getD 0), ?_, by simp [Dict.keys, Function.comp_def],
    fun c => ?_⟩
  · refine Net.collect_ok _ _ _ fun c hc => ?_
    obtain ⟨v, hv⟩ := Option.ne_none_iff_exists'.mp ((h.cols c).mpr hc)
    simp only [zvItem, hv, Option.getD_some]
  · rw [get?_mapPair]
    by_cases hc : c ∈ s.outputs
    · obtain ⟨v, hv⟩ := Option.ne_none_iff_exists'.mp ((h.cols c).mpr hc)
      simp [hc, hv]
    · rw [if_neg hc]
      by_contra hn
      exact hc ((h.cols c).mp (Ne.symm hn))

theorem mem_buildCgpms {beh : ViewBehaviour C Ω} {s : State C}
    {hooked : Dict Nat (NetCgpm (Option Row) (Val C) Ω)} {c : NetCgpm (Option Row) (Val C) Ω} :
    c ∈ s.buildCgpms beh hooked ↔
      (∃ v view, (v, view) ∈ s.views ∧ c = viewCgpm beh v view) ∨ c ∈ hooked.vals := by
  unfold buildCgpms
  simp only [List.mem_append, List.mem_map, Prod.exists]
  constructor
  · rintro (⟨v, w, h, rfl⟩ | h)
    · exact .inl ⟨v, w, h, rfl⟩
    · exact .inr h
  · rintro (⟨v, w, h, rfl⟩ | h)
    · exact .inl ⟨v, w, h, rfl⟩
    · exact .inr h

/-- The columns of a State are produced by its views. -/
theorem Inv.produced {s : State C} (h : Inv s) (beh : ViewBehaviour C Ω)
    (hooked : Dict Nat (NetCgpm (Option Row) (Val C) Ω)) {c : Col} {v : Nat}
    (hc : s.Zv c = some v) : ∃ view, s.views.get? v = some view ∧
      viewCgpm beh v view ∈ s.buildCgpms beh hooked ∧ c ∈ (viewCgpm beh v view).outputs := by
  obtain ⟨view, hw⟩ := Dict.exists_of_mem_keys ((h.occ v).mpr ⟨c, hc⟩)
  refine ⟨view, hw, mem_buildCgpms.mpr (.inl ⟨v, view, Dict.mem_of_get? hw, rfl⟩), ?_⟩
  exact List.mem_cons_of_mem _ (((h.views.view v view hw).dims c).mpr hc)

/-- A criterion for the absence of cycles. -/
theorem acyclic_of_rank {R V : Type} {cgpms : List (NetCgpm R V Ω)} (rk : Nat → Nat)
    (h : ∀ c ∈ cgpms, ∀ i ∈ c.inputs, ∀ o ∈ c.outputs, rk i < rk o) (i : Nat) :
    ¬ Relation.TransGen (Net.Feeds cgpms) i i := by
  intro hc
  have key : ∀ a b, Relation.TransGen (Net.Feeds cgpms) a b → ∃ x y : NetCgpm R V Ω,
      cgpms[a]? = some x ∧ cgpms[b]? = some y ∧ ∃ v ∈ x.outputs, ∀ w ∈ y.outputs, rk v < rk w := by
    intro a b hab
    induction hab with
    | single h1 =>
      obtain ⟨x, y, hx, hy, v, h2, h3⟩ := h1
      exact ⟨x, y, hx, hy, v, h2, fun w hw => h y (List.mem_of_getElem? hy) v h3 w hw⟩
    | tail _ h1 ih =>
      obtain ⟨x, y, hx, hy, v, h2, h3⟩ := ih
      obtain ⟨y', z, hy', hz, w, h4, h5⟩ := h1
      rw [hy] at hy'; cases hy'
      exact ⟨x, z, hx, hz, v, h2, fun u hu =>
        lt_trans (h3 w h4) (h z (List.mem_of_getElem? hz) w h5 u hu)⟩
  obtain ⟨x, y, hx, hy, v, h2, h3⟩ := key i i hc
  rw [hx] at hy; cases hy
  have := h3 v h2
  omega

/-- When the models composed with a State produce variables of their own. -/
theorem Inv.validated {s : State C} (h : Inv s) (beh : ViewBehaviour C Ω)
    {hooked : Dict Nat (NetCgpm (Option Row) (Val C) Ω)}
    (htok : ∀ c ∈ s.outputs, c < 10 ^ 7)
    (hne : ∀ c ∈ hooked.vals, c.outputs ≠ [])
    (hdisj : hooked.vals.Pairwise fun a b => ∀ v ∈ a.outputs, v ∉ b.outputs)
    (hfor : ∀ c ∈ hooked.vals, ∀ o ∈ c.outputs, o ∉ s.outputs ∧ o < 10 ^ 7) :
    Net.validateCgpms (s.buildCgpms beh hooked) = .ok () := by
  have hcol : ∀ v view, (v, view) ∈ s.views → ∀ c ∈ view.dims.keys, s.Zv c = some v ∧ c < 10 ^ 7 := by
    intro v view hv c hc
    have hg := Dict.get?_of_mem h.views.wf hv
    have := ((h.views.view v view hg).dims c).mp hc
    exact ⟨this, htok c ((h.cols c).mp (by simp [this]))⟩
  · unfold Net.validateCgpms
    rw [if_neg, if_neg]
    · rw [not_not]
      unfold buildCgpms
      rw [List.pairwise_append]
      refine ⟨?_, hdisj, ?_⟩
      · rw [List.pairwise_map]
        have hw : s.views.Pairwise fun a b => a.1 ≠ b.1 := by
          have := h.views.wf
          unfold Dict.WF Dict.keys at this
          rw [List.Nodup, List.pairwise_map] at this
          exact this
        rw [List.pairwise_iff_forall_sublist] at hw ⊢
        intro a b hab x hx hx'
        have hne := hw hab
        have ha : a ∈ s.views := hab.subset (by simp)
        have hb : b ∈ s.views := hab.subset (by simp)
        have h1 := hcol a.1 a.2 ha
        have h2 := hcol b.1 b.2 hb
        simp only [viewCgpm, List.mem_cons] at hx hx'
        unfold token at hx hx'
        rcases hx with hx | hx <;> rcases hx' with hx' | hx'
        · exact hne (by omega)
        · have h3 : x < 10 ^ 7 := (h2 x hx').2
          omega
        · have h3 : x < 10 ^ 7 := (h1 x hx).2
          omega
        · have h3 := (h1 x hx).1
          rw [(h2 x hx').1] at h3
          exact hne (Option.some.inj h3).symm
      · intro a ha b hb x hx hx'
        obtain ⟨p, hp, rfl⟩ := List.mem_map.mp ha
        obtain ⟨g1, g2⟩ := hfor b hb x hx'
        simp only [viewCgpm, List.mem_cons] at hx
        unfold token at hx
        rcases hx with hx | hx
        · omega
        · have := (hcol p.1 p.2 hp x hx).1
          exact g1 ((h.cols x).mp (by simp [this]))
    · rw [not_not]
      intro c hc
      rcases mem_buildCgpms.mp hc with ⟨v, view, -, rfl⟩ | hc
      · simp [viewCgpm]
      · exact hne c hc

/-- When composing models with a State gives a well formed network. -/
theorem Inv.wellFormed {s : State C} (h : Inv s) (beh : ViewBehaviour C Ω)
    {hooked : Dict Nat (NetCgpm (Option Row) (Val C) Ω)} (rk : Nat → Nat)
    (htok : ∀ c ∈ s.outputs, c < 10 ^ 7)
    (hne : ∀ c ∈ hooked.vals, c.outputs ≠ [])
    (hdisj : hooked.vals.Pairwise fun a b => ∀ v ∈ a.outputs, v ∉ b.outputs)
    (hfor : ∀ c ∈ hooked.vals, ∀ o ∈ c.outputs, o ∉ s.outputs ∧ o < 10 ^ 7)
    (hr : ∀ c ∈ hooked.vals, ∀ i ∈ c.inputs, ∀ o ∈ c.outputs, rk i < rk o) :
    Net.WellFormed (s.buildCgpms beh hooked) := by
  have := (Net.validate_ok_iff _).mp (h.validated beh htok hne hdisj hfor)
  refine ⟨this.1, this.2, acyclic_of_rank rk ?_⟩
  intro c hc
  rcases mem_buildCgpms.mp hc with ⟨v, view, -, rfl⟩ | hc
  · intro i hi; cases hi
  · exact hr c hc

/-- Only composed models have inputs. -/
theorem parent_build {beh : ViewBehaviour C Ω} {s : State C}
    {hooked : Dict Nat (NetCgpm (Option Row) (Val C) Ω)} {a b : Nat} :
    Net.Parent (s.buildCgpms beh hooked) a b ↔ ∃ c ∈ hooked.vals, b ∈ c.outputs ∧ a ∈ c.inputs := by
  constructor
  · rintro ⟨c, hc, h1, h2⟩
    rcases mem_buildCgpms.mp hc with ⟨v, view, -, rfl⟩ | hc
    · cases h2
    · exact ⟨c, hc, h1, h2⟩
  · rintro ⟨c, hc, h1, h2⟩
    exact ⟨c, mem_buildCgpms.mpr (.inr hc), h1, h2⟩

/-- A variable that is not a column is produced by a composed model. -/
theorem Inv.foreign_of_not_mem {s : State C} (h : Inv s) {beh : ViewBehaviour C Ω}
    {hooked : Dict Nat (NetCgpm (Option Row) (Val C) Ω)} {q : Nat} (hq : q ∉ s.outputs)
    (hlt : q < 10 ^ 7) {c : NetCgpm (Option Row) (Val C) Ω} (hc : c ∈ s.buildCgpms beh hooked)
    (ho : q ∈ c.outputs) : c ∈ hooked.vals := by
  rcases mem_buildCgpms.mp hc with ⟨v, view, hv, rfl⟩ | hc
  · simp only [viewCgpm, List.mem_cons, token] at ho
    rcases ho with ho | ho
    · omega
    · have := ((h.views.view v view (Dict.get?_of_mem h.views.wf hv)).dims q).mp ho
      exact absurd ((h.cols q).mp (by simp [this])) hq
  · exact hc

/-! ### Dependence -/

theorem Inv.sourcesOf_ok {s : State C} (h : Inv s) {cgpms : List (NetCgpm (Option Row) (Val C) Ω)}
    (hw : Net.WellFormed cgpms) {limit : Nat} (hl : cgpms.length < limit) {Z : Dict Col Nat}
    (hk : Z.keys = s.outputs) (hZ : ∀ c, Z.get? c = s.Zv c) {q : Nat} (hq : Net.Produced cgpms q) :
    ∃ l, sourcesOf limit cgpms Z q = .ok l ∧ ∀ a, a ∈ l ↔ Sources s cgpms q a := by
  unfold sourcesOf Sources
  rw [hZ]
  cases hz : s.Zv q with
  | none =>
    have hn : q ∉ s.outputs := fun h' => (h.cols q).mpr h' hz
    obtain ⟨l, h1, h2⟩ := Net.retrieveAncestors_ok hw hl hq
    exact ⟨l, h1, fun a => by simp [h2, hn]⟩
  | some v =>
    have hm : q ∈ s.outputs := (h.cols q).mp (by simp [hz])
    refine ⟨_, rfl, fun a => ?_⟩
    simp only [List.mem_filter, hk, hZ, decide_eq_true_eq, hm, true_and, not_true, false_and,
      or_false]
    constructor
    · rintro ⟨-, h2⟩; exact h2
    · intro h2; exact ⟨(h.cols a).mp (by simp [h2]), h2⟩

theorem mem_filterMap_views {s : State C} {Z : Dict Col Nat} (hZ : ∀ c, Z.get? c = s.Zv c)
    (l : List Nat) (v : Nat) : v ∈ l.filterMap Z.get? ↔ ∃ a ∈ l, s.Zv a = some v := by
  simp [List.mem_filterMap, hZ]

open Classical in
theorem Inv.dependence_ok {s : State C} (h : Inv s) (beh : ViewBehaviour C Ω)
    {hooked : Dict Nat (NetCgpm (Option Row) (Val C) Ω)}
    (hw : Net.WellFormed (s.buildCgpms beh hooked)) {limit : Nat}
    (hl : (s.buildCgpms beh hooked).length < limit) {q0 q1 : Nat}
    (h0 : Net.Produced (s.buildCgpms beh hooked) q0)
    (h1 : Net.Produced (s.buildCgpms beh hooked) q1) :
    s.dependenceProbability limit beh hooked q0 q1 =
      .ok (if Related s (s.buildCgpms beh hooked) q0 q1 then 1 else 0) := by
  unfold dependenceProbability
  by_cases hb : q0 ∈ s.outputs ∧ q1 ∈ s.outputs
  · obtain ⟨hb0, hb1⟩ := hb
    obtain ⟨a, ha⟩ := Option.ne_none_iff_exists'.mp ((h.cols q0).mpr hb0)
    obtain ⟨b, hb⟩ := Option.ne_none_iff_exists'.mp ((h.cols q1).mpr hb1)
    rw [if_pos (by simp [hb0, hb1]), ha, hb]
    have hrel : Related s (s.buildCgpms beh hooked) q0 q1 ↔ a = b := by
      constructor
      · rintro (⟨c, hc, g0, g1⟩ | ⟨x, y, hx, hy, hxy⟩)
        · obtain ⟨w0, e0, m0, o0⟩ := h.produced beh hooked ha
          obtain ⟨w1, e1, m1, o1⟩ := h.produced beh hooked hb
          obtain ⟨i, hi⟩ := List.mem_iff_getElem?.mp hc
          obtain ⟨j, hj⟩ := List.mem_iff_getElem?.mp m0
          obtain ⟨k, hk⟩ := List.mem_iff_getElem?.mp m1
          have e1 := hw.unique i j _ _ hi hj q0 g0 o0
          have e2 := hw.unique i k _ _ hi hk q1 g1 o1
          subst e1; subst e2
          rw [hj] at hk
          have := congrArg (fun c : Option (NetCgpm (Option Row) (Val C) Ω) =>
            c.map fun c => c.outputs.head?) hk
          simp only [viewCgpm, token, Option.map_some, List.head?_cons, Option.some.injEq] at this
          omega
        · have ex : s.Zv x = some a := by
            rcases hx with ⟨-, e⟩ | ⟨e, -⟩
            · rw [e, ha]
            · exact absurd hb0 e
          have ey : s.Zv y = some b := by
            rcases hy with ⟨-, e⟩ | ⟨e, -⟩
            · rw [e, hb]
            · exact absurd hb1 e
          rcases hxy with rfl | ⟨v, e1, e2⟩
          · rw [ex] at ey; exact Option.some.inj ey
          · rw [ex] at e1; rw [ey] at e2
            exact (Option.some.inj e1).trans (Option.some.inj e2).symm
      · rintro rfl
        exact .inr ⟨q0, q0, .inl ⟨hb0, rfl⟩, .inl ⟨hb1, by rw [ha, hb]⟩, .inl rfl⟩
    simp only [hrel]
  · rw [if_neg (by simpa using hb)]
    obtain ⟨Z, e, hk, hZ⟩ := h.zvDict
    simp only [e]
    obtain ⟨l0, e0, m0⟩ := h.sourcesOf_ok hw hl hk hZ h0
    obtain ⟨l1, e1, m1⟩ := h.sourcesOf_ok hw hl hk hZ h1
    unfold dependenceComposite
    simp only [e0, e1]
    by_cases hs : ∃ c ∈ s.buildCgpms beh hooked, q0 ∈ c.outputs ∧ q1 ∈ c.outputs
    · rw [if_pos (by simpa using hs), if_pos (.inl hs)]
    · rw [if_neg (by simpa using hs)]
      by_cases hc : ∃ a ∈ l0, a ∈ l1
      · rw [if_pos (by simpa using hc), if_pos]
        obtain ⟨a, g0, g1⟩ := hc
        exact .inr ⟨a, a, (m0 a).mp g0, (m1 a).mp g1, .inl rfl⟩
      · rw [if_neg (by simpa using hc)]
        have hv : (((l0.filterMap Z.get?).any fun v => (l1.filterMap Z.get?).contains v) = true) ↔
            ∃ a b v, a ∈ l0 ∧ b ∈ l1 ∧ s.Zv a = some v ∧ s.Zv b = some v := by
          rw [List.any_eq_true]
          constructor
          · rintro ⟨v, g0, g1⟩
            rw [List.contains_iff_mem] at g1
            obtain ⟨a, ha, ea⟩ := (mem_filterMap_views hZ l0 v).mp g0
            obtain ⟨b, hb, eb⟩ := (mem_filterMap_views hZ l1 v).mp g1
            exact ⟨a, b, v, ha, hb, ea, eb⟩
          · rintro ⟨a, b, v, ha, hb, ea, eb⟩
            exact ⟨v, (mem_filterMap_views hZ l0 v).mpr ⟨a, ha, ea⟩, by
              rw [List.contains_iff_mem]; exact (mem_filterMap_views hZ l1 v).mpr ⟨b, hb, eb⟩⟩
        by_cases hd : ∃ a b v, a ∈ l0 ∧ b ∈ l1 ∧ s.Zv a = some v ∧ s.Zv b = some v
        · rw [if_pos (hv.mpr hd), if_pos]
          obtain ⟨a, b, v, ha, hb, ea, eb⟩ := hd
          exact .inr ⟨a, b, (m0 a).mp ha, (m1 b).mp hb, .inr ⟨v, ea, eb⟩⟩
        · rw [if_neg (fun g => hd (hv.mp g)), if_neg]
          rintro (g | ⟨a, b, ha, hb, rfl | ⟨v, ea, eb⟩⟩)
          · exact hs g
          · exact hc ⟨a, (m0 a).mpr ha, (m1 a).mpr hb⟩
          · exact hd ⟨a, b, v, (m0 a).mpr ha, (m1 b).mpr hb, ea, eb⟩

theorem related_symm {s : State C} {cgpms : List (NetCgpm (Option Row) (Val C) Ω)} {p q : Nat} :
    Related s cgpms p q ↔ Related s cgpms q p := by
  have : ∀ {p q}, Related s cgpms p q → Related s cgpms q p := by
    rintro p q (⟨c, h1, h2, h3⟩ | ⟨a, b, h1, h2, h3⟩)
    · exact .inl ⟨c, h1, h3, h2⟩
    · refine .inr ⟨b, a, h2, h1, ?_⟩
      rcases h3 with h3 | ⟨v, h3, h4⟩
      · exact .inl h3.symm
      · exact .inr ⟨v, h4, h3⟩
  exact ⟨this, this⟩

theorem Inv.dependence_unknown {s : State C} (h : Inv s) (beh : ViewBehaviour C Ω)
    {hooked : Dict Nat (NetCgpm (Option Row) (Val C) Ω)}
    (hw : Net.WellFormed (s.buildCgpms beh hooked)) {limit : Nat}
    (hl : (s.buildCgpms beh hooked).length < limit) {p q : Nat}
    (hn : ¬ Net.Produced (s.buildCgpms beh hooked) p ∨
      ¬ Net.Produced (s.buildCgpms beh hooked) q) :
    s.dependenceProbability limit beh hooked p q = .error .valueError := by
  have hout : ∀ x, ¬ Net.Produced (s.buildCgpms beh hooked) x → s.Zv x = none := by
    intro x hx
    by_contra hz
    obtain ⟨v, hv⟩ := Option.ne_none_iff_exists'.mp hz
    obtain ⟨w, -, h1, h2⟩ := h.produced beh hooked hv
    exact hx ⟨_, h1, h2⟩
  have hno : ∀ x, s.Zv x = none → x ∉ s.outputs := fun x hx hm => (h.cols x).mpr hm hx
  obtain ⟨Z, e, hk, hZ⟩ := h.zvDict
  unfold dependenceProbability
  rw [if_neg]
  · simp only [e]
    unfold dependenceComposite
    rw [if_neg]
    · by_cases hp : Net.Produced (s.buildCgpms beh hooked) p
      · have hq := hn.resolve_left (not_not.mpr hp)
        obtain ⟨l0, e0, -⟩ := h.sourcesOf_ok hw hl hk hZ hp
        have e1 : sourcesOf limit (s.buildCgpms beh hooked) Z q = .error .valueError := by
          unfold sourcesOf
          rw [hZ, hout q hq]
          exact Net.retrieveAncestors_unknown hq
        simp only [e0, e1]
      · have e1 : sourcesOf limit (s.buildCgpms beh hooked) Z p = .error .valueError := by
          unfold sourcesOf
          rw [hZ, hout p hp]
          exact Net.retrieveAncestors_unknown hp
        simp only [e1]
    · intro hs
      have : ∃ c ∈ s.buildCgpms beh hooked, p ∈ c.outputs ∧ q ∈ c.outputs := by simpa using hs
      obtain ⟨c, h1, h2, h3⟩ := this
      rcases hn with hn | hn
      · exact hn ⟨c, h1, h2⟩
      · exact hn ⟨c, h1, h3⟩
  · intro hs
    have : p ∈ s.outputs ∧ q ∈ s.outputs := by simpa using hs
    rcases hn with hn | hn
    · exact hno p (hout p hn) this.1
    · exact hno q (hout q hn) this.2

theorem pairwise_ok {s : State C} {limit : Nat} {beh : ViewBehaviour C Ω}
    {hooked : Dict Nat (NetCgpm (Option Row) (Val C) Ω)} {colnos : Option (List Nat)}
    (hok : ∀ c ∈ colnos.getD s.outputs, ∀ d ∈ colnos.getD s.outputs,
      ∃ p, s.dependenceProbability limit beh hooked c d = .ok p)
    (hsym : ∀ c ∈ colnos.getD s.outputs, ∀ d ∈ colnos.getD s.outputs,
      s.dependenceProbability limit beh hooked c d = s.dependenceProbability limit beh hooked d c)
    (hself : ∀ c ∈ colnos.getD s.outputs, s.dependenceProbability limit beh hooked c c = .ok 1) :
    ∃ D, s.dependencePairwise limit beh hooked colnos = .ok D ∧ (∀ i j, D i j = D j i) ∧
      (∀ i, D i i = 1) ∧ ((colnos.getD s.outputs).Nodup → ∀ (i j : Nat) (c d : Col),
        (colnos.getD s.outputs)[i]? = some c → (colnos.getD s.outputs)[j]? = some d →
        s.dependenceProbability limit beh hooked c d = .ok (D i j)) := by
  unfold dependencePairwise
  generalize colnos.getD s.outputs = cols at *
  dsimp only
  let g : Nat → Nat → ℝ := fun c d => match s.dependenceProbability limit beh hooked c d with
    | .ok p => p
    | .error _ => 0
  have hg : ∀ c ∈ cols, ∀ d ∈ cols, s.dependenceProbability limit beh hooked c d = .ok (g c d) := by
    intro c hc d hd
    obtain ⟨p, hp⟩ := hok c hc d hd
    simp only [g, hp]
  have hix : ∀ c ∈ cols, cols[((Dict.update [] cols.zipIdx : Dict Nat Nat).get? c).getD 0]? =
      some c := by
    intro c hc
    obtain ⟨k, h1, h2⟩ := reindex_some hc
    rw [h1]; exact h2
  obtain ⟨D, h1, h2⟩ := fillPairs_ok (f := s.dependenceProbability limit beh hooked)
    (ix := fun c => ((Dict.update [] cols.zipIdx : Dict Nat Nat).get? c).getD 0)
    (L := pairsOf cols) (D := fun i j => if i = j then (1 : ℝ) else 0) (g := g)
    fun p hp => hg _ (mem_pairsOf hp).1 _ (mem_pairsOf hp).2
  have hself' : ∀ c ∈ cols, g c c = 1 := by
    intro c hc
    have := hself c hc
    rw [hg c hc c hc] at this
    exact Except.ok.inj this
  have hdiag : ∀ i, D i i = 1 := by
    intro i
    rcases h2 i i with ⟨e, -⟩ | ⟨p, hp, hq, e⟩
    · rw [e, if_pos rfl]
    · obtain ⟨m1, m2⟩ := mem_pairsOf hp
      have e1 := hix _ m1
      have e2 := hix _ m2
      have : p.1 = p.2 := by
        rcases hq with ⟨a, b⟩ | ⟨a, b⟩
        · rw [← a] at e1; rw [← b, e1] at e2; exact Option.some.inj e2
        · rw [← b] at e1; rw [← a, e1] at e2; exact Option.some.inj e2
      rw [e, ← this, hself' _ m1]
  refine ⟨D, h1, fun i j => fillPairs_symm h1 (fun a b => by simp only [eq_comm]) i j, hdiag,
    fun hnd i j c d hc hd => ?_⟩
  have mc := List.mem_of_getElem? hc
  have md := List.mem_of_getElem? hd
  rw [hg c mc d md]
  by_cases hij : i = j
  · subst hij
    rw [hc] at hd; cases hd
    rw [hdiag, hself' c mc]
  · have hcd : c ≠ d := by
      rintro rfl
      exact hij (hnd.getElem?_inj_of hc hd)
    have inj : ∀ k x, cols[k]? = some x → k = ((Dict.update [] cols.zipIdx : Dict Nat Nat).get? x).getD 0 :=
      fun k x hx => hnd.getElem?_inj_of hx (hix x (List.mem_of_getElem? hx))
    rcases h2 i j with ⟨-, hn⟩ | ⟨p, hp, hq, e⟩
    · rcases pairsOf_total mc md hcd with hm | hm
      · exact absurd (.inl ⟨inj i c hc, inj j d hd⟩) (hn _ hm)
      · exact absurd (.inr ⟨inj i c hc, inj j d hd⟩) (hn _ hm)
    · obtain ⟨m1, m2⟩ := mem_pairsOf hp
      have e1 := hix _ m1
      have e2 := hix _ m2
      rcases hq with ⟨a, b⟩ | ⟨a, b⟩
      · rw [← a, hc] at e1; rw [← b, hd] at e2
        rw [e, Option.some.inj e1, Option.some.inj e2]
      · rw [← b, hd] at e1; rw [← a, hc] at e2
        have := hsym c mc d md
        rw [hg c mc d md, hg d md c mc] at this
        rw [e, ← Option.some.inj e1, ← Option.some.inj e2, this]

/-! ### Similarity -/

theorem Inv.viewFor_ok {s : State C} (h : Inv s) {c : Col} (hc : c ∈ s.outputs) :
    ∃ v w, s.viewFor c = .ok (v, w) ∧ s.Zv c = some v ∧ s.views.get? v = some w := by
  obtain ⟨v, hv⟩ := Option.ne_none_iff_exists'.mp ((h.cols c).mpr hc)
  obtain ⟨w, hw⟩ := Dict.exists_of_mem_keys ((h.occ v).mpr ⟨c, hv⟩)
  exact ⟨v, w, by simp only [viewFor, hv, hw], hv, hw⟩

theorem Inv.viewSet_ok {s : State C} (h : Inv s) {cols : List Col} (hc : ∀ c ∈ cols, c ∈ s.outputs) :
    ∃ vs, s.viewSet cols = .ok vs ∧ vs.WF ∧ (∀ v, v ∈ vs.keys ↔ v ∈ viewsOf s cols) ∧
      ∀ p ∈ vs, s.views.get? p.1 = some p.2 := by
  induction cols with
  | nil => exact ⟨[], rfl, Dict.wf_nil, by simp [viewsOf, Dict.keys], by simp⟩
  | cons c cs ih =>
    obtain ⟨vs, h1, h2, h3, h4⟩ := ih fun c hc' => hc c (by simp [hc'])
    obtain ⟨v, w, e1, e2, e3⟩ := h.viewFor_ok (hc c (by simp))
    have hmem : ∀ x, x ∈ viewsOf s (c :: cs) ↔ x = v ∨ x ∈ viewsOf s cs := by
      intro x
      simp only [viewsOf, Set.mem_setOf_eq, List.mem_cons, exists_eq_or_imp, e2, Option.some.injEq]
      exact or_congr_left eq_comm
    simp only [viewSet, e1, h1]
    by_cases hh : vs.has v
    · rw [if_pos hh]
      refine ⟨vs, rfl, h2, fun x => ?_, h4⟩
      rw [hmem, h3]
      constructor
      · exact .inr
      · rintro (rfl | hx)
        · exact (h3 x).mp ((Dict.has_iff _ _).mp hh)
        · exact hx
    · rw [if_neg hh]
      have hn : v ∉ vs.keys := fun hm => hh ((Dict.has_iff _ _).mpr hm)
      refine ⟨_, rfl, ?_, fun x => ?_, ?_⟩
      · exact List.nodup_cons.mpr ⟨hn, h2⟩
      · rw [hmem, ← h3]
        simp [Dict.keys]
      · intro p hp
        rcases List.mem_cons.mp hp with rfl | hp
        · exact e3
        · exact h4 p hp

theorem viewSet_unknown {s : State C} {cols : List Col} {c : Col} (hc : c ∈ cols)
    (hz : s.Zv c = none) : ∃ e, s.viewSet cols = .error e := by
  induction cols with
  | nil => cases hc
  | cons a cs ih =>
    simp only [viewSet]
    rcases List.mem_cons.mp hc with rfl | hc
    · exact ⟨.keyError, by simp only [viewFor, hz]⟩
    · obtain ⟨e, he⟩ := ih hc
      cases s.viewFor a with
      | error e' => exact ⟨e', rfl⟩
      | ok p => exact ⟨e, by simp only [he]⟩

theorem Inv.seat_some {s : State C} (h : Inv s) {v : Nat} {w : View C}
    (hw : s.views.get? v = some w) {r : Row} (hr : r < s.nRows) : ∃ k, w.seat r = some k :=
  Option.ne_none_iff_exists'.mp (((h.views.view v w hw).rows r).mpr hr)

/-- The mean over the views. -/
theorem Inv.rowSimilarity_ok {s : State C} (h : Inv s) {cols : List Col}
    (hc : ∀ c ∈ cols, c ∈ s.outputs) {r0 r1 : Row} (h0 : r0 < s.nRows) (h1 : r1 < s.nRows)
    (hne : cols ≠ []) : s.rowSimilarity r0 r1 (some cols) =
      .ok (.fin ((agreeing s cols r0 r1).ncard / (viewsOf s cols).ncard)) ∧
      (viewsOf s cols).ncard ≠ 0 ∧ (viewsOf s cols).Finite := by
  obtain ⟨vs, e1, hwf, hk, hg⟩ := h.viewSet_ok hc
  let f : View C → Bool := fun w => w.seat r0 == w.seat r1
  have hcol : Net.collect (fun v => sameCluster v r0 r1) vs.vals = .ok (vs.vals.map f) := by
    refine Net.collect_ok _ _ _ fun w hw => ?_
    obtain ⟨p, hp, rfl⟩ := List.mem_map.mp hw
    obtain ⟨a, ha⟩ := h.seat_some (hg p hp) h0
    obtain ⟨b, hb⟩ := h.seat_some (hg p hp) h1
    simp only [sameCluster, ha, hb, f]
    rfl
  have hset : viewsOf s cols = {v | v ∈ vs.keys} := by
    ext v; exact (hk v).symm
  have hcard : (viewsOf s cols).ncard = vs.length := by
    have : viewsOf s cols = ((vs.keys.toFinset : Finset Nat) : Set Nat) := by
      ext v; simp [hk]
    rw [this, Set.ncard_coe_finset, List.toFinset_card_of_nodup hwf]
    simp [Dict.keys]
  have hag : (agreeing s cols r0 r1).ncard = (vs.vals.map f).count true := by
    have : agreeing s cols r0 r1 =
        (((vs.filter fun p => f p.2).map Prod.fst).toFinset : Set Nat) := by
      ext v
      simp only [agreeing, Set.mem_setOf_eq, List.coe_toFinset, List.mem_map, List.mem_filter,
        Prod.exists, exists_and_right, exists_eq_right]
      constructor
      · rintro ⟨hv, w, k, hw, g0, g1⟩
        obtain ⟨w', hw'⟩ := Dict.exists_of_mem_keys ((hk v).mpr hv)
        have hm := Dict.mem_of_get? hw'
        have : s.views.get? v = some w' := hg _ hm
        rw [hw] at this; cases this
        exact ⟨w, hm, by simp [f, g0, g1]⟩
      · rintro ⟨w, hm, hf⟩
        have hw : s.views.get? v = some w := hg _ hm
        obtain ⟨a, ha⟩ := h.seat_some hw h0
        obtain ⟨b, hb⟩ := h.seat_some hw h1
        have : a = b := by simpa [f, ha, hb] using hf
        subst this
        exact ⟨(hk v).mp (List.mem_map.mpr ⟨(v, w), hm, rfl⟩), w, a, hw, ha, hb⟩
    rw [this, Set.ncard_coe_finset, List.toFinset_card_of_nodup]
    · rw [List.length_map, ← List.countP_eq_length_filter, List.count, List.countP_map, Dict.vals,
        List.countP_map]
      congr 1
      funext p
      simp
    · exact List.Nodup.sublist (List.Sublist.map _ List.filter_sublist) hwf
  have hpos : vs.length ≠ 0 := by
    obtain ⟨c, hcm⟩ := List.exists_mem_of_ne_nil _ hne
    obtain ⟨v, w, -, e2, -⟩ := h.viewFor_ok (hc c hcm)
    have : v ∈ vs.keys := (hk v).mpr ⟨c, hcm, e2⟩
    intro h0
    rw [List.length_eq_zero_iff.mp h0] at this
    cases this
  refine ⟨?_, by rw [hcard]; exact hpos, ?_⟩
  · unfold rowSimilarity
    simp only [Option.getD_some, e1, hcol, meanBool, List.isEmpty_iff]
    rw [if_neg, hag, hcard]
    · simp [Dict.vals]
    · intro h0
      apply hpos
      have := congrArg List.length h0
      simpa [Dict.vals] using this
  · rw [hset]; exact List.finite_toSet _

end State
end Cgpm
