import Verif.Lemmas.StateLogpdf
import Verif.Lemmas.StateDemo
import Verif.Props.ViewQuery
import Verif.Props.State

/-!
Properties C16, C17 and C45 for density queries on a State (src/crosscat/state.py:392-476,
src/crosscat/sampling.py:37-107).

They are stated for every State that arises from a history of legal calls and every query.  The
flag `composite` of the State is off (no model has been composed and no column is conditional)
except where it is said to be on.
-/
namespace Cgpm.Props
open Cgpm Cgpm.View Cgpm.Net

variable {C : Cat} {Ω : Type}

section
variable {close : C.V → C.V → Bool} {ord : PyOrder} {beh : ViewBehaviour C Ω}
  {ωj ωm : Nat → Nat → Ω} {cfg : Cfg C} {s : State C}
  {hooked : Dict Nat (NetCgpm (Option Row) (Val C) Ω)} {rowid : Option Row}
  {T E : Dict Col C.Cell} {acc : Option Nat}

theorem validate_new (h : NewRowId s rowid) (hd : ∀ c ∈ T.keys, c ∉ E.keys) :
    s.validateQuery close rowid false T.keys E = .ok () := by
  have hh := state_hyp_new h
  have : (T.keys.any fun t => E.has t) = false := by
    rw [List.any_eq_false]
    intro t ht
    simp only [Bool.not_eq_true]
    exact (Dict.has_false_iff _ _).mpr ((Dict.get?_eq_none_iff _ _).mpr (hd t ht))
  unfold State.validateQuery State.validateConstraints
  cases rowid <;> simp [hh, this]

theorem logpdf_plain (h : s.validateQuery close rowid false T.keys E = .ok ()) :
    s.logpdf close ord beh ωj ωm false hooked rowid T E [] acc = s.stateLogpdf rowid T E := by
  unfold State.logpdf
  rw [h]
  rfl

/-- What the direct computation gets from a view with targets. -/
theorem fast_group (h : State.Inv s) (hr : NewRowId s rowid) (hq : StateQueryOn s T E)
    (hd : ∀ c ∈ T.keys, c ∉ E.keys) {v : Nat} {view : View C}
    (hv : s.views.get? v = some view) {gT gE : Dict Col C.Cell} (hT : GroupOf s T v gT)
    (hE : GroupOf s E v gE) :
    (viewDensity view E.get? ≠ 0 → ∃ r, view.fastLogpdf rowid gT gE = .ok r ∧ r ≠ .nan ∧
      mass r = viewDensity view (both T E) / viewDensity view E.get?) ∧
    (viewDensity view E.get? = 0 → view.fastLogpdf rowid gT gE = .error .valueError) := by
  have hqT : ∀ c ∈ T.keys, c ∈ s.outputs ∧ ∀ d, s.dimFor c = .ok d → d.inputs = [] :=
    fun c hc => hq.columns c (List.mem_append_left _ hc)
  have hqE : ∀ c ∈ E.keys, c ∈ s.outputs ∧ ∀ d, s.dimFor c = .ok d → d.inputs = [] :=
    fun c hc => hq.columns c (List.mem_append_right _ hc)
  have := fast_new (h.views.view v view hv).inv (stateInv_seat h hv)
    ((stateInv_hyp h hv rowid).trans (state_hyp_new hr)) hT.wf hE.wf (groupOf_plain h hqT hv hT)
    (groupOf_plain h hqE hv hE)
  simp only [groupOf_density h hqT hv hT, groupOf_density h hqE hv hE] at this
  rw [viewDensity_both h hq hd hv]
  exact this

theorem viewDensity_top (view : View C) (D : Col → Option C.Cell) : viewDensity view D ≠ ⊤ :=
  mixture_top view _

/-! ### C16 -/

open Classical in
/-- **C16.** The density of a new row: the product, over the views that have a target, of the mixture
density of targets and constraints divided by that of the constraints.  The query is refused when
the constraints have density zero in one of these views. -/
theorem C16_state (hL : C.Lawful) (hR : StateReachable cfg s) (hr : NewRowId s rowid)
    (hq : StateQueryOn s T E) (hd : ∀ c ∈ T.keys, c ∉ E.keys) :
    ((∀ v view, s.views.get? v = some view → Asked s T v → viewDensity view E.get? ≠ 0) →
      ∃ r, s.logpdf close ord beh ωj ωm false hooked rowid T E [] acc = .ok r ∧ r ≠ .nan ∧
        mass r = (s.views.map fun p => if Asked s T p.1 then
          viewDensity p.2 (both T E) / viewDensity p.2 E.get? else 1).prod) ∧
    ((∃ v view, s.views.get? v = some view ∧ Asked s T v ∧ viewDensity view E.get? = 0) →
      s.logpdf close ord beh ωj ωm false hooked rowid T E [] acc = .error .valueError) := by
  have h := hR.inv hL
  rw [logpdf_plain (validate_new hr hd)]
  obtain ⟨oT, t1, t2, t3, t4, t5⟩ := partition_groups h hq.targets fun c hc =>
    (hq.columns c (List.mem_append_left _ hc)).1
  obtain ⟨oE, e1, e2, e3, e4, e5⟩ := partition_groups h hq.evidence fun c hc =>
    (hq.columns c (List.mem_append_right _ hc)).1
  have hst : s.stateLogpdf rowid T E = s.sumViews rowid oE oT (.fin 0) := by
    simp only [State.stateLogpdf, partitionQueryEvidenceDict, e1, t1]
  have hview : ∀ p ∈ oT, Asked s T p.1 ∧ (∃ view, s.views.get? p.1 = some view) ∧
      GroupOf s T p.1 p.2 := by
    intro p hp
    have ha := (t3 p.1).mp (List.mem_map_of_mem hp)
    refine ⟨ha, ?_, ?_⟩
    · obtain ⟨c, -, hz⟩ := ha
      exact Dict.exists_of_mem_keys ((h.occ p.1).mpr ⟨c, hz⟩)
    · have := t4 p.1
      rw [Dict.get?_of_mem t2 hp] at this
      exact this
  rw [hst]
  constructor
  · intro hpos
    let m : Nat → ENNReal := fun v => match s.views.get? v with
      | some view => viewDensity view (both T E) / viewDensity view E.get?
      | none => 1
    have hm : ∀ v view, s.views.get? v = some view →
        m v = viewDensity view (both T E) / viewDensity view E.get? := fun v view hv => by
      simp only [m, hv]
    obtain ⟨r, r1, r2, r3⟩ := sumViews_ok (s := s) (rowid := rowid) (Ev := oE) (m := m) (l := oT)
      (acc := .fin 0) (by simp) (by simp [mass]) (fun p hp => by
        obtain ⟨ha, ⟨view, hv⟩, hg⟩ := hview p hp
        obtain ⟨r, r1, r2, r3⟩ := (fast_group h hr hq hd hv hg (e4 p.1)).1 (hpos _ _ hv ha)
        exact ⟨view, r, hv, r1, r2, r3.trans (hm _ _ hv).symm, by
          rw [hm _ _ hv]; exact ENNReal.div_ne_top (viewDensity_top _ _) (hpos _ _ hv ha)⟩)
    refine ⟨r, r1, r2, ?_⟩
    rw [r3, prod_asked h t2 t3 (fun _ view => viewDensity view (both T E) / viewDensity view E.get?)
      m hm]
    simp [mass]
  · rintro ⟨v, view, hv, ha, h0⟩
    refine sumViews_refused (fun p hp => ?_) ?_
    · obtain ⟨-, ⟨view, hv⟩, hg⟩ := hview p hp
      have := fast_group h hr hq hd hv hg (e4 p.1)
      refine ⟨view, hv, ?_⟩
      by_cases h0 : viewDensity view E.get? = 0
      · exact Or.inl (this.2 h0)
      · obtain ⟨r, r1, -⟩ := this.1 h0
        exact Or.inr ⟨r, r1⟩
    · obtain ⟨g, hg⟩ := Dict.exists_of_mem_keys ((t3 v).mpr ha)
      have hp := Dict.mem_of_get? hg
      exact ⟨(v, g), hp, view, hv, (fast_group h hr hq hd hv (hview _ hp).2.2 (e4 v)).2 h0⟩

theorem viewDensity_unasked (h : State.Inv s) (hq : StateQueryOn s T E) {v : Nat} {view : View C}
    (hv : s.views.get? v = some view) (ha : ¬ Asked s T v) :
    viewDensity view (both T E) = viewDensity view E.get? := by
  have hz : ∀ p ∈ view.dims, s.Zv p.1 = some v := fun p hp =>
    ((h.views.view v view hv).dims p.1).mp (List.mem_map_of_mem hp)
  have hb : ∀ p ∈ view.dims, both T E p.1 = E.get? p.1 := by
    intro p hp
    unfold both
    rw [(Dict.get?_eq_none_iff _ _).mpr fun hc => ha ⟨p.1, hc, hz p hp⟩, Option.none_or]
  unfold viewDensity
  congr 1
  funext k
  refine rowDensity_local k hb fun p hp hn => ?_
  rw [hb p hp] at hn
  obtain ⟨x, hx⟩ := Option.ne_none_iff_exists'.mp hn
  exact (hq.columns p.1 (List.mem_append_right _ (Dict.mem_keys_of_get? hx))).2 p.2
    (h.dimFor_of_view hv (Dict.get?_of_mem (h.views.view v view hv).inv.wf hp))

theorem stateDensity_pos {D : Col → Option C.Cell} (hE : stateDensity s D ≠ 0) :
    ∀ p ∈ s.views, viewDensity p.2 D ≠ 0 := by
  intro p hp h0
  refine hE ?_
  unfold stateDensity
  rw [List.prod_eq_zero_iff]
  exact List.mem_map.mpr ⟨p, hp, h0⟩

theorem list_prod_div {α : Type} (l : List α) (f g : α → ENNReal) (hg : ∀ a ∈ l, g a ≠ 0)
    (hg' : ∀ a ∈ l, g a ≠ ⊤) :
    (l.map fun a => f a / g a).prod = (l.map f).prod / (l.map g).prod := by
  induction l with
  | nil => simp
  | cons a t ih =>
    simp only [List.map_cons, List.prod_cons]
    rw [ih (fun b hb => hg b (by simp [hb])) (fun b hb => hg' b (by simp [hb])), div_eq_mul_inv,
      div_eq_mul_inv, div_eq_mul_inv, ENNReal.mul_inv (Or.inl (hg a (by simp)))
        (Or.inl (hg' a (by simp)))]
    ring

/-- **C16.** If the constraints have positive density, exp(logpdf) is the density of targets and
constraints divided by that of the constraints, the density of a row being the product over the
views of mixture densities. -/
theorem C16_state_density (hL : C.Lawful) (hR : StateReachable cfg s) (hr : NewRowId s rowid)
    (hq : StateQueryOn s T E) (hd : ∀ c ∈ T.keys, c ∉ E.keys)
    (hE : stateDensity s E.get? ≠ 0) :
    ∃ r, s.logpdf close ord beh ωj ωm false hooked rowid T E [] acc = .ok r ∧ r ≠ .nan ∧
      mass r = stateDensity s (both T E) / stateDensity s E.get? := by
  have h := hR.inv hL
  have hpos := stateDensity_pos hE
  obtain ⟨r, r1, r2, r3⟩ := (C16_state (close := close) (ord := ord) (beh := beh) (ωj := ωj)
    (ωm := ωm) (hooked := hooked) (acc := acc) hL hR hr hq hd).1
    fun v view hv _ => hpos (v, view) (Dict.mem_of_get? hv)
  refine ⟨r, r1, r2, ?_⟩
  unfold stateDensity
  rw [r3, ← list_prod_div _ _ _ hpos fun p _ => viewDensity_top _ _]
  congr 1
  refine List.map_congr_left fun p hp => ?_
  split
  · rfl
  · rename_i ha
    rw [viewDensity_unasked h hq (Dict.get?_of_mem h.views.wf hp) ha,
      ENNReal.div_self (hpos p hp) (viewDensity_top _ _)]

open Classical in
/-- **C16.** The answer is the sum of the answers of the views that have targets, asked through their
networks for their own targets and constraints. -/
theorem C16_state_views (hL : C.Lawful) (hS : FixedSupport C) (hR : StateReachable cfg s)
    (hord : ord.Lists) (hr : NewRowId s rowid) (hq : StateQueryOn s T E)
    (hd : ∀ c ∈ T.keys, c ∉ E.keys) (hplain : ∀ c d, s.dimFor c = .ok d → d.inputs = [])
    (hname : ∀ c ∈ s.outputs, c < 10 ^ 7) {sim : Simulator C Ω} {ω : Draws Ω} {a : Nat → Fl}
    (ha : ∀ v view, s.views.get? v = some view → Asked s T v →
      view.logpdf close s.tbl ord sim ω (State.token v) rowid
        (cellsOf (T.filter fun p => s.Zv p.1 = some v))
        (cellsOf (E.filter fun p => s.Zv p.1 = some v)) [] = .ok (a v)) :
    ∃ r, s.logpdf close ord beh ωj ωm false hooked rowid T E [] acc = .ok r ∧ r ≠ .nan ∧
      mass r = (s.views.map fun p => if Asked s T p.1 then mass (a p.1) else 1).prod := by
  have h := hR.inv hL
  have key : ∀ v view, s.views.get? v = some view → Asked s T v →
      viewDensity view E.get? ≠ 0 ∧
        mass (a v) = viewDensity view (both T E) / viewDensity view E.get? := by
    intro v view hv hask
    obtain ⟨oT, t1, t2, t3, t4, t5⟩ := partition_groups h hq.targets fun c hc =>
      (hq.columns c (List.mem_append_left _ hc)).1
    obtain ⟨oE, e1, e2, e3, e4, e5⟩ := partition_groups h hq.evidence fun c hc =>
      (hq.columns c (List.mem_append_right _ hc)).1
    have hgT := t4 v
    have hgE := e4 v
    rw [t5] at hgT
    rw [e5] at hgE
    have hv' := h.views.view v view hv
    have hqT : ∀ c ∈ T.keys, c ∈ s.outputs ∧ ∀ d, s.dimFor c = .ok d → d.inputs = [] :=
      fun c hc => hq.columns c (List.mem_append_left _ hc)
    have hqE : ∀ c ∈ E.keys, c ∈ s.outputs ∧ ∀ d, s.dimFor c = .ok d → d.inputs = [] :=
      fun c hc => hq.columns c (List.mem_append_right _ hc)
    have hpT := groupOf_plain h hqT hv hgT
    have hpE := groupOf_plain h hqE hv hgE
    have hin : ∀ c d, view.dims.get? c = some d → d.inputs = [] := fun c d hdm =>
      hplain c d (h.dimFor_of_view hv hdm)
    have htok : State.token v ∉ view.dims.keys := by
      intro hc
      have := hname _ ((h.cols _).mp (by rw [(hv'.dims _).mp hc]; simp))
      exact absurd this (Nat.not_lt.mpr (Nat.le_add_right _ _))
    have hsch : Schema view (State.token v) := by
      refine ⟨htok, fun c d hdm => by rw [hin c d hdm]; simp, fun c hc => ?_⟩
      obtain ⟨b, -, hb⟩ := Relation.TransGen.tail'_iff.mp hc
      obtain ⟨d, hdm, hi⟩ := hb
      rw [hin _ d hdm] at hi; cases hi
    have hkeys : ∀ {D g : Dict Col C.Cell}, GroupOf s D v g → ∀ c ∈ g.keys, c ∈ D.keys := by
      intro D g hg c hc
      obtain ⟨x, hx⟩ := Dict.exists_of_mem_keys hc
      rw [hg.get] at hx
      split at hx
      · exact Dict.mem_keys_of_get? hx
      · cases hx
    have htok' : ∀ {D g : Dict Col C.Cell}, GroupOf s D v g → State.token v ∉ g.keys := by
      intro D g hg hc
      obtain ⟨x, hx⟩ := Dict.exists_of_mem_keys hc
      rw [hg.get] at hx
      split at hx
      · rename_i hz; exact htok ((hv'.dims _).mpr hz)
      · cases hx
    have hnq : NewRowQuery view (State.token v) rowid (T.filter fun p => s.Zv p.1 = some v)
        (E.filter fun p => s.Zv p.1 = some v) := by
      refine ⟨fun r e => ?_, hgT.wf, hgE.wf, fun c hc hc' => hd c (hkeys hgT c hc) (hkeys hgE c hc'),
        ⟨htok' hgT, htok' hgE⟩, ?_, ?_⟩
      · have hle := hr r e
        refine ⟨?_, by rw [stateInv_rows h hv]; exact hle⟩
        by_contra hc
        exact absurd ((hv'.rows r).mp hc) (Nat.not_lt.mpr hle)
      · intro c d hdm _ i hi; rw [hin c d hdm] at hi; cases hi
      · intro c d hdm _ i hi; rw [hin c d hdm] at hi; cases hi
    have hag := inv_agree (close := close) (ord := ord) (sim := sim) (ω := ω) hS hv'.inv hord hsch
      (stateInv_seat h hv) hnq (fun c hc => by
        rcases List.mem_append.mp hc with hc | hc
        · exact hpT c hc
        · exact hpE c hc)
    rw [ha v view hv hask] at hag
    have := fast_group h hr hq hd hv hgT hgE
    by_cases h0 : viewDensity view E.get? = 0
    · rw [this.2 h0] at hag; cases hag
    · obtain ⟨r, r1, r2, r3⟩ := this.1 h0
      rw [r1] at hag
      cases hag
      exact ⟨h0, r3⟩
  obtain ⟨r, r1, r2, r3⟩ := (C16_state (close := close) (ord := ord) (beh := beh) (ωj := ωj)
    (ωm := ωm) (hooked := hooked) (acc := acc) hL hR hr hq hd).1
    fun v view hv hask => (key v view hv hask).1
  refine ⟨r, r1, r2, r3.trans ?_⟩
  congr 1
  refine List.map_congr_left fun p hp => ?_
  split
  · rename_i hask
    exact (key p.1 p.2 (Dict.get?_of_mem h.views.wf hp) hask).2.symm
  · rfl

open Classical in
/-- **C16.** Columns in different views are independent: the density of targets from two disjoint sets
of views is the sum of their densities. -/
theorem C16_independent (hL : C.Lawful) (hR : StateReachable cfg s) (hr : NewRowId s rowid)
    {T' : Dict Col C.Cell} (hq : StateQueryOn s (T ++ T') E)
    (hd : ∀ c ∈ (T ++ T' : Dict Col C.Cell).keys, c ∉ E.keys)
    (hv : ∀ c ∈ T.keys, ∀ c' ∈ T'.keys, s.Zv c ≠ s.Zv c')
    (hE : stateDensity s E.get? ≠ 0) :
    ∃ a b, s.logpdf close ord beh ωj ωm false hooked rowid T E [] acc = .ok a ∧
      s.logpdf close ord beh ωj ωm false hooked rowid T' E [] acc = .ok b ∧
      s.logpdf close ord beh ωj ωm false hooked rowid (T ++ T') E [] acc = .ok (a.add b) := by
  have h := hR.inv hL
  have hkk : (T ++ T' : Dict Col C.Cell).keys = T.keys ++ T'.keys := by simp [Dict.keys]
  have hpos := stateDensity_pos hE
  have hnd := hq.targets
  rw [hkk, List.nodup_append] at hnd
  have hq1 : StateQueryOn s T E := ⟨hnd.1, hq.evidence, fun c hc => hq.columns c (by
    rw [hkk]; rcases List.mem_append.mp hc with hc | hc <;> simp [hc])⟩
  have hq2 : StateQueryOn s T' E := ⟨hnd.2.1, hq.evidence, fun c hc => hq.columns c (by
    rw [hkk]; rcases List.mem_append.mp hc with hc | hc <;> simp [hc])⟩
  have hall : ∀ v view, s.views.get? v = some view → viewDensity view E.get? ≠ 0 :=
    fun v view hv => hpos (v, view) (Dict.mem_of_get? hv)
  obtain ⟨a, a1, a2, a3⟩ := (C16_state (close := close) (ord := ord) (beh := beh) (ωj := ωj)
    (ωm := ωm) (hooked := hooked) (acc := acc) hL hR hr hq1 (fun c hc => hd c (by
      rw [hkk]; simp [hc]))).1 fun v view hv _ => hall v view hv
  obtain ⟨b, b1, b2, b3⟩ := (C16_state (close := close) (ord := ord) (beh := beh) (ωj := ωj)
    (ωm := ωm) (hooked := hooked) (acc := acc) hL hR hr hq2 (fun c hc => hd c (by
      rw [hkk]; simp [hc]))).1 fun v view hv _ => hall v view hv
  obtain ⟨c, c1, c2, c3⟩ := (C16_state (close := close) (ord := ord) (beh := beh) (ωj := ωj)
    (ωm := ωm) (hooked := hooked) (acc := acc) hL hR hr hq hd).1 fun v view hv _ => hall v view hv
  refine ⟨a, b, a1, b1, ?_⟩
  have hfin : ∀ (D : Dict Col C.Cell), (s.views.map fun p => if Asked s D p.1 then
      viewDensity p.2 (both D E) / viewDensity p.2 E.get? else 1).prod ≠ ⊤ := by
    intro D
    refine list_prod_ne_top _ fun x hx => ?_
    obtain ⟨p, hp, rfl⟩ := List.mem_map.mp hx
    split
    · exact ENNReal.div_ne_top (viewDensity_top _ _) (hpos p hp)
    · exact ENNReal.one_ne_top
  obtain ⟨m1, m2, -⟩ := mass_add a2 b2 (ne_pinf_of_mass (a3 ▸ hfin T))
    (ne_pinf_of_mass (b3 ▸ hfin T'))
  rw [c1, C35_mass_determines c (a.add b) c2 m2]
  rw [m1, a3, b3, c3, ← List.prod_map_mul]
  congr 1
  refine List.map_congr_left fun p hp => ?_
  have hp' := Dict.get?_of_mem h.views.wf hp
  have hone : viewDensity p.2 E.get? / viewDensity p.2 E.get? = 1 :=
    ENNReal.div_self (hpos p hp) (viewDensity_top _ _)
  have hloc : ∀ D D' : Dict Col C.Cell, StateQueryOn s D E → (∀ c, s.Zv c = some p.1 →
      D.get? c = D'.get? c) → viewDensity p.2 (both D E) = viewDensity p.2 (both D' E) := by
    intro D D' hD he
    have hz : ∀ q ∈ p.2.dims, s.Zv q.1 = some p.1 := fun q hq =>
      ((h.views.view _ _ hp').dims q.1).mp (List.mem_map_of_mem hq)
    unfold viewDensity
    congr 1
    funext k
    refine rowDensity_local k (fun q hq => by unfold both; rw [he _ (hz q hq)]) fun q hq hn => ?_
    obtain ⟨x, hx⟩ := Option.ne_none_iff_exists'.mp hn
    refine (hD.columns q.1 ?_).2 q.2
      (h.dimFor_of_view hp' (Dict.get?_of_mem (h.views.view _ _ hp').inv.wf hq))
    unfold both at hx
    rcases Option.or_eq_some_iff.mp hx with hx | ⟨-, hx⟩
    · exact List.mem_append_left _ (Dict.mem_keys_of_get? hx)
    · exact List.mem_append_right _ (Dict.mem_keys_of_get? hx)
  have hgt : ∀ c, (T ++ T' : Dict Col C.Cell).get? c = (T.get? c).or (T'.get? c) := fun c =>
    Dict.get?_append _ _ _
  by_cases hA : Asked s T p.1
  · have hB : ¬ Asked s T' p.1 := by
      rintro ⟨c', hc', hz'⟩
      obtain ⟨c, hc, hz⟩ := hA
      exact hv c hc c' hc' (hz.trans hz'.symm)
    have hAB : Asked s (T ++ T') p.1 := by
      obtain ⟨c, hc, hz⟩ := hA
      exact ⟨c, by rw [hkk]; simp [hc], hz⟩
    rw [if_pos hA, if_neg hB, if_pos hAB, mul_one]
    rw [hloc (T ++ T') T hq fun c hz => by
      rw [hgt, (Dict.get?_eq_none_iff _ _).mpr fun hc => hB ⟨c, hc, hz⟩, Option.or_none]]
  · by_cases hB : Asked s T' p.1
    · have hAB : Asked s (T ++ T') p.1 := by
        obtain ⟨c, hc, hz⟩ := hB
        exact ⟨c, by rw [hkk]; simp [hc], hz⟩
      rw [if_neg hA, if_pos hB, if_pos hAB, one_mul]
      rw [hloc (T ++ T') T' hq fun c hz => by
        rw [hgt, (Dict.get?_eq_none_iff _ _).mpr fun hc => hA ⟨c, hc, hz⟩, Option.none_or]]
    · have hAB : ¬ Asked s (T ++ T') p.1 := by
        rintro ⟨c, hc, hz⟩
        rw [hkk] at hc
        rcases List.mem_append.mp hc with hc | hc
        · exact hA ⟨c, hc, hz⟩
        · exact hB ⟨c, hc, hz⟩
      rw [if_neg hA, if_neg hB, if_neg hAB, one_mul]

/-- **C16.** Constraints on columns of views without targets are not used. -/
theorem C16_other_views (hL : C.Lawful) (hR : StateReachable cfg s) (hr : NewRowId s rowid)
    {E' : Dict Col C.Cell} (hq : StateQueryOn s T E) (hq' : StateQueryOn s T E')
    (hd : ∀ c ∈ T.keys, c ∉ E.keys) (hd' : ∀ c ∈ T.keys, c ∉ E'.keys)
    (he : ∀ c v, s.Zv c = some v → Asked s T v → E.get? c = E'.get? c) :
    s.logpdf close ord beh ωj ωm false hooked rowid T E [] acc =
      s.logpdf close ord beh ωj ωm false hooked rowid T E' [] acc := by
  classical
  have h := hR.inv hL
  have hloc : ∀ v view, s.views.get? v = some view → Asked s T v →
      viewDensity view E.get? = viewDensity view E'.get? ∧
      viewDensity view (both T E) = viewDensity view (both T E') := by
    intro v view hv ha
    have hz : ∀ q ∈ view.dims, s.Zv q.1 = some v := fun q hq =>
      ((h.views.view _ _ hv).dims q.1).mp (List.mem_map_of_mem hq)
    have hin : ∀ q ∈ view.dims, q.1 ∈ T.keys ++ E.keys → q.2.inputs = [] := fun q hm hk =>
      (hq.columns q.1 hk).2 q.2
        (h.dimFor_of_view hv (Dict.get?_of_mem (h.views.view _ _ hv).inv.wf hm))
    unfold viewDensity
    constructor
    · congr 1
      funext k
      refine rowDensity_local k (fun q hq => he q.1 v (hz q hq) ha) fun q hq hn => ?_
      obtain ⟨x, hx⟩ := Option.ne_none_iff_exists'.mp hn
      exact hin q hq (List.mem_append_right _ (Dict.mem_keys_of_get? hx))
    · congr 1
      funext k
      refine rowDensity_local k (fun q hq => by unfold both; rw [he q.1 v (hz q hq) ha])
        fun q hq hn => ?_
      obtain ⟨x, hx⟩ := Option.ne_none_iff_exists'.mp hn
      unfold both at hx
      rcases Option.or_eq_some_iff.mp hx with hx | ⟨-, hx⟩
      · exact hin q hq (List.mem_append_left _ (Dict.mem_keys_of_get? hx))
      · exact hin q hq (List.mem_append_right _ (Dict.mem_keys_of_get? hx))
  have h1 := C16_state (close := close) (ord := ord) (beh := beh) (ωj := ωj)
    (ωm := ωm) (hooked := hooked) (acc := acc) hL hR hr hq hd
  have h2 := C16_state (close := close) (ord := ord) (beh := beh) (ωj := ωj)
    (ωm := ωm) (hooked := hooked) (acc := acc) hL hR hr hq' hd'
  by_cases h0 : ∃ v view, s.views.get? v = some view ∧ Asked s T v ∧ viewDensity view E.get? = 0
  · rw [h1.2 h0]
    obtain ⟨v, view, hv, ha, h0⟩ := h0
    rw [h2.2 ⟨v, view, hv, ha, by rw [← (hloc v view hv ha).1]; exact h0⟩]
  · push Not at h0
    obtain ⟨a, a1, a2, a3⟩ := h1.1 h0
    obtain ⟨b, b1, b2, b3⟩ := h2.1 fun v view hv ha => by
      rw [← (hloc v view hv ha).1]; exact h0 v view hv ha
    rw [a1, b1, C35_mass_determines a b a2 b2]
    rw [a3, b3]
    congr 1
    refine List.map_congr_left fun p hp => ?_
    split
    · rename_i ha
      obtain ⟨e1, e2⟩ := hloc p.1 p.2 (Dict.get?_of_mem h.views.wf hp) ha
      rw [e1, e2]
    · rfl

/-! ### C45 -/

theorem anyObserved_ok (h : State.Inv s) {r : Row} (hr : r < s.nRows) (l : List Col)
    (hl : ∀ c ∈ l, c ∈ s.outputs) :
    s.anyObserved r l = .ok (l.any fun c => (s.tbl c r).isSome) := by
  induction l with
  | nil => rfl
  | cons c t ih =>
    obtain ⟨l, h1⟩ := (h.data.mem c).mp (hl c (by simp))
    have h2 := h.data.len c l h1
    obtain ⟨x, h3⟩ : ∃ x, l[r]? = some x :=
      ⟨_, List.getElem?_eq_getElem (show r < l.length by rw [h2]; exact hr)⟩
    have h4 : s.tbl c r = x := by
      unfold State.tbl State.tblOf
      rw [h1, Option.bind_some, h3, Option.getD_some]
    simp only [State.anyObserved, h1, h3, List.any_cons, h4]
    cases x with
    | none => simpa using ih fun c hc => hl c (by simp [hc])
    | some y => rfl

theorem stateGood_iff {r : Row} (hE : E.WF) :
    (E.any fun p => !s.goodConstraint close r p.1 p.2) = false ↔ StateAgrees close s r E := by
  rw [List.any_eq_false]
  have hgood : ∀ c x, s.goodConstraint close r c x = true ↔
      (c ∈ s.outputs → ∀ y, s.tbl c r = some y → ∃ w, x = some w ∧ close y w) := by
    intro c x
    unfold State.goodConstraint
    by_cases hc : c ∈ s.outputs
    · simp only [List.contains_iff_mem, hc, if_true, forall_const]
      cases s.tbl c r with
      | none => simp
      | some y => cases x <;> simp
    · simp [hc]
  constructor
  · intro h c x hx hc
    have := h (c, x) (Dict.mem_of_get? hx)
    simp only [Bool.not_eq_true, Bool.not_eq_false'] at this
    exact (hgood c x).mp this hc
  · intro h p hp
    simp only [Bool.not_eq_true, Bool.not_eq_false']
    exact (hgood p.1 p.2).mpr fun hc => h p.1 p.2 (Dict.get?_of_mem hE hp) hc

theorem validate_old (h : State.Inv s) {r : Row} (hr : r < s.nRows)
    (hT : ∀ c ∈ T.keys, c ∈ s.outputs) :
    s.validateQuery close (some r) false T.keys E =
      if T.keys.any fun c => (s.tbl c r).isSome then .error .valueError
      else if T.keys.any fun t => E.has t then .error .valueError
      else if E.any fun p => !s.goodConstraint close r p.1 p.2 then .error .valueError
      else .ok () := by
  unfold State.validateQuery State.validateConstraints
  simp only [Bool.false_and, Bool.false_eq_true, if_false, state_hyp_old hr,
    anyObserved_ok h hr _ hT]
  cases T.keys.any fun c => (s.tbl c r).isSome <;> simp

/-- **C45.** In a query about a row of the State, a target whose cell is observed is refused. -/
theorem C45_state_observed (hL : C.Lawful) (hR : StateReachable cfg s) {r : Row} (hr : r < s.nRows)
    (hT : ∀ c ∈ T.keys, c ∈ s.outputs) {inputs : Dict Col C.Cell} {composite : Bool}
    (ho : ∃ c ∈ T.keys, s.tbl c r ≠ none) :
    s.logpdf close ord beh ωj ωm composite hooked (some r) T E inputs acc =
      .error .valueError := by
  have : (T.keys.any fun c => (s.tbl c r).isSome) = true := by
    obtain ⟨c, hc, h⟩ := ho
    exact List.any_eq_true.mpr ⟨c, hc, Option.isSome_iff_ne_none.mpr h⟩
  unfold State.logpdf
  rw [validate_old (hR.inv hL) hr hT, if_pos this]

/-- **C45.** A target that is also constrained is refused. -/
theorem C45_state_overlap (hL : C.Lawful) (hR : StateReachable cfg s)
    (hT : ∀ c ∈ T.keys, c ∈ s.outputs) {inputs : Dict Col C.Cell} {composite : Bool}
    (ho : ∃ c ∈ T.keys, c ∈ E.keys) :
    s.logpdf close ord beh ωj ωm composite hooked rowid T E inputs acc = .error .valueError := by
  have hany : (T.keys.any fun t => E.has t) = true := by
    obtain ⟨c, h1, h2⟩ := ho
    exact List.any_eq_true.mpr ⟨c, h1, (Dict.has_iff _ _).mpr h2⟩
  have hv : s.validateConstraints close rowid T.keys E = .error .valueError := by
    unfold State.validateConstraints
    rw [hany]; rfl
  have : s.validateQuery close rowid false T.keys E = .error .valueError := by
    cases rowid with
    | none =>
      have hh : s.hypothetical none = true := rfl
      simp only [State.validateQuery, Bool.false_and, Bool.false_eq_true, if_false, hv, hh]
    | some r =>
      by_cases hr : r < s.nRows
      · rw [validate_old (hR.inv hL) hr hT, hany]
        simp
      · have hh : s.hypothetical (some r) = true := by simp [State.hypothetical, hr]
        simp only [State.validateQuery, Bool.false_and, Bool.false_eq_true, if_false, hh, hv]
  unfold State.logpdf
  rw [this]

/-- **C45.** In a query about a row of the State, a constraint that contradicts an observed cell is
refused. -/
theorem C45_state_contradiction (hL : C.Lawful) (hR : StateReachable cfg s) {r : Row}
    (hr : r < s.nRows) (hT : ∀ c ∈ T.keys, c ∈ s.outputs) (hE : E.keys.Nodup)
    {inputs : Dict Col C.Cell} {composite : Bool} (ha : ¬ StateAgrees close s r E) :
    s.logpdf close ord beh ωj ωm composite hooked (some r) T E inputs acc =
      .error .valueError := by
  have : (E.any fun p => !s.goodConstraint close r p.1 p.2) = true := by
    by_contra h
    rw [Bool.not_eq_true] at h
    exact ha ((stateGood_iff hE).mp h)
  unfold State.logpdf
  rw [validate_old (hR.inv hL) hr hT, this]
  simp

/-- **C45.** A query about a row of the State, for unobserved cells and with constraints that agree
with the row: the answer is the product, over the views, of the density of the targets in the
cluster of the row, and nothing else. (Within a cluster columns are independent, so that neither
the other cells of the row nor the constraints matter.) -/
theorem C45_state_row (hL : C.Lawful) (hR : StateReachable cfg s) {r : Row} (hr : r < s.nRows)
    (hq : StateQueryOn s T E) (hd : ∀ c ∈ T.keys, c ∉ E.keys)
    (ho : ∀ c ∈ T.keys, s.tbl c r = none) (ha : StateAgrees close s r E) :
    ∃ ks : Nat → Tab, (∀ v view, s.views.get? v = some view → view.seat r = some (ks v)) ∧
      ∃ a, s.logpdf close ord beh ωj ωm false hooked (some r) T E [] acc = .ok a ∧ a ≠ .nan ∧
        mass a = (s.views.map fun p => rowDensity p.2 (ks p.1) T.get?).prod := by
  classical
  have h := hR.inv hL
  have hqT : ∀ c ∈ T.keys, c ∈ s.outputs ∧ ∀ d, s.dimFor c = .ok d → d.inputs = [] :=
    fun c hc => hq.columns c (List.mem_append_left _ hc)
  have hks : ∀ v view, s.views.get? v = some view → ∃ k, view.seat r = some k := fun v view hv =>
    Option.ne_none_iff_exists'.mp (((h.views.view v view hv).rows r).mpr hr)
  let ks : Nat → Tab := fun v => match s.views.get? v with
    | some view => (view.seat r).getD 0
    | none => 0
  have hks' : ∀ v view, s.views.get? v = some view → view.seat r = some (ks v) := by
    intro v view hv
    obtain ⟨k, hk⟩ := hks v view hv
    simp only [ks, hv, hk, Option.getD_some]
  refine ⟨ks, hks', ?_⟩
  have hval : s.validateQuery close (some r) false T.keys E = .ok () := by
    rw [validate_old h hr fun c hc => (hqT c hc).1]
    have h1 : (T.keys.any fun c => (s.tbl c r).isSome) = false := by
      rw [List.any_eq_false]; intro c hc; rw [ho c hc]; simp
    have h2 : (T.keys.any fun t => E.has t) = false := by
      rw [List.any_eq_false]
      intro t ht
      simp only [Bool.not_eq_true]
      exact (Dict.has_false_iff _ _).mpr ((Dict.get?_eq_none_iff _ _).mpr (hd t ht))
    rw [h1, h2, (stateGood_iff hq.evidence).mpr ha]
    rfl
  rw [logpdf_plain hval]
  obtain ⟨oT, t1, t2, t3, t4, t5⟩ := partition_groups h hq.targets fun c hc => (hqT c hc).1
  obtain ⟨oE, e1, e2, e3, e4, e5⟩ := partition_groups h hq.evidence fun c hc =>
    (hq.columns c (List.mem_append_right _ hc)).1
  have hst : s.stateLogpdf (some r) T E = s.sumViews (some r) oE oT (.fin 0) := by
    simp only [State.stateLogpdf, partitionQueryEvidenceDict, e1, t1]
  rw [hst]
  let m : Nat → ENNReal := fun v => match s.views.get? v with
    | some view => rowDensity view (ks v) T.get?
    | none => 1
  have hm : ∀ v view, s.views.get? v = some view → m v = rowDensity view (ks v) T.get? :=
    fun v view hv => by simp only [m, hv]
  obtain ⟨a, a1, a2, a3⟩ := sumViews_ok (s := s) (rowid := some r) (Ev := oE) (m := m) (l := oT)
    (acc := .fin 0) (by simp) (by simp [mass]) (fun p hp => by
      have hask := (t3 p.1).mp (List.mem_map_of_mem hp)
      have hg := t4 p.1
      rw [Dict.get?_of_mem t2 hp, Option.getD_some] at hg
      obtain ⟨c, -, hz⟩ := hask
      obtain ⟨view, hv⟩ := Dict.exists_of_mem_keys ((h.occ p.1).mpr ⟨c, hz⟩)
      have hI := (h.views.view _ _ hv).inv
      obtain ⟨w, w1, w2⟩ := logpdfRow_ok hI (ks p.1) hg.wf (groupOf_plain h hqT hv hg)
      refine ⟨view, Fl.ofLogP w, hv, ?_, (ofLogP_props w).1, ?_, ?_⟩
      · unfold fastLogpdf
        simp only [stateInv_hyp h hv, state_hyp_old hr, hks' _ _ hv, w1, Except.map]
      · rw [w2, groupOf_density h hqT hv hg, hm _ _ hv]
      · rw [hm _ _ hv]; exact rowDensity_fin _ _ _)
  refine ⟨a, a1, a2, ?_⟩
  rw [a3, prod_asked h t2 t3 (fun v view => rowDensity view (ks v) T.get?) m hm]
  have h0 : mass (.fin 0) = 1 := by simp [mass]
  rw [h0, one_mul]
  congr 1
  refine List.map_congr_left fun p hp => ?_
  split
  · rfl
  · rename_i hna
    have hv := Dict.get?_of_mem h.views.wf hp
    rw [rowDensity_local (D' := fun _ => none) (ks p.1) (fun q hq' => ?_) (fun q hq' hn => ?_),
      rowDensity_empty]
    · exact (Dict.get?_eq_none_iff _ _).mpr fun hc => hna ⟨q.1, hc,
        ((h.views.view _ _ hv).dims q.1).mp (List.mem_map_of_mem hq')⟩
    · obtain ⟨x, hx⟩ := Option.ne_none_iff_exists'.mp hn
      exact absurd ⟨q.1, Dict.mem_keys_of_get? hx,
        ((h.views.view _ _ hv).dims q.1).mp (List.mem_map_of_mem hq')⟩ hna

end

/-- **C16.** For the library's component types, a query about a new row is refused exactly when some
constraint on a column of a view with targets is outside the support of the type of the column. -/
theorem C16_state_refusal {P : Prim → Prop} {close : ℝ → ℝ → Bool} {ord : PyOrder}
    {beh : ViewBehaviour (catOf P) Ω} {ωj ωm : Nat → Nat → Ω} {cfg : Cfg (catOf P)}
    {s : State (catOf P)} {hooked : Dict Nat (NetCgpm (Option Row) (Val (catOf P)) Ω)}
    {rowid : Option Row} {T E : Dict Col (catOf P).Cell} {acc : Option Nat}
    (hR : StateReachable cfg s) (hr : NewRowId s rowid) (hq : StateQueryOn s T E)
    (hd : ∀ c ∈ T.keys, c ∉ E.keys) :
    s.logpdf close ord beh ωj ωm false hooked rowid T E [] acc = .error .valueError ↔
      ∃ c, ∃ x : ℝ, ∃ d v, E.get? c = some (some x) ∧ s.dimFor c = .ok d ∧ ¬ support d.kind.1 x ∧
        s.Zv c = some v ∧ Asked s T v := by
  have h := hR.inv (catOf_lawful P)
  have h16 := C16_state (close := close) (ord := ord) (beh := beh) (ωj := ωj)
    (ωm := ωm) (hooked := hooked) (acc := acc) (catOf_lawful P) hR hr hq hd
  constructor
  · intro he
    by_contra hn
    obtain ⟨r, hr', -⟩ := h16.1 fun v view hv ha h0 => by
      obtain ⟨c, d, x, g1, g2, -, g3⟩ := (inv_refusal (h.views.view v view hv).inv E.get?).mp h0
      exact hn ⟨c, x, d, v, g2, h.dimFor_of_view hv g1, g3,
        ((h.views.view v view hv).dims c).mp (Dict.mem_keys_of_get? g1), ha⟩
    rw [hr'] at he; cases he
  · rintro ⟨c, x, d, v, g1, g2, g3, g4, ha⟩
    obtain ⟨v', view, k1, k2, k3⟩ := State.dimFor_ok g2
    rw [g4] at k1; cases k1
    refine h16.2 ⟨v, view, k2, ha, (inv_refusal (h.views.view v view k2).inv E.get?).mpr
      ⟨c, d, x, k3, g1, ?_, g3⟩⟩
    rw [(hq.columns c (List.mem_append_right _ (Dict.mem_keys_of_get? g1))).2 d g2]
    simp

/-! ### C17 -/

open Classical in
theorem prod_map_single {V : Type} {D : Dict Nat V} (hw : D.WF) {v : Nat} {w : V}
    (h : D.get? v = some w) {P : Nat → Prop} (hP : ∀ i, P i ↔ i = v) (F : V → ENNReal) :
    (D.map fun p => if P p.1 then F p.2 else 1).prod = F w := by
  induction D with
  | nil => cases h
  | cons p t ih =>
    rw [Dict.get?_cons] at h
    have hw' : Dict.WF t := (List.nodup_cons.mp hw).2
    simp only [List.map_cons, List.prod_cons]
    split at h
    · rename_i e
      cases h
      rw [if_pos ((hP _).mpr e)]
      have : (t.map fun q => if P q.1 then F q.2 else 1) = t.map fun _ => 1 := by
        refine List.map_congr_left fun q hq => if_neg fun hh => ?_
        rw [hP] at hh
        exact (List.nodup_cons.mp hw).1 (by
          rw [e, ← hh]; exact List.mem_map_of_mem hq)
      rw [this]
      simp
    · rename_i e
      rw [if_neg (fun hh => e ((hP _).mp hh)), one_mul, ih hw' h]

/-- **C17.** For a discrete column of a State, a new row, and constraints of positive density in the
view of the column: the exponentiated densities returned for the possible values of the column sum
to 1. -/
theorem C17_state {P : Prim → Prop} {close : ℝ → ℝ → Bool} {ord : PyOrder}
    {beh : ViewBehaviour (catOf P) Ω} {ωj ωm : Nat → Nat → Ω} {cfg : Cfg (catOf P)}
    {s : State (catOf P)} {hooked : Dict Nat (NetCgpm (Option Row) (Val (catOf P)) Ω)}
    {rowid : Option Row} {E : Dict Col (catOf P).Cell} {acc : Option Nat}
    (hR : StateReachable cfg s) (hr : NewRowId s rowid) {c : Col} {v : Nat} {view : View (catOf P)}
    {d : Dim (catOf P)} (hz : s.Zv c = some v) (hv : s.views.get? v = some view)
    (hd : s.dimFor c = .ok d) (hp : discrete d.kind.1)
    (hq : ∀ x : ℝ, StateQueryOn s [(c, some x)] E) (hc : c ∉ E.keys)
    (hE : viewDensity view E.get? ≠ 0) (r : ℝ → Fl)
    (hr' : ∀ x, support d.kind.1 x →
      s.logpdf close ord beh ωj ωm false hooked rowid [(c, some x)] E [] acc = .ok (r x)) :
    ∑' x : {x : ℝ // support d.kind.1 x}, mass (r x) = 1 := by
  classical
  have hL := catOf_lawful P
  have h := hR.inv hL
  have hI := (h.views.view v view hv).inv
  have hdm : view.dims.get? c = some d := by
    obtain ⟨v', view', h1, h2, h3⟩ := State.dimFor_ok hd
    rw [hz] at h1; cases h1
    rw [hv] at h2; cases h2
    exact h3
  have hi : d.inputs = [] := ((hq 0).columns c (by simp [Dict.keys])).2 d hd
  have hask : ∀ (x : ℝ) (i : Nat), Asked s [(c, some x)] i ↔ i = v := by
    intro x i
    constructor
    · rintro ⟨c', hc', hz'⟩
      simp only [Dict.keys, List.map_cons, List.map_nil, List.mem_singleton] at hc'
      rw [hc', hz] at hz'
      exact (Option.some.inj hz').symm
    · rintro rfl
      exact ⟨c, by simp [Dict.keys], hz⟩
  have hdis : ∀ x : ℝ, ∀ c' ∈ Dict.keys [(c, (some x : (catOf P).Cell))], c' ∉ E.keys := by
    intro x c' hc'
    simp only [Dict.keys, List.map_cons, List.map_nil, List.mem_singleton] at hc'
    rw [hc']; exact hc
  have hval : ∀ x, support d.kind.1 x → mass (r x) =
      (mixture view fun k => cellDensity d k (some x) [] * rowDensity view k E.get?) *
        (viewDensity view E.get?)⁻¹ := by
    intro x hx
    obtain ⟨a, a1, a2, a3⟩ := (C16_state (close := close) (ord := ord) (beh := beh) (ωj := ωj)
      (ωm := ωm) (hooked := hooked) (acc := acc) hL hR hr (hq x) (hdis x)).1 (by
        intro i w hi ha
        rw [(hask x i).mp ha, hv] at hi
        cases hi
        exact hE)
    rw [hr' x hx] at a1
    cases a1
    rw [a3, prod_map_single h.views.wf hv (hask x)
      (fun w => viewDensity w (both [(c, some x)] E) / viewDensity w E.get?),
      viewDensity_both h (hq x) (hdis x) hv, div_eq_mul_inv]
    congr 2
    funext k
    congr 1
    refine Eq.trans (rowDensity_plain hI k (by simp [Dict.WF, Dict.keys]) (fun c' hc' => by
      simp only [Dict.keys, List.map_cons, List.map_nil, List.mem_singleton] at hc'
      subst hc'; exact ⟨d, hdm, hi⟩)) ?_
    simp [hdm]
  refine (tsum_congr fun x : {x : ℝ // support d.kind.1 x} => hval x.1 x.2).trans ?_
  rw [ENNReal.tsum_mul_right]
  have hsum : ∑' x : {x : ℝ // support d.kind.1 x},
      (mixture view fun k => cellDensity d k (some x.1) [] * rowDensity view k E.get?) =
      viewDensity view E.get? := by
    unfold viewDensity mixture
    rw [ENNReal.tsum_add, Summable.tsum_finsetSum fun _ _ => ENNReal.summable]
    simp only [ENNReal.tsum_mul_left, ENNReal.tsum_mul_right, cell_tsum hI hdm hi hp, one_mul]
  rw [hsum, ENNReal.mul_inv_cancel hE (viewDensity_top view _)]

/-! The hypotheses can be met. -/

theorem demo_query {s : State libCat} {p : Prim} {hy : p.H} (ho : s.outputs = [0, 1])
    (hp : ∀ c d, s.dimFor c = .ok d → d.kind = ⟨p, trivial⟩ ∧ d.inputs = [] ∧ d.hyp = ⟨p, hy⟩)
    (T E : Dict Col libCat.Cell) (hT : T.keys.Nodup) (hE : E.keys.Nodup)
    (hk : ∀ c ∈ T.keys ++ E.keys, c ∈ [0, 1]) : StateQueryOn s T E :=
  ⟨hT, hE, fun c hc => ⟨by rw [ho]; exact hk c hc, fun d hd => (hp c d hd).2.1⟩⟩

/-- A State with two bernoulli columns in different views: a query about a new row, for both
columns and for one given the other. -/
example : ∃ s : State libCat, StateReachable plainCfg s ∧ NewRowId s none ∧ NewRowId s (some 2) ∧
    StateQueryOn s [(0, some (1 : ℝ))] [(1, some (0 : ℝ))] ∧
    StateQueryOn s ([(0, some (1 : ℝ))] ++ [(1, some (0 : ℝ))] : Dict Col libCat.Cell) [] ∧ s.Zv 0 ≠ s.Zv 1 ∧
    stateDensity s (Dict.get? [(1, some (0 : ℝ))]) ≠ 0 ∧
    (∀ c d, s.dimFor c = .ok d → d.inputs = [] ∧ discrete d.kind.1) ∧
    (∀ c ∈ s.outputs, c < 10 ^ 7) := by
  obtain ⟨s, h1, h2, h3, h4, h5, h6, h7, h8, -, -, h11, h12⟩ :=
    stateDemo_init bernoulli_remembered_one bernoulli_hyp (a := 0) (b := 1)
      (by decide) [] []
  refine ⟨s, h1, (fun r h => by cases h), (fun r h => by cases h; rw [h5]), ?_, ?_, ?_, ?_, ?_, ?_⟩
  · exact demo_query h4 h12 _ _ (by simp [Dict.keys]) (by simp [Dict.keys]) (by simp [Dict.keys])
  · exact demo_query h4 h12 [(0, some (1 : ℝ)), (1, some (0 : ℝ))] [] (by simp [Dict.keys])
      (by simp [Dict.keys]) (by simp [Dict.keys])
  · rw [h6, h7]; simp
  · intro h0
    unfold stateDensity at h0
    rw [List.prod_eq_zero_iff] at h0
    obtain ⟨p, hp, e⟩ := List.mem_map.mp h0
    have hv := Dict.get?_of_mem h2.views.wf hp
    obtain ⟨c, d, x, g1, g2, -, g3⟩ := (inv_refusal (h2.views.view _ _ hv).inv _).mp e
    rw [(h12 c d (h2.dimFor_of_view hv g1)).1] at g3
    rw [Dict.get?_cons] at g2
    split at g2
    · cases g2; exact g3 (Or.inl rfl)
    · cases g2
  · intro c d hd
    obtain ⟨k1, k2, k3⟩ := h12 c d hd
    exact ⟨k2, by rw [k1]; trivial⟩
  · rw [h4]; simp

/-- Two columns in one view, and a constraint of density zero: the query is refused. -/
example : ∃ s : State libCat, StateReachable plainCfg s ∧
    StateQueryOn s [(0, some (1 : ℝ))] [(1, some (7 : ℝ))] ∧
    ∃ v view, s.views.get? v = some view ∧ Asked s [(0, some (1 : ℝ))] v ∧
      viewDensity view (Dict.get? [(1, some (7 : ℝ))]) = 0 := by
  obtain ⟨s, h1, h2, h3, h4, h5, h6, h7, h8, h9, h10⟩ :=
    stateDemoOne_init bernoulli_remembered_one bernoulli_hyp
  refine ⟨s, h1, demo_query h4 h10 _ _ (by simp [Dict.keys]) (by simp [Dict.keys])
    (by simp [Dict.keys]), ?_⟩
  obtain ⟨v, view, d, k1, k2, k3, k4, k5, -⟩ := h2.dim (c := 1) (by rw [h4]; simp)
  rw [h7] at k1; cases k1
  refine ⟨0, view, k2, ⟨0, by simp [Dict.keys], h6⟩, (inv_refusal k5.inv _).mpr
    ⟨1, d, 7, k3, rfl, ?_, ?_⟩⟩
  · rw [(h10 1 d k4).2.1]; simp
  · rw [(h10 1 d k4).1]; simp [support]

/-- A query about row 0, whose cell in column 1 is missing: constraints that agree with the row and
constraints that do not. -/
example : ∃ s : State libCat, StateReachable plainCfg s ∧ 0 < s.nRows ∧
    StateQueryOn s [(1, some (1 : ℝ))] [(0, some (1 : ℝ))] ∧
    (∀ c ∈ Dict.keys [(1, (some 1 : Option ℝ))], s.tbl c 0 = none) ∧ s.tbl 0 0 ≠ none ∧
    StateAgrees (fun a b => decide ((a : ℝ) = b)) s 0 [(0, some (1 : ℝ))] ∧
    ¬ StateAgrees (fun a b => decide ((a : ℝ) = b)) s 0 [(0, some (0 : ℝ))] := by
  obtain ⟨s, h1, h2, h3, h4, h5, h6, h7, h8, -, -, h11, h12⟩ :=
    stateDemo_init bernoulli_remembered_one bernoulli_hyp (a := 0) (b := 1)
      (by decide) [] []
  have ht : s.tbl 0 0 = some (1 : ℝ) := by unfold State.tbl; rw [h3]; rfl
  have ht1 : s.tbl 1 0 = none := by unfold State.tbl; rw [h3]; rfl
  refine ⟨s, h1, by rw [h5]; norm_num,
    demo_query h4 h12 _ _ (by simp [Dict.keys]) (by simp [Dict.keys]) (by simp [Dict.keys]), ?_,
    by rw [ht]; exact Option.some_ne_none _, ?_, ?_⟩
  · intro c hc
    simp only [Dict.keys, List.map_cons, List.map_nil, List.mem_singleton] at hc
    rw [hc, ht1]
  · intro c x hx _ y hy
    rw [Dict.get?_cons] at hx
    split at hx
    · rename_i e
      cases hx
      have hy' : some (1 : ℝ) = some y := by
        rw [← hy, ← ht]
        exact congrArg (fun c => s.tbl c 0) e
      cases hy'
      exact ⟨(1 : ℝ), rfl, decide_eq_true rfl⟩
    · cases hx
  · intro h
    obtain ⟨w, hw, hc⟩ := h 0 (some (0 : ℝ)) rfl (by rw [h4]; simp) (1 : ℝ) ht
    cases hw
    exact absurd (of_decide_eq_true hc) one_ne_zero

end Cgpm.Props
