import Verif.Props.Mutual
import Verif.Props.StateLogpdf

/-! C47 for a State without composed models: the blocks are the parts of the query in the views, and
splitting the query is exact. -/
namespace Cgpm.Props
open Cgpm Cgpm.Net Cgpm.Mutual Cgpm.State Cgpm.View
variable {C : Cat} {Ω : Type} {cfg : Cfg C} {s : State C} {beh : ViewBehaviour C Ω}

/-- **C47.** Two columns of a State without composed models are connected exactly when they are in
the same view. -/
theorem C47_views (hL : C.Lawful) (hR : StateReachable cfg s) (hlt : ∀ c ∈ s.outputs, c < 10 ^ 7)
    {u v : Nat} (hu : u ∈ s.outputs) (hv : v ∈ s.outputs) :
    Connected (s.buildCgpms beh []) u v ↔ s.Zv u = s.Zv v := by
  have h := hR.inv hL
  have hmem : ∀ c ∈ s.buildCgpms beh [], ∃ w view, (w, view) ∈ s.views ∧ c = viewCgpm beh w view := by
    intro c hc
    rcases mem_buildCgpms.mp hc with h' | h'
    · exact h'
    · simp [Dict.vals] at h'
  have hz : ∀ w view, (w, view) ∈ s.views → ∀ x ∈ s.outputs, x ∈ (viewCgpm beh w view).outputs →
      s.Zv x = some w := by
    intro w view hm x hx ho
    simp only [viewCgpm, List.mem_cons, State.token] at ho
    rcases ho with ho | ho
    · have := hlt x hx; rw [ho] at this; exact absurd this (Nat.not_lt.mpr (Nat.le_add_right _ _))
    · exact ((h.views.view w view (Dict.get?_of_mem h.views.wf hm)).dims x).mp ho
  constructor
  · rintro ⟨i, j, a, b, ha, hua, hb, hvb, hij⟩
    have : i = j := by
      clear ha hua hb hvb
      induction hij with
      | rel i j hf =>
        obtain ⟨a, b, -, hb, w, -, hw⟩ := hf
        obtain ⟨w', view, -, rfl⟩ := hmem b (List.mem_of_getElem? hb)
        cases hw
      | refl i => rfl
      | symm i j _ ih => exact ih.symm
      | trans i j k _ _ ih ih' => exact ih.trans ih'
    subst this
    rw [ha] at hb
    cases hb
    obtain ⟨w, view, hm, rfl⟩ := hmem a (List.mem_of_getElem? ha)
    rw [hz w view hm u hu hua, hz w view hm v hv hvb]
  · intro he
    obtain ⟨w, hw⟩ := Option.ne_none_iff_exists'.mp ((h.cols u).mpr hu)
    obtain ⟨view, hview⟩ := Dict.exists_of_mem_keys ((h.occ w).mpr ⟨u, hw⟩)
    have hd := (h.views.view w view hview).dims
    have hc : viewCgpm beh w view ∈ s.buildCgpms beh [] :=
      mem_buildCgpms.mpr (.inl ⟨w, view, Dict.mem_of_get? hview, rfl⟩)
    obtain ⟨i, hi⟩ := List.mem_iff_getElem?.1 hc
    exact ⟨i, i, _, _, hi, List.mem_cons_of_mem _ ((hd u).mpr hw), hi,
      List.mem_cons_of_mem _ ((hd v).mpr (he ▸ hw)), .refl i⟩

/-- **C47.** In a State without composed models, the mutual information of columns from different
views is exactly 0, with any constraints. -/
theorem C47_different_views {scipy : Nat → (Nat → Nat → Bool) → List Nat} (hs : WeakLabels scipy)
    (hL : C.Lawful) (hR : StateReachable cfg s) (hlt : ∀ c ∈ s.outputs, c < 10 ^ 7)
    {col0 col1 : List Nat} {constraints : Dict Nat (Option (Val C))} (hw : constraints.WF)
    (hc : ∀ c, c ∈ col0 ∨ c ∈ col1 ∨ c ∈ constraints.keys → c ∈ s.outputs)
    (hcon : ∀ c ∈ col0 ++ col1, c ∉ constraints.keys)
    (hz : ∀ u ∈ col0, ∀ v ∈ col1, s.Zv u ≠ s.Zv v) (m : MiModel (Val C)) (T N : Option Nat) :
    mutualInformation scipy (s.buildCgpms beh []) m col0 col1 constraints T N = .ok (.fin 0) := by
  have h := hR.inv hL
  have hwf : WellFormed (s.buildCgpms beh []) := h.wellFormed beh id hlt (by simp [Dict.vals])
    (by simp [Dict.vals]) (by simp [Dict.vals]) (by simp [Dict.vals])
  refine C47_zero hs hwf hw (fun v hv => ?_) ⟨hcon, .inl fun c h0 h1 => hz c h0 c h1 rfl⟩ m T N
    fun u hu v hv hcn => hz u hu v hv
      ((C47_views hL hR hlt (hc u (.inl hu)) (hc v (.inr (.inl hv)))).1 hcn)
  obtain ⟨i, _, a, _, h1, h2, -⟩ := (C47_views (beh := beh) hL hR hlt (hc v hv) (hc v hv)).2 rfl
  exact ⟨a, List.mem_of_getElem? h1, h2⟩

/-! ### Splitting the query is exact -/

/-- SPEC. The part of `D` in view `v`. -/
def onView (s : State C) (v : Nat) (D : Dict Col C.Cell) : Dict Col C.Cell :=
  D.filter fun p => s.Zv p.1 = some v

theorem onView_get? (v : Nat) (D : Dict Col C.Cell) (c : Col) :
    (onView s v D).get? c = if s.Zv c = some v then D.get? c else none := by
  unfold onView
  induction D with
  | nil => simp
  | cons p t ih =>
    by_cases hp : s.Zv p.1 = some v
    · rw [List.filter_cons_of_pos (by simpa using hp), Dict.get?_cons, Dict.get?_cons, ih]
      by_cases e : p.1 = c
      · subst e; simp [hp]
      · simp [e]
    · rw [List.filter_cons_of_neg (by simpa using hp), ih, Dict.get?_cons]
      by_cases e : p.1 = c
      · subst e; simp [hp]
      · simp [e]

theorem onView_keys {v : Nat} {D : Dict Col C.Cell} {c : Col} :
    c ∈ (onView s v D).keys ↔ c ∈ D.keys ∧ s.Zv c = some v := by
  unfold onView Dict.keys
  simp only [List.mem_map, List.mem_filter, decide_eq_true_eq]
  constructor
  · rintro ⟨p, ⟨h1, h2⟩, rfl⟩; exact ⟨⟨p, h1, rfl⟩, h2⟩
  · rintro ⟨⟨p, h1, rfl⟩, h2⟩; exact ⟨p, ⟨h1, h2⟩, rfl⟩

theorem onView_query {T E : Dict Col C.Cell} (hq : StateQueryOn s T E) (v : Nat) :
    StateQueryOn s (onView s v T) (onView s v E) := by
  refine ⟨?_, ?_, fun c hc => hq.columns c ?_⟩
  · exact (List.Sublist.map _ List.filter_sublist).nodup hq.targets
  · exact (List.Sublist.map _ List.filter_sublist).nodup hq.evidence
  · rcases List.mem_append.1 hc with hc | hc
    · exact List.mem_append_left _ (onView_keys.1 hc).1
    · exact List.mem_append_right _ (onView_keys.1 hc).1

theorem both_keys {T E : Dict Col C.Cell} {c : Col} (h : both T E c ≠ none) : c ∈ T.keys ++ E.keys := by
  obtain ⟨x, hx⟩ := Option.ne_none_iff_exists'.mp h
  unfold both at hx
  rcases Option.or_eq_some_iff.mp hx with hx | ⟨-, hx⟩
  · exact List.mem_append_left _ (Dict.mem_keys_of_get? hx)
  · exact List.mem_append_right _ (Dict.mem_keys_of_get? hx)

theorem both_plain (h : State.Inv s) {T E : Dict Col C.Cell} (hq : StateQueryOn s T E) {v : Nat}
    {view : View C} (hv : s.views.get? v = some view) :
    ∀ p ∈ view.dims, both T E p.1 ≠ none → p.2.inputs = [] := fun p hp hn =>
  (hq.columns p.1 (both_keys hn)).2 p.2
    (h.dimFor_of_view hv (Dict.get?_of_mem (h.views.view _ _ hv).inv.wf hp))

theorem viewDensity_mono {view : View C} {D D' : Col → Option C.Cell}
    (hp : ∀ p ∈ view.dims, D p.1 ≠ none → p.2.inputs = [])
    (hs : ∀ c, D' c = none ∨ D' c = D c) (h : viewDensity view D ≠ 0) : viewDensity view D' ≠ 0 := by
  have hrow : ∀ k, rowDensity view k D ≠ 0 → rowDensity view k D' ≠ 0 := by
    intro k hk
    unfold rowDensity at hk ⊢
    rw [Ne, List.prod_eq_zero_iff] at hk ⊢
    intro h0
    refine hk ?_
    obtain ⟨p, hp', e⟩ := List.mem_map.mp h0
    refine List.mem_map.mpr ⟨p, hp', ?_⟩
    rcases hs p.1 with hn | he
    · rw [hn] at e; simp at e
    · rw [he] at e
      cases hd : D p.1 with
      | none => rw [hd] at e; simp at e
      | some x =>
        rw [hd] at e
        simp only [hp p hp' (by rw [hd]; simp), List.map_nil] at e ⊢
        exact e
  unfold viewDensity mixture at h ⊢
  intro h0
  rw [add_eq_zero, Finset.sum_eq_zero_iff] at h0
  refine h ?_
  rw [add_eq_zero, Finset.sum_eq_zero_iff]
  have key : ∀ k, prior view k * rowDensity view k D' = 0 → prior view k * rowDensity view k D = 0 := by
    intro k hk
    rcases mul_eq_zero.1 hk with hk | hk
    · rw [hk, zero_mul]
    · by_cases h' : rowDensity view k D = 0
      · rw [h', mul_zero]
      · exact absurd hk (hrow k h')
  exact ⟨fun k hk => key k (h0.1 k hk), key _ h0.2⟩

theorem viewDensity_same (h : State.Inv s) {T E : Dict Col C.Cell} (hq : StateQueryOn s T E) {v : Nat}
    {view : View C} (hv : s.views.get? v = some view) {D : Col → Option C.Cell}
    (he : ∀ c, s.Zv c = some v → both T E c = D c) :
    viewDensity view (both T E) = viewDensity view D := by
  unfold viewDensity
  congr 1
  funext k
  exact rowDensity_local k (fun p hp => he p.1
    (((h.views.view v view hv).dims p.1).mp (List.mem_map_of_mem hp))) (both_plain h hq hv)

/-- What a view contributes to the log density. -/
noncomputable def viewTerm (T E : Dict Col C.Cell) (view : View C) : ℝ :=
  Real.log (viewDensity view (both T E)).toReal - Real.log (viewDensity view E.get?).toReal

section
variable {close : C.V → C.V → Bool} {ord : PyOrder} {ωj ωm : Nat → Nat → Ω}
  {hooked : Dict Nat (NetCgpm (Option Row) (Val C) Ω)} {rowid : Option Row} {acc : Option Nat}

theorem log_list_prod (l : List ENNReal) (h0 : ∀ x ∈ l, x ≠ 0) (ht : ∀ x ∈ l, x ≠ ⊤) :
    Real.log l.prod.toReal = (l.map fun x => Real.log x.toReal).sum := by
  induction l with
  | nil => simp
  | cons a t ih =>
    rw [List.prod_cons, ENNReal.toReal_mul, Real.log_mul, ih (fun x hx => h0 x (by simp [hx]))
      (fun x hx => ht x (by simp [hx])), List.map_cons, List.sum_cons]
    · exact ENNReal.toReal_ne_zero.2 ⟨h0 a (by simp), ht a (by simp)⟩
    · refine ENNReal.toReal_ne_zero.2 ⟨?_, list_prod_ne_top _ fun x hx => ht x (by simp [hx])⟩
      rw [Ne, List.prod_eq_zero_iff]
      exact fun h => h0 0 (by simp [h]) rfl

theorem logpdf_terms (hL : C.Lawful) (hR : StateReachable cfg s) (hr : NewRowId s rowid)
    {T E : Dict Col C.Cell} (hq : StateQueryOn s T E) (hd : ∀ c ∈ T.keys, c ∉ E.keys)
    (hpos : stateDensity s (both T E) ≠ 0) :
    s.logpdf close ord beh ωj ωm false hooked rowid T E [] acc =
      .ok (.fin (s.views.map fun p => viewTerm T E p.2).sum) := by
  have h := hR.inv hL
  have hTE := stateDensity_pos hpos
  have hE : ∀ p ∈ s.views, viewDensity p.2 E.get? ≠ 0 := fun p hp => by
    refine viewDensity_mono (both_plain h hq (Dict.get?_of_mem h.views.wf hp)) (fun c => ?_) (hTE p hp)
    by_cases hc : E.get? c = none
    · exact .inl hc
    · right
      unfold both
      have hk : c ∈ E.keys := by
        obtain ⟨x, hx⟩ := Option.ne_none_iff_exists'.mp hc
        exact Dict.mem_keys_of_get? hx
      rw [(Dict.get?_eq_none_iff _ _).mpr fun hT => hd c hT hk, Option.none_or]
  have hE0 : stateDensity s E.get? ≠ 0 := by
    unfold stateDensity
    rw [Ne, List.prod_eq_zero_iff]
    intro h0
    obtain ⟨p, hp, e⟩ := List.mem_map.1 h0
    exact hE p hp e
  have htop : ∀ D, stateDensity s D ≠ ⊤ := fun D => list_prod_ne_top _ fun x hx => by
    obtain ⟨p, -, rfl⟩ := List.mem_map.1 hx
    exact viewDensity_top _ _
  obtain ⟨r, r1, r2, r3⟩ := C16_state_density (close := close) (ord := ord) (beh := beh) (ωj := ωj)
    (ωm := ωm) (hooked := hooked) (acc := acc) hL hR hr hq hd hE0
  obtain ⟨x, rfl⟩ := mass_fin_of r2 (by rw [r3]; exact ENNReal.div_ne_zero.2 ⟨hpos, htop _⟩)
    (by rw [r3]; exact ENNReal.div_ne_top (htop _) hE0)
  rw [r1]
  congr 2
  have hx : x = Real.log (stateDensity s (both T E) / stateDensity s E.get?).toReal := by
    rw [← r3]; simp [mass, ENNReal.toReal_ofReal (Real.exp_pos x).le]
  have hlog : ∀ D, (∀ p ∈ s.views, viewDensity p.2 D ≠ 0) → Real.log (stateDensity s D).toReal =
      (s.views.map fun p => Real.log (viewDensity p.2 D).toReal).sum := by
    intro D hD
    unfold stateDensity
    rw [log_list_prod, List.map_map]
    · rfl
    · intro x hx; obtain ⟨p, hp, rfl⟩ := List.mem_map.1 hx; exact hD p hp
    · intro x hx; obtain ⟨p, hp, rfl⟩ := List.mem_map.1 hx; exact viewDensity_top _ _
  rw [hx, ENNReal.toReal_div, Real.log_div (ENNReal.toReal_ne_zero.2 ⟨hpos, htop _⟩)
    (ENNReal.toReal_ne_zero.2 ⟨hE0, htop _⟩), hlog _ hTE, hlog _ hE]
  unfold viewTerm
  generalize s.views = l
  induction l with
  | nil => simp
  | cons a t ih => simp only [List.map_cons, List.sum_cons]; rw [← ih]; ring

theorem sum_views_single {l : Dict Nat (View C)} (hw : l.WF) {v : Nat} {view : View C}
    (h : (v, view) ∈ l) (f : Nat × View C → ℝ) (h0 : ∀ p ∈ l, p.1 ≠ v → f p = 0) :
    (l.map f).sum = f (v, view) := by
  induction l with
  | nil => cases h
  | cons p t ih =>
    have hnd : p.1 ∉ t.map Prod.fst ∧ Dict.WF t := by simpa [Dict.WF, Dict.keys] using hw
    rw [List.map_cons, List.sum_cons]
    rcases List.mem_cons.1 h with rfl | h
    · have : (t.map f).sum = 0 := List.sum_eq_zero fun x hx => by
        obtain ⟨q, hq, rfl⟩ := List.mem_map.1 hx
        refine h0 q (by simp [hq]) fun e => hnd.1 ?_
        exact List.mem_map.2 ⟨q, hq, e⟩
      rw [this, add_zero]
    · rw [ih hnd.2 h fun q hq => h0 q (by simp [hq]), h0 p (by simp), zero_add]
      intro e
      exact hnd.1 (by rw [e]; exact List.mem_map_of_mem h)

theorem logpdf_onView (hL : C.Lawful) (hR : StateReachable cfg s) (hr : NewRowId s rowid)
    {T E : Dict Col C.Cell} (hq : StateQueryOn s T E) (hd : ∀ c ∈ T.keys, c ∉ E.keys)
    (hpos : stateDensity s (both T E) ≠ 0) {v : Nat} {view : View C} (hv : (v, view) ∈ s.views) :
    s.logpdf close ord beh ωj ωm false hooked rowid (onView s v T) (onView s v E) [] acc =
      .ok (.fin (viewTerm T E view)) := by
  have h := hR.inv hL
  have hq' := onView_query hq v
  have hb : ∀ c, both (onView s v T) (onView s v E) c = if s.Zv c = some v then both T E c else none := by
    intro c
    unfold both
    rw [onView_get?, onView_get?]
    split <;> rfl
  have hpos' : stateDensity s (both (onView s v T) (onView s v E)) ≠ 0 := by
    unfold stateDensity
    rw [Ne, List.prod_eq_zero_iff]
    intro h0
    obtain ⟨p, hp, e⟩ := List.mem_map.1 h0
    refine viewDensity_mono (both_plain h hq (Dict.get?_of_mem h.views.wf hp)) (fun c => ?_)
      (stateDensity_pos hpos p hp) e
    rw [hb]
    split
    · exact .inr rfl
    · exact .inl rfl
  rw [logpdf_terms hL hR hr hq' (fun c hc hc' => hd c (onView_keys.1 hc).1 (onView_keys.1 hc').1) hpos',
    sum_views_single h.views.wf hv]
  · congr 2
    unfold viewTerm
    have hv' := Dict.get?_of_mem h.views.wf hv
    have e1 : viewDensity view (both T E) = viewDensity view (both (onView s v T) (onView s v E)) :=
      viewDensity_same h hq hv' fun c hc => by rw [hb, if_pos hc]
    have e2 : viewDensity view E.get? = viewDensity view (onView s v E).get? := by
      have hqE : StateQueryOn s [] E := ⟨by simp [Dict.keys], hq.evidence, fun c hc =>
        hq.columns c (by simpa [Dict.keys] using Or.inr (by simpa [Dict.keys] using hc))⟩
      have := viewDensity_same h hqE hv' (D := (onView s v E).get?) fun c hc => by
        rw [onView_get?, if_pos hc]; simp [both]
      rw [← this]
      congr 1
    rw [e1, e2]
  · intro p hp hne
    unfold viewTerm
    rw [viewDensity_unasked h hq' (Dict.get?_of_mem h.views.wf hp), sub_self]
    rintro ⟨c, hc, hz⟩
    rw [(onView_keys.1 hc).2] at hz
    exact hne (Option.some.inj hz).symm

open Classical in
/-- **C47.** In a State without composed models, splitting a query by views is exact: for any row with
positive density, the log density of both targets minus those of the two targets alone is the sum of
the same quantity over the views that have targets on both sides, with only the constraints in the
view; the views with targets on one side contribute nothing. -/
theorem C47_exact (hL : C.Lawful) (hR : StateReachable cfg s) (hr : NewRowId s rowid)
    {T0 T1 E : Dict Col C.Cell} (hq : StateQueryOn s (T0 ++ T1) E)
    (hd : ∀ c ∈ (T0 ++ T1 : Dict Col C.Cell).keys, c ∉ E.keys)
    (hpos : stateDensity s (both (T0 ++ T1) E) ≠ 0) :
    ∃ (pxy px py : ℝ) (pxyOn pxOn pyOn : Nat → ℝ),
      s.logpdf close ord beh ωj ωm false hooked rowid (T0 ++ T1) E [] acc = .ok (.fin pxy) ∧
      s.logpdf close ord beh ωj ωm false hooked rowid T0 E [] acc = .ok (.fin px) ∧
      s.logpdf close ord beh ωj ωm false hooked rowid T1 E [] acc = .ok (.fin py) ∧
      (∀ v ∈ s.views.keys,
        s.logpdf close ord beh ωj ωm false hooked rowid (onView s v T0 ++ onView s v T1)
          (onView s v E) [] acc = .ok (.fin (pxyOn v)) ∧
        s.logpdf close ord beh ωj ωm false hooked rowid (onView s v T0) (onView s v E) [] acc =
          .ok (.fin (pxOn v)) ∧
        s.logpdf close ord beh ωj ωm false hooked rowid (onView s v T1) (onView s v E) [] acc =
          .ok (.fin (pyOn v))) ∧
      pxy - px - py = ((s.views.keys.filter fun v => decide (Asked s T0 v ∧ Asked s T1 v)).map
        fun v => pxyOn v - pxOn v - pyOn v).sum := by
  have h := hR.inv hL
  have hkk : (T0 ++ T1 : Dict Col C.Cell).keys = T0.keys ++ T1.keys := by simp [Dict.keys]
  have hnd := hq.targets
  rw [hkk, List.nodup_append] at hnd
  have hq0 : StateQueryOn s T0 E := ⟨hnd.1, hq.evidence, fun c hc => hq.columns c (by
    rw [hkk]; rcases List.mem_append.mp hc with hc | hc <;> simp [hc])⟩
  have hq1 : StateQueryOn s T1 E := ⟨hnd.2.1, hq.evidence, fun c hc => hq.columns c (by
    rw [hkk]; rcases List.mem_append.mp hc with hc | hc <;> simp [hc])⟩
  have hd0 : ∀ c ∈ T0.keys, c ∉ E.keys := fun c hc => hd c (by rw [hkk]; simp [hc])
  have hd1 : ∀ c ∈ T1.keys, c ∉ E.keys := fun c hc => hd c (by rw [hkk]; simp [hc])
  have hget : ∀ c, (T0 ++ T1 : Dict Col C.Cell).get? c = (T0.get? c).or (T1.get? c) := fun c =>
    Dict.get?_append _ _ _
  have hsub0 : ∀ c, both T0 E c = none ∨ both T0 E c = both (T0 ++ T1) E c := by
    intro c
    unfold both
    rw [hget]
    cases h0 : T0.get? c with
    | some x => exact .inr rfl
    | none =>
      cases h1 : T1.get? c with
      | none => exact .inr rfl
      | some x =>
        left
        rw [Option.none_or, Dict.get?_eq_none_iff]
        exact hd1 c (Dict.mem_keys_of_get? h1)
  have hsub1 : ∀ c, both T1 E c = none ∨ both T1 E c = both (T0 ++ T1) E c := by
    intro c
    unfold both
    rw [hget]
    cases h1 : T1.get? c with
    | some x =>
      right
      rw [(Dict.get?_eq_none_iff _ _).2 fun h0 => hnd.2.2 c h0 c (Dict.mem_keys_of_get? h1) rfl]
      rfl
    | none =>
      cases h0 : T0.get? c with
      | none => exact .inr rfl
      | some x =>
        left
        rw [Option.none_or, Dict.get?_eq_none_iff]
        exact hd0 c (Dict.mem_keys_of_get? h0)
  have hposs : ∀ D, (∀ c, D c = none ∨ D c = both (T0 ++ T1) E c) → stateDensity s D ≠ 0 := by
    intro D hs
    unfold stateDensity
    rw [Ne, List.prod_eq_zero_iff]
    intro h0
    obtain ⟨p, hp, e⟩ := List.mem_map.1 h0
    exact viewDensity_mono (both_plain h hq (Dict.get?_of_mem h.views.wf hp)) hs
      (stateDensity_pos hpos p hp) e
  have hp0 := hposs _ hsub0
  have hp1 := hposs _ hsub1
  have hon : ∀ v, onView s v T0 ++ onView s v T1 = onView s v (T0 ++ T1) := fun v => by
    unfold onView; rw [List.filter_append]
  have hterm : ∀ p ∈ s.views, ¬ (Asked s T0 p.1 ∧ Asked s T1 p.1) →
      viewTerm (T0 ++ T1) E p.2 - viewTerm T0 E p.2 - viewTerm T1 E p.2 = 0 := by
    intro p hp hn
    have hv := Dict.get?_of_mem h.views.wf hp
    by_cases hA : Asked s T0 p.1
    · have hB : ¬ Asked s T1 p.1 := fun hB => hn ⟨hA, hB⟩
      have e1 : viewDensity p.2 (both T1 E) = viewDensity p.2 E.get? := viewDensity_unasked h hq1 hv hB
      have e2 : viewDensity p.2 (both (T0 ++ T1) E) = viewDensity p.2 (both T0 E) :=
        viewDensity_same h hq hv fun c hc => by
          unfold both
          rw [hget, (Dict.get?_eq_none_iff T1 c).2 fun hc' => hB ⟨c, hc', hc⟩, Option.or_none]
      unfold viewTerm; rw [e1, e2]; ring
    · have e1 : viewDensity p.2 (both T0 E) = viewDensity p.2 E.get? := viewDensity_unasked h hq0 hv hA
      have e2 : viewDensity p.2 (both (T0 ++ T1) E) = viewDensity p.2 (both T1 E) :=
        viewDensity_same h hq hv fun c hc => by
          unfold both
          rw [hget, (Dict.get?_eq_none_iff T0 c).2 fun hc' => hA ⟨c, hc', hc⟩, Option.none_or]
      unfold viewTerm; rw [e1, e2]; ring
  let g : Dict Col C.Cell → Nat → ℝ := fun T v => ((s.views.get? v).map (viewTerm T E)).getD 0
  have hg : ∀ T, ∀ p ∈ s.views, g T p.1 = viewTerm T E p.2 := fun T p hp => by
    simp only [g, Dict.get?_of_mem h.views.wf hp, Option.map_some, Option.getD_some]
  refine ⟨_, _, _, g (T0 ++ T1), g T0, g T1, logpdf_terms hL hR hr hq hd hpos,
    logpdf_terms hL hR hr hq0 hd0 hp0, logpdf_terms hL hR hr hq1 hd1 hp1, fun v hv => ?_, ?_⟩
  · obtain ⟨p, hp, rfl⟩ := List.mem_map.1 hv
    rw [hon, hg _ p hp, hg _ p hp, hg _ p hp]
    exact ⟨logpdf_onView hL hR hr hq hd hpos hp, logpdf_onView hL hR hr hq0 hd0 hp0 hp,
      logpdf_onView hL hR hr hq1 hd1 hp1 hp⟩
  · have : ∀ l : Dict Nat (View C), (∀ p ∈ l, p ∈ s.views) →
        (l.map fun p => viewTerm (T0 ++ T1) E p.2).sum - (l.map fun p => viewTerm T0 E p.2).sum -
          (l.map fun p => viewTerm T1 E p.2).sum =
        ((l.keys.filter fun v => decide (Asked s T0 v ∧ Asked s T1 v)).map
          fun v => g (T0 ++ T1) v - g T0 v - g T1 v).sum := by
      intro l
      induction l with
      | nil => intro _; simp [Dict.keys]
      | cons p t ih =>
        intro hl
        have hp := hl p (by simp)
        have iht := ih fun q hq => hl q (by simp [hq])
        have hk : Dict.keys (p :: t) = p.1 :: Dict.keys t := rfl
        rw [hk]
        by_cases ha : Asked s T0 p.1 ∧ Asked s T1 p.1
        · rw [List.filter_cons_of_pos (by simpa using ha)]
          simp only [List.map_cons, List.sum_cons]
          rw [← iht, hg _ p hp, hg _ p hp, hg _ p hp]
          ring
        · rw [List.filter_cons_of_neg (by simpa using ha)]
          simp only [List.map_cons, List.sum_cons]
          rw [← iht]
          have := hterm p hp ha
          linarith
    exact this s.views fun p hp => hp

end

/-! ### The hypotheses are met -/

/-- Two bernoulli columns in different views. -/
example : ∃ s : State libCat, StateReachable plainCfg s ∧ (∀ c ∈ s.outputs, c < 10 ^ 7) ∧
    s.outputs = [0, 1] ∧ s.Zv 0 ≠ s.Zv 1 := by
  obtain ⟨s, h1, h2, h3, h4, h5, h6, h7, h8, -, -, h11, h12⟩ :=
    stateDemo_init bernoulli_remembered_one bernoulli_hyp (a := 0) (b := 1)
      (by decide) [] []
  exact ⟨s, h1, by rw [h4]; simp, h4, by rw [h6, h7]; simp⟩

/-- Two bernoulli columns in one view: both are asked on the same side of a split. -/
example : ∃ s : State libCat, StateReachable plainCfg s ∧ NewRowId s none ∧
    StateQueryOn s ([(0, some (1 : ℝ))] ++ [(1, some (0 : ℝ))] : Dict Col libCat.Cell) [] ∧
    stateDensity s (both ([(0, some (1 : ℝ))] ++ [(1, some (0 : ℝ))] : Dict Col libCat.Cell) []) ≠ 0 ∧
    Asked s [(0, some (1 : ℝ))] 0 ∧ Asked s [(1, some (0 : ℝ))] 0 := by
  obtain ⟨s, h1, h2, h3, h4, h5, h6, h7, h8, h9, h10⟩ :=
    stateDemoOne_init bernoulli_remembered_one bernoulli_hyp
  refine ⟨s, h1, (fun r h => by cases h), demo_query h4 h10
    [(0, some (1 : ℝ)), (1, some (0 : ℝ))] [] (by simp [Dict.keys]) (by simp [Dict.keys])
    (by simp [Dict.keys]), ?_, ⟨0, by simp [Dict.keys], h6⟩, ⟨1, by simp [Dict.keys], h7⟩⟩
  intro h0
  unfold stateDensity at h0
  rw [List.prod_eq_zero_iff] at h0
  obtain ⟨p, hp, e⟩ := List.mem_map.mp h0
  have hv := Dict.get?_of_mem h2.views.wf hp
  obtain ⟨c, d, x, g1, g2, -, g3⟩ := (inv_refusal (h2.views.view _ _ hv).inv _).mp e
  rw [(h10 c d (h2.dimFor_of_view hv g1)).1] at g3
  have g2 : both (C := libCat) [(0, some (1 : ℝ)), (1, some (0 : ℝ))] [] c = some (some x) := g2
  unfold both at g2
  rw [Dict.get?_cons, Dict.get?_cons] at g2
  by_cases e0 : (0 : Nat) = c
  · subst e0
    have g4 : some (some (1 : ℝ)) = some (some x) := g2
    cases g4
    exact g3 (Or.inr rfl)
  · by_cases e1 : (1 : Nat) = c
    · subst e1
      have g4 : some (some (0 : ℝ)) = some (some x) := g2
      cases g4
      exact g3 (Or.inl rfl)
    · simp [e0, e1] at g2

end Cgpm.Props
