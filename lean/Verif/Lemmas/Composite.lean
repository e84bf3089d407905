import Verif.Model.Composite
import Verif.Lemmas.StatePlain
import Verif.Lemmas.StateQuery
import Verif.Props.Network

/-! Lemmas about compositions: networks with components added or removed, and calls on the State
that keep the types of the columns. -/
namespace Cgpm.Net
variable {R V Ω : Type}

theorem feeds_sub {l l' : List (NetCgpm R V Ω)} {f : Nat → Nat}
    (hf : ∀ i c, l'[i]? = some c → l[f i]? = some c) {i j : Nat} (h : Feeds l' i j) :
    Feeds l (f i) (f j) := by
  obtain ⟨a, b, ha, hb, hv⟩ := h
  exact ⟨a, b, hf i a ha, hf j b hb, hv⟩

/-- A part of a well formed network is well formed. -/
theorem WellFormed.sub {l l' : List (NetCgpm R V Ω)} (h : WellFormed l) (hs : l'.Sublist l) :
    WellFormed l' := by
  obtain ⟨f, hf⟩ := List.sublist_iff_exists_orderEmbedding_getElem?_eq.mp hs
  have hf' : ∀ i c, l'[i]? = some c → l[f i]? = some c := fun i c hc => by rw [← hf i]; exact hc
  refine ⟨fun c hc => h.nonempty c (hs.subset hc), fun i j a b ha hb v h1 h2 => ?_, fun i hi => ?_⟩
  · exact f.injective (h.unique _ _ a b (hf' i a ha) (hf' j b hb) v h1 h2)
  · exact h.acyclic (f i) (Relation.TransGen.lift f (fun _ _ h => feeds_sub hf' h) _ _ hi)

/-- Components without inputs do not matter for cycles. -/
theorem acyclic_append {l l' : List (NetCgpm R V Ω)} (h : ∀ c ∈ l, c.inputs = [])
    (h' : ∀ i, ¬ Relation.TransGen (Feeds l') i i) (i : Nat) :
    ¬ Relation.TransGen (Feeds (l ++ l')) i i := by
  have hge : ∀ {a b}, Feeds (l ++ l') a b → l.length ≤ b := by
    rintro a b ⟨x, y, hx, hy, v, h1, h2⟩
    by_contra hlt
    rw [List.getElem?_append_left (by omega)] at hy
    rw [h y (List.mem_of_getElem? hy)] at h2
    cases h2
  have hgt : ∀ {a b}, Relation.TransGen (Feeds (l ++ l')) a b → l.length ≤ b := by
    intro a b hab
    cases hab with
    | single h1 => exact hge h1
    | tail _ h1 => exact hge h1
  have key : ∀ {a b}, Relation.TransGen (Feeds (l ++ l')) a b → l.length ≤ a →
      Relation.TransGen (Feeds l') (a - l.length) (b - l.length) := by
    have one : ∀ {a b}, Feeds (l ++ l') a b → l.length ≤ a →
        Feeds l' (a - l.length) (b - l.length) := by
      intro a b hab ha
      have hb := hge hab
      obtain ⟨x, y, hx, hy, hv⟩ := hab
      rw [List.getElem?_append_right ha] at hx
      rw [List.getElem?_append_right hb] at hy
      exact ⟨x, y, hx, hy, hv⟩
    intro a b hab ha
    induction hab with
    | single h1 => exact .single (one h1 ha)
    | tail h0 h1 ih => exact .tail ih (one h1 (hgt h0))
  intro hi
  exact h' _ (key hi (hgt hi))

end Cgpm.Net

namespace Cgpm.State
open Cgpm.View Cgpm.Props
variable {C : Cat}

/-- The call keeps the columns with their types and inputs. -/
structure Steady (s s' : State C) : Prop where
  keeps : Keeps s s'
  cols : ∀ c, s'.Zv c = none ↔ s.Zv c = none

theorem Steady.refl (s : State C) : Steady s s := ⟨Keeps.refl s, fun _ => Iff.rfl⟩

theorem Steady.outputs {s s' : State C} (h : Steady s s') (hI : Inv s) (hI' : Inv s') (c : Col) :
    c ∈ s'.outputs ↔ c ∈ s.outputs := by
  rw [← hI'.cols, ← hI.cols, not_iff_not]
  exact h.cols c

theorem Steady.anyConditional {s s' : State C} (h : Steady s s') (hI : Inv s) (hI' : Inv s')
    (cfg : Cfg C) : s'.anyConditional cfg = s.anyConditional cfg := by
  rw [Bool.eq_iff_iff, anyConditional_iff, anyConditional_iff]
  constructor
  · rintro ⟨c, hc, d', hd', hk⟩
    obtain ⟨d, g1, g2, -⟩ := h.keeps c d' hd'
    exact ⟨c, (h.outputs hI hI' c).mp hc, d, g1, by rw [← g2]; exact hk⟩
  · rintro ⟨c, hc, d, hd, hk⟩
    have hc' := (h.outputs hI hI' c).mpr hc
    obtain ⟨d', hd'⟩ := (dimFor_of_mem hI').mpr hc'
    obtain ⟨d0, g1, g2, -⟩ := h.keeps c d' hd'
    rw [hd] at g1; cases g1
    exact ⟨c, hc', d', hd', by rw [g2]; exact hk⟩

theorem steady_of {s s' : State C} (hz : s'.Zv = s.Zv)
    (hv : ∀ i v', s'.views.get? i = some v' → ∃ v, s.views.get? i = some v ∧
      ∀ c d', v'.dims.get? c = some d' →
        ∃ d, v.dims.get? c = some d ∧ d'.kind = d.kind ∧ d'.inputs = d.inputs) :
    Steady s s' :=
  ⟨keeps_of (fun c i h => by rw [← hz]; exact h) hv, fun c => by rw [hz]⟩

/-- Legal calls other than those on columns keep the columns with their types. -/
theorem steady_apply (hL : C.Lawful) {cfg : Cfg C} {s : State C} (h : Inv s) {op : Op C}
    (hl : stateLegal cfg s op) (hr : Composite.refreshes op = false) :
    Steady s (s.apply cfg op).state := by
  cases op with
  | inc r obs ks z =>
    by_cases hg : r = s.nRows ∧ (∀ v ∈ ks.keys, v ∈ s.views.keys) ∧
        (∀ c ∈ obs.keys, c ∈ s.outputs) ∧ ∀ p ∈ obs, p.2 ≠ none
    · obtain ⟨rfl, h1, h2, h3⟩ := hg
      obtain ⟨s', g1, g2, -, -, g5, g6, g7, -, -, g10⟩ := h.incorporate_ok hL z h1 h2 h3
        (fun c d hd => (admissible_iff _ _ _).mp (hl rfl c d hd))
      simp only [State.apply, g1]
      refine steady_of ?_ fun i v' hv' => ?_
      · funext c; unfold Zv; rw [Out.state, g5]
      · obtain ⟨v, f1, f2⟩ := g10.get? hv'
        exact ⟨v, f1, fun c d' hd' => same_dims f2.2.2 hd'⟩
    · simp only [State.apply, incorporate_err hg]; exact Steady.refl s
  | unc r =>
    by_cases hg : r + 1 = s.nRows ∧ s.nRows ≠ 1
    · obtain ⟨s', g1, g2, -, -, g5, g6, g7, -, g10⟩ := h.unincorporate_ok hL hg.1.symm
        (Nat.pos_of_ne_zero fun e => hg.2 (by rw [← hg.1, e]))
      simp only [State.apply, g1]
      refine steady_of ?_ fun i v' hv' => ?_
      · funext c; unfold Zv; rw [Out.state, g5]
      · obtain ⟨v, f1, f2⟩ := g10.get? hv'
        exact ⟨v, f1, fun c d' hd' => same_dims f2.2.2 hd'⟩
    · simp only [State.apply, unincorporate_err hg]; exact Steady.refl s
  | force r obs =>
    by_cases hg : r < s.nRows ∧ allMissing s.X r obs.keys = .ok true
    · obtain ⟨h1, h2⟩ := hl.2 hg.1
      obtain ⟨s', g1, g2, -, -, g5, g6, g7, -, -, g10⟩ := h.forceCell_ok hL hl.1 hg.1 hg.2
        (fun c hc d hd => (admissible_iff _ _ _).mp (by
          rw [← cellsForced_eq]; exact h1 c hc d hd)) h2
      simp only [State.apply, g1]
      refine steady_of ?_ fun i v' hv' => ?_
      · funext c; unfold Zv; rw [Out.state, g5]
      · obtain ⟨v, f1, -, f2⟩ := g10 i v' hv'
        exact ⟨v, f1, fun c d' hd' => same_dims f2 hd'⟩
    · obtain ⟨e, he⟩ := forceCell_err hg
      simp only [State.apply, he]; exact Steady.refl s
  | incDim T outs ins kind v ω => cases hr
  | uncDim col => cases hr
  | cctype col kind ins hyp hyp' => cases hr
  | alpha a =>
    simp only [State.apply, State.setAlpha, Crp.setHypers]
    split <;>
    · exact steady_of rfl fun i v hv => ⟨v, hv, fun c d hd => ⟨d, hd, rfl, rfl⟩⟩
  | viewAlpha v a =>
    simp only [State.apply]
    unfold State.viewAlpha onView
    cases hv : s.views.get? v with
    | none => exact Steady.refl s
    | some w =>
      simp only [View.setAlpha, Crp.setHypers]
      split <;> rename_i hh <;> split at hh <;> cases hh <;>
      exact ⟨keeps_setView hv fun c d' hd' => ⟨d', hd', rfl, rfl⟩, fun _ => Iff.rfl⟩
  | hypers c hy =>
    simp only [State.apply]
    refine ⟨h.transitionDimHypers_keeps c hy, fun c' => ?_⟩
    have : (s.transitionDimHypers c hy).state.crp = s.crp := by
      unfold State.transitionDimHypers
      repeat' split
      all_goals rfl
    unfold Zv
    rw [this]
  | row i r z =>
    simp only [State.apply]
    by_cases hn : s.nRows = 1
    · unfold State.viewRow; rw [if_pos hn]; exact Steady.refl s
    · cases hv : s.views.get? i with
      | none => unfold State.viewRow onView; rw [if_neg hn]; simp only [hv]; exact Steady.refl s
      | some v =>
        by_cases hr : r < s.nRows
        · obtain ⟨v', h1, -, -, -, h2⟩ := h.viewRow_ok hL hv hr hn z
          rw [h1]
          exact ⟨keeps_setView hv fun c d' hd' => same_dims h2 hd', fun _ => Iff.rfl⟩
        · have ho := h.views.view i v hv
          have hs : v.seat r = none := by
            by_contra hne; exact hr ((ho.rows r).mp hne)
          obtain ⟨e, he⟩ := gibbsTransitionRow_missing (X := s.tbl) hs z
          unfold State.viewRow onView
          rw [if_neg hn]
          simp only [hv, he]
          exact ⟨keeps_setView hv fun c d' hd' => ⟨d', hd', rfl, rfl⟩, fun _ => Iff.rfl⟩
  | column c m aux u =>
    obtain ⟨h1, h2, h3, h4⟩ := hl
    by_cases hg : s.anyConditional cfg = false ∧ s.Cd = [] ∧ ∃ d, s.dimFor c = .ok d
    · obtain ⟨g1, g2, d, g3⟩ := hg
      obtain ⟨s', cur, new, va, f1, f2, f3, f4, f5, -⟩ := h.gibbsTransitionDim_ok (cfg := cfg) g3 g1 g2
        h1 h2.1 (partners_of h3) h2.2.1 h2.2.2 (h4 d g3)
      simp only [State.apply, f1]
      refine ⟨f4.keeps h g3 f5, fun c' => ?_⟩
      show s'.Zv c' = none ↔ _
      rw [f4.Zv]
      by_cases hc : c' = c
      · subst hc
        obtain ⟨i, v, hz, -, -⟩ := dimFor_ok g3
        simp [hz]
      · rw [upd_ne _ _ hc]
    · obtain ⟨e, he⟩ := gibbsTransitionDim_err (m := m) (aux := aux) (u := u) hg
      simp only [State.apply, he]; exact Steady.refl s

/-- A refused legal call on columns keeps the conditional columns. -/
theorem refused_conditional (hL : C.Lawful) {cfg : Cfg C} {s : State C} (h : Inv s) {op : Op C}
    (hl : stateLegal cfg s op) {e : Exn} {s' : State C} (he : s.apply cfg op = .err e s') :
    s'.anyConditional cfg = s.anyConditional cfg := by
  have hI' : Inv s' := by
    have := inv_apply hL h op hl
    rw [he] at this
    exact this
  by_cases hr : Composite.refreshes op = false
  · have := steady_apply hL h hl hr
    rw [he] at this
    exact this.anyConditional h hI' cfg
  · cases op with
    | incDim T outs ins kind v ω =>
      by_cases hg : T.length = s.nRows ∧ ins = [] ∧ ∃ col, outs = [col] ∧ col ∉ s.outputs
      · obtain ⟨hT, rfl, col, rfl, hc⟩ := hg
        obtain ⟨h1, h2, h3, h4, h5, h6, h7⟩ := hl col rfl rfl hT hc
        have hacc : ∀ r, r < s.nRows → Accepts (s.colTbl col T) (Dim.new col [] kind ω.hyp) r :=
          fun r hr => (admissible_iff _ _ _).mp (by rw [← columnAdded_eq]; exact h4 r hr)
        have hok : IncDimOk cfg s T col kind v ω :=
          ⟨h1, h2, h3, hacc, h5, h6.1, h6.2.1, h6.2.2, fun hv => partners_of (h7 hv).1,
            fun hv => (h7 hv).2⟩
        obtain ⟨s4, g4, ha, e4⟩ := h.incorporateDim_eq hT hc h1 h2 hacc h5 v
        have he' : s.incorporateDim cfg T [col] [] kind v ω = .err e s' := he
        by_cases hcon : (∃ v0, v = some v0) ∨ s.anyConditional cfg = false ∧ s.Cd = []
        · obtain ⟨s'', k1, -⟩ := (h.incorporateDim_inv hT hc hok).2 hcon
          rw [he'] at k1; cases k1
        · have hv : v = none := by
            cases v with
            | none => rfl
            | some v0 => exact absurd (Or.inl ⟨v0, rfl⟩) hcon
          subst hv
          have hany : s4.anyConditional cfg = s.anyConditional cfg := by
            rw [Bool.eq_iff_iff, anyConditional_iff, anyConditional_iff]
            obtain ⟨d0, hd0, hf0⟩ := ha.dimFor
            constructor
            · rintro ⟨c, hc1, d', hd', hk⟩
              by_cases hcc : c = col
              · subst hcc
                rw [hd0] at hd'; cases hd'
                rw [hf0.kind] at hk
                have : cfg.conditional kind = true := hk
                rw [h1] at this; cases this
              · rw [ha.dimFor_ne h hcc] at hd'
                exact ⟨c, (dimFor_of_mem h).mp ⟨d', hd'⟩, d', hd', hk⟩
            · rintro ⟨c, hc1, d', hd', hk⟩
              have hcc : c ≠ col := fun e => hc (e ▸ hc1)
              refine ⟨c, by rw [ha.outputs]; exact List.mem_append_left _ hc1, d', ?_, hk⟩
              rw [ha.dimFor_ne h hcc]; exact hd'
          have hg4 : ¬ (s4.anyConditional cfg = false ∧ s4.Cd = [] ∧ ∃ d, s4.dimFor col = .ok d) := by
            rintro ⟨q1, q2, -⟩
            exact hcon (Or.inr ⟨hany ▸ q1, ha.Cd ▸ q2⟩)
          obtain ⟨e5, he5⟩ := gibbsTransitionDim_err (m := 1) (aux := ω.aux) (u := ω.u) hg4
          rw [e4] at he'
          simp only [he5] at he'
          cases he'
          exact hany
      · have : s.apply cfg (.incDim T outs ins kind v ω) = .err _ s := incorporateDim_err hg
        rw [this] at he; cases he; rfl
    | uncDim col =>
      by_cases hg : s.outputs.length ≠ 1 ∧ col ∈ s.outputs
      · obtain ⟨s'', g1, -⟩ := h.unincorporateDim_ok hg.2 hg.1 hl
        have : s.apply cfg (.uncDim col) = .ok s'' := g1
        rw [this] at he; cases he
      · have : s.apply cfg (.uncDim col) = .err _ s := unincorporateDim_err hg
        rw [this] at he; cases he; rfl
    | cctype col kind ins hyp hyp' =>
      by_cases hg : ∃ v view inputs, s.Zv col = some v ∧ s.views.get? v = some view ∧
        cctypeInputs cfg view col kind ins = .ok inputs
      · obtain ⟨v, view, inputs, h1, h2, h3⟩ := hg
        obtain ⟨h4, h5, h6⟩ := hl v view inputs h1 h2 h3
        obtain ⟨d, g1, -⟩ := h.updateCctype_ok h1 h2 h3 h4 h5
          (fun r hr => (admissible_iff _ _ _).mp (h6 r hr))
        have : s.apply cfg (.cctype col kind ins hyp hyp') = .ok _ := g1
        rw [this] at he; cases he
      · obtain ⟨e1, he1⟩ := updateCctype_err h (hyp := hyp) (hyp' := hyp') hg
        have : s.apply cfg (.cctype col kind ins hyp hyp') = .err e1 s := he1
        rw [this] at he; cases he; rfl
    | inc _ _ _ _ => exact absurd rfl hr
    | unc _ => exact absurd rfl hr
    | force _ _ => exact absurd rfl hr
    | alpha _ => exact absurd rfl hr
    | viewAlpha _ _ => exact absurd rfl hr
    | hypers _ _ => exact absurd rfl hr
    | row _ _ _ => exact absurd rfl hr
    | column _ _ _ _ => exact absurd rfl hr

/-- The columns after a legal call: no new ones, except the column of `incorporate_dim`. -/
theorem outputs_apply (hL : C.Lawful) {cfg : Cfg C} {s : State C} (h : Inv s) {op : Op C}
    (hl : stateLegal cfg s op) {c : Col} (hc : c ∈ (s.apply cfg op).state.outputs) :
    c ∈ s.outputs ∨ ∃ T kind v ω, op = .incDim T [c] [] kind v ω := by
  have hI' := inv_apply hL h op hl
  by_cases hr : Composite.refreshes op = false
  · exact .inl (((steady_apply hL h hl hr).outputs h hI' c).mp hc)
  · cases op with
    | incDim T outs ins kind v ω =>
      by_cases hg : T.length = s.nRows ∧ ins = [] ∧ ∃ col, outs = [col] ∧ col ∉ s.outputs
      · obtain ⟨hT, rfl, col, rfl, hc'⟩ := hg
        obtain ⟨h1, h2, h3, h4, h5, h6, h7⟩ := hl col rfl rfl hT hc'
        have hacc : ∀ r, r < s.nRows → Accepts (s.colTbl col T) (Dim.new col [] kind ω.hyp) r :=
          fun r hr => (admissible_iff _ _ _).mp (by rw [← columnAdded_eq]; exact h4 r hr)
        have hok : IncDimOk cfg s T col kind v ω :=
          ⟨h1, h2, h3, hacc, h5, h6.1, h6.2.1, h6.2.2, fun hv => partners_of (h7 hv).1,
            fun hv => (h7 hv).2⟩
        obtain ⟨d', hd'⟩ := (dimFor_of_mem hI').mpr hc
        rcases h.incorporateDim_dims hT hc' hok c d' hd' with ⟨rfl, -⟩ | ⟨-, d, e1, -⟩
        · exact .inr ⟨T, kind, v, ω, rfl⟩
        · exact .inl ((dimFor_of_mem h).mp ⟨d, e1⟩)
      · have : s.apply cfg (.incDim T outs ins kind v ω) = .err _ s := incorporateDim_err hg
        rw [this] at hc; exact .inl hc
    | uncDim col =>
      left
      by_cases hg : s.outputs.length ≠ 1 ∧ col ∈ s.outputs
      · obtain ⟨s', g1, g2, -, -, -, g6, -, g8, g9, g10⟩ := h.unincorporateDim_ok hg.2 hg.1 hl
        have : s.apply cfg (.uncDim col) = .ok s' := g1
        rw [this] at hc
        obtain ⟨d', hd'⟩ := (dimFor_of_mem g2).mpr hc
        obtain ⟨d, e1, -⟩ := keeps_drop g6 g10 c d' hd'
        exact (dimFor_of_mem h).mp ⟨d, e1⟩
      · have : s.apply cfg (.uncDim col) = .err _ s := unincorporateDim_err hg
        rw [this] at hc; exact hc
    | cctype col kind ins hyp hyp' =>
      left
      by_cases hg : ∃ v view inputs, s.Zv col = some v ∧ s.views.get? v = some view ∧
        cctypeInputs cfg view col kind ins = .ok inputs
      · obtain ⟨v, view, inputs, h1, h2, h3⟩ := hg
        obtain ⟨h4, h5, h6⟩ := hl v view inputs h1 h2 h3
        obtain ⟨d, g1, -⟩ := h.updateCctype_ok h1 h2 h3 h4 h5
          (fun r hr => (admissible_iff _ _ _).mp (h6 r hr))
        have : s.apply cfg (.cctype col kind ins hyp hyp') = .ok _ := g1
        rw [this] at hc; exact hc
      · obtain ⟨e1, he1⟩ := updateCctype_err h (hyp := hyp) (hyp' := hyp') hg
        have : s.apply cfg (.cctype col kind ins hyp hyp') = .err e1 s := he1
        rw [this] at hc; exact hc
    | inc _ _ _ _ => exact absurd rfl hr
    | unc _ => exact absurd rfl hr
    | force _ _ => exact absurd rfl hr
    | alpha _ => exact absurd rfl hr
    | viewAlpha _ _ => exact absurd rfl hr
    | hypers _ _ => exact absurd rfl hr
    | row _ _ _ => exact absurd rfl hr
    | column _ _ _ _ => exact absurd rfl hr

end Cgpm.State
