import Verif.Lemmas.StateRun

/-! Types and inputs of the columns are changed only by the calls that are meant to. -/
namespace Cgpm.State
open Cgpm.View
variable {C : Cat}

/-- The columns of `s'` are columns of `s`, with the same types and inputs. -/
def Keeps (s s' : State C) : Prop := ∀ c d', s'.dimFor c = .ok d' →
  ∃ d, s.dimFor c = .ok d ∧ d'.kind = d.kind ∧ d'.inputs = d.inputs

theorem Keeps.refl (s : State C) : Keeps s s := fun _ d h => ⟨d, h, rfl, rfl⟩

theorem dimFor_mk {s : State C} {c : Col} {i : Nat} {v : View C} {d : Dim C}
    (h1 : s.Zv c = some i) (h2 : s.views.get? i = some v) (h3 : v.dims.get? c = some d) :
    s.dimFor c = .ok d := by
  simp only [dimFor, h1, h2, h3]

theorem keeps_of {s s' : State C} (hz : ∀ c i, s'.Zv c = some i → s.Zv c = some i)
    (hv : ∀ i v', s'.views.get? i = some v' → ∃ v, s.views.get? i = some v ∧
      ∀ c d', v'.dims.get? c = some d' →
        ∃ d, v.dims.get? c = some d ∧ d'.kind = d.kind ∧ d'.inputs = d.inputs) :
    Keeps s s' := by
  intro c d' hd'
  obtain ⟨i, v', h1, h2, h3⟩ := dimFor_ok hd'
  obtain ⟨v, g1, g2⟩ := hv i v' h2
  obtain ⟨d, g3, g4⟩ := g2 c d' h3
  exact ⟨d, dimFor_mk (hz c i h1) g1 g3, g4⟩

theorem same_dims {v v' : View C} (h : Same v v') {c : Col} {d' : Dim C}
    (hd' : v'.dims.get? c = some d') :
    ∃ d, v.dims.get? c = some d ∧ d'.kind = d.kind ∧ d'.inputs = d.inputs := by
  have := h c
  rw [hd'] at this
  cases hd : v.dims.get? c with
  | none => rw [hd] at this; cases this
  | some d =>
    rw [hd] at this
    cases this with
    | some hf => exact ⟨d, rfl, hf.kind, hf.inputs⟩

theorem Moved.dimFor {s s' : State C} {col : Col} {d : Dim C} {cur new : Nat} {va : View C}
    (h : Moved s col d cur new va s') :
    ∃ d', s'.dimFor col = .ok d' ∧ Dim.Frame d d' := by
  obtain ⟨vb, d', j1, j2, j3, j4⟩ := h.views
  have hv : s'.views.get? new = some { vb with dims := vb.dims.set col d' } := by
    rw [j4]
    split
    · rename_i hcon
      rw [Dict.get?_erase_ne _ (Ne.symm hcon.1), Dict.get?_set_self]
    · rw [Dict.get?_set_self]
  exact ⟨d', dimFor_mk (by rw [h.Zv]; simp) hv (Dict.get?_set_self _ _ _), j2⟩

theorem Moved.frames {s s' : State C} (hI : Inv s) {col : Col} {d : Dim C} {cur new : Nat}
    {va : View C} (hd : s.dimFor col = .ok d) (h : Moved s col d cur new va s')
    {c : Col} {e : Dim C} (he : s'.dimFor c = .ok e) :
    ∃ d0, s.dimFor c = .ok d0 ∧ Dim.Frame d0 e := by
  by_cases hc : c = col
  · subst hc
    obtain ⟨d', h1, h2⟩ := h.dimFor
    rw [he] at h1; cases h1
    exact ⟨d, hd, h2⟩
  · obtain ⟨i, v, h1, h2, h3⟩ := dimFor_ok he
    rw [h.Zv, upd_ne _ _ hc] at h1
    obtain ⟨vb, d', j1, j2, j3, j4⟩ := h.views
    obtain ⟨v0, hv0⟩ := Dict.exists_of_mem_keys ((hI.occ i).mpr ⟨c, h1⟩)
    have hbase : (s.baseViews col new va).get? i = some v ∨
        i = new ∧ v = { vb with dims := vb.dims.set col d' } := by
      rw [j4] at h2
      have : ((s.baseViews col new va).set new { vb with dims := vb.dims.set col d' }).get? i =
          some v := by
        split at h2
        · rw [Dict.get?_erase] at h2
          split at h2
          · cases h2
          · exact h2
        · exact h2
      rw [Dict.get?_set] at this
      split at this
      · rename_i e; exact Or.inr ⟨e, (Option.some.inj this).symm⟩
      · exact Or.inl this
    have hold : ∀ w, (s.baseViews col new va).get? i = some w → ∀ e, w.dims.get? c = some e →
        v0.dims.get? c = some e := by
      intro w hw e he
      unfold baseViews at hw
      have hdrop : ∀ w, (dropCol col s.views).get? i = some w → w.dims.get? c = some e →
          v0.dims.get? c = some e := by
        intro w hw he
        rw [get?_dropCol, hv0] at hw
        cases hw
        have : (v0.dims.erase col).get? c = some e := he
        rw [Dict.get?_erase_ne _ hc] at this
        exact this
      split at hw
      · rename_i hlt
        rw [Dict.get?_set] at hw
        split at hw
        · rename_i ei
          subst ei
          exact absurd (Dict.mem_keys_of_get? hv0) (fun hm => mem_le_pyMax hm hlt)
        · exact hdrop w hw he
      · exact hdrop w hw he
    rcases hbase with hb | ⟨rfl, rfl⟩
    · exact ⟨e, dimFor_mk h1 hv0 (hold v hb e h3), Dim.Frame.refl e⟩
    · have h3' : (vb.dims.set col d').get? c = some e := h3
      rw [Dict.get?_set_ne _ _ hc] at h3'
      exact ⟨e, dimFor_mk h1 hv0 (hold vb j1 e h3'), Dim.Frame.refl e⟩

theorem Moved.keeps {s s' : State C} (hI : Inv s) {col : Col} {d : Dim C} {cur new : Nat}
    {va : View C} (hd : s.dimFor col = .ok d) (h : Moved s col d cur new va s')
    (_ : new ∈ s.views.keys ∨ pyMax s.views.keys < new ∧ va.dims = []) : Keeps s s' := by
  intro c e he
  obtain ⟨d0, h1, h2⟩ := h.frames hI hd he
  exact ⟨d0, h1, h2.kind, h2.inputs⟩

theorem Inv.transitionDimHypers_keeps {s : State C} (h : Inv s) (c : Col) (hy : C.H) :
    Keeps s (s.transitionDimHypers c hy).state := by
  by_cases hc : c ∈ s.outputs
  · obtain ⟨i, v, d, h1, h2, h3, -⟩ := h.dim hc
    have he : s.transitionDimHypers c hy = .ok
        { s with views := s.views.set i { v with dims := v.dims.set c (d.transitionHypers hy) } } := by
      simp only [State.transitionDimHypers, h1, h2, View.transitionDimHypers, h3]
    rw [he]
    refine keeps_of (fun c i h => h) fun j v' hv0 => ?_
    have hv' : (s.views.set i { v with dims := v.dims.set c (d.transitionHypers hy) }).get? j =
      some v' := hv0
    clear hv0
    rw [Dict.get?_set] at hv'
    split at hv'
    · rename_i e; subst e; cases hv'
      refine ⟨v, h2, fun c' d' hd0 => ?_⟩
      have hd' : (v.dims.set c (d.transitionHypers hy)).get? c' = some d' := hd0
      clear hd0
      rw [Dict.get?_set] at hd'
      split at hd'
      · rename_i e; subst e; cases hd'; exact ⟨d, h3, rfl, rfl⟩
      · exact ⟨d', hd', rfl, rfl⟩
    · exact ⟨v', hv', fun c' d' hd' => ⟨d', hd', rfl, rfl⟩⟩
  · have : s.transitionDimHypers c hy = .err .keyError s := by
      unfold State.transitionDimHypers; rw [h.not_mem hc]
    rw [this]; exact Keeps.refl s

theorem Keeps.trans {a b c : State C} (h1 : Keeps a b) (h2 : Keeps b c) : Keeps a c := by
  intro col d hd
  obtain ⟨d1, g1, g2, g3⟩ := h2 col d hd
  obtain ⟨d2, f1, f2, f3⟩ := h1 col d1 g1
  exact ⟨d2, f1, g2.trans f2, g3.trans f3⟩

/-- The types and inputs after a new column. -/
theorem Inv.incorporateDim_dims {cfg : Cfg C} {s : State C} (h : Inv s) {T : List C.Cell}
    (hT : T.length = s.nRows) {col : Col} (hcol : col ∉ s.outputs) {kind : C.ι} {v : Option Nat}
    {ω : DimDraws C} (hok : IncDimOk cfg s T col kind v ω) :
    ∀ c d', (s.incorporateDim cfg T [col] [] kind v ω).state.dimFor c = .ok d' →
      (c = col ∧ d'.kind = kind ∧ d'.inputs = []) ∨
      (c ≠ col ∧ ∃ d, s.dimFor c = .ok d ∧ d'.kind = d.kind ∧ d'.inputs = d.inputs) := by
  obtain ⟨s4, h4, ha, e⟩ := h.incorporateDim_eq hT hcol hok.cond hok.hyp hok.acc hok.view v
  obtain ⟨d, hd, hf⟩ := ha.dimFor
  have key : ∀ s5 : State C, Keeps s4 s5 → ∀ c d', s5.dimFor c = .ok d' →
      (c = col ∧ d'.kind = kind ∧ d'.inputs = []) ∨
      (c ≠ col ∧ ∃ d, s.dimFor c = .ok d ∧ d'.kind = d.kind ∧ d'.inputs = d.inputs) := by
    intro s5 hk c d' hd'
    obtain ⟨d4, g1, g2, g3⟩ := hk c d' hd'
    by_cases hc : c = col
    · subst hc
      rw [hd] at g1; cases g1
      exact Or.inl ⟨rfl, g2.trans hf.kind, g3.trans hf.inputs⟩
    · rw [ha.dimFor_ne h hc] at g1
      exact Or.inr ⟨hc, d4, g1, g2, g3⟩
  rw [e]
  cases v with
  | some v0 => exact key _ (h4.transitionDimHypers_keeps col _)
  | none =>
    simp only
    by_cases hg : s4.anyConditional cfg = false ∧ s4.Cd = [] ∧ ∃ d, s4.dimFor col = .ok d
    · obtain ⟨s5, cur, new, va, g1, g2, g3, g4, g5, -⟩ := h4.gibbsTransitionDim_ok (cfg := cfg) hd
        hg.1 hg.2.1 (m := 1) (by omega) hok.aux (by
          intro a ha'
          rw [ha.Ci] at ha'
          rw [ha.outputs]
          exact List.mem_append_left _ (hok.part rfl a ha')) hok.u hok.u1 (by
          rcases hok.sort rfl with hs | ⟨hs, h0⟩
          · left; rw [hf.kind]; exact hs
          · right
            unfold Sorted
            rw [ha.keys, Option.getD_none, if_pos h0]; exact hs)
      rw [g1]
      exact key _ ((g4.keeps h4 hd g5).trans (g2.transitionDimHypers_keeps col _))
    · obtain ⟨e, he⟩ := Props.gibbsTransitionDim_err (m := 1) (aux := ω.aux) (u := ω.u) hg
      rw [he]
      exact key _ (Keeps.refl s4)

end Cgpm.State
