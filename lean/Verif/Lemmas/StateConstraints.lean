import Verif.Lemmas.StateSame

/-! How calls change the column partition and the list of views. -/
namespace Cgpm.State
open Cgpm Cgpm.View Cgpm.Props
variable {C : Cat}

/-- Columns may disappear, but none moves; views may disappear, but none appears. -/
structure Settled (s s' : State C) : Prop where
  Cd : s'.Cd = s.Cd
  Ci : s'.Ci = s.Ci
  keys : s'.views.keys.Sublist s.views.keys
  Zv : ∀ c v, s'.Zv c = some v → s.Zv c = some v

theorem Settled.refl (s : State C) : Settled s s :=
  ⟨rfl, rfl, List.Sublist.refl _, fun _ _ h => h⟩

theorem Settled.trans {a b c : State C} (h1 : Settled a b) (h2 : Settled b c) : Settled a c :=
  ⟨h2.Cd.trans h1.Cd, h2.Ci.trans h1.Ci, h2.keys.trans h1.keys, fun x v h => h1.Zv x v (h2.Zv x v h)⟩

theorem Settled.of {s s' : State C} (h1 : s'.Cd = s.Cd) (h2 : s'.Ci = s.Ci)
    (h3 : s'.views.keys = s.views.keys) (h4 : s'.crp = s.crp) : Settled s s' :=
  ⟨h1, h2, by rw [h3], fun c v h => by unfold State.Zv at h ⊢; rw [h4] at h; exact h⟩

/-- The views are listed in increasing order and the constraints hold. -/
def Good (s : State C) : Prop := s.Sorted ∧ ConstraintsHold s

theorem Settled.good {s s' : State C} (h : Settled s s') (hg : Good s) : Good s' := by
  refine ⟨hg.1.sublist h.keys, fun a b hab hne v ha hb => ?_, fun blk hblk a ha b hb v w h1 h2 => ?_⟩
  · rw [h.Ci] at hab
    exact hg.2.independent a b hab hne v (h.Zv a v ha) (h.Zv b v hb)
  · rw [h.Cd] at hblk
    exact hg.2.dependent blk hblk a ha b hb v w (h.Zv a v h1) (h.Zv b w h2)

theorem settled_setView {s : State C} {i : Nat} {v v' : View C} (hv : s.views.get? i = some v) :
    Settled s { s with views := s.views.set i v' } :=
  Settled.of rfl rfl (by
    show (s.views.set i v').keys = _
    rw [Dict.keys_set, if_pos (Dict.mem_keys_of_get? hv)]) rfl

theorem settled_hypers (s : State C) (c : Col) (hy : C.H) :
    Settled s (s.transitionDimHypers c hy).state := by
  unfold State.transitionDimHypers
  split
  · exact Settled.refl s
  · split
    · exact Settled.refl s
    · rename_i hv
      split
      · exact settled_setView hv
      · exact settled_setView hv

theorem settled_onView (s : State C) (i : Nat) (f : View C → Out (View C)) :
    Settled s (s.onView i f).state := by
  unfold onView
  split
  · exact Settled.refl s
  · rename_i hv
    split
    · exact settled_setView hv
    · exact settled_setView hv

theorem settled_updateCctype (cfg : Cfg C) (s : State C) (col : Col) (kind : C.ι)
    (ins : Option (List Col)) (hyp hyp' : C.H) :
    Settled s (s.updateCctype cfg col kind ins hyp hyp').state := by
  unfold State.updateCctype
  split
  · exact Settled.refl s
  · split
    · exact Settled.refl s
    · split
      · exact Settled.refl s
      · rename_i hv
        split
        · exact Settled.refl s
        · split
          · exact settled_setView hv
          · exact (settled_setView hv).trans (settled_hypers _ _ _)

theorem keys_set_mem {d : Dict Nat (View C)} {i : Nat} {v v' : View C} (hv : d.get? i = some v) :
    (d.set i v').keys = d.keys := by
  rw [Dict.keys_set, if_pos (Dict.mem_keys_of_get? hv)]

theorem keys_erase_sublist (d : Dict Nat (View C)) (i : Nat) : (d.erase i).keys.Sublist d.keys := by
  rw [Dict.keys_erase]; exact List.filter_sublist

theorem unincorporateDim_keys (s : State C) (col : Col) :
    (s.unincorporateDim col).state.views.keys.Sublist s.views.keys := by
  unfold State.unincorporateDim
  split
  · exact List.Sublist.refl _
  · split
    · exact List.Sublist.refl _
    · split
      · exact List.Sublist.refl _
      · split
        · rename_i v view nv hv hn
          split
          · exact List.Sublist.refl _
          · rename_i view' _
            have hk := keys_set_mem (v' := view') hv
            dsimp only
            split
            · exact hk ▸ List.Sublist.refl _
            · split
              · exact hk ▸ List.Sublist.refl _
              · show (if nv = 1 then _ else _ : State C).views.keys.Sublist _
                split
                · exact (keys_erase_sublist _ _).trans (by rw [hk])
                · exact hk ▸ List.Sublist.refl _
        · exact List.Sublist.refl _

theorem Inv.settled_unincorporateDim {s : State C} (h : Inv s) (col : Col)
    (hl : ∀ c d, s.dimFor c = .ok d → c ≠ col → col ∉ d.inputs) :
    Settled s (s.unincorporateDim col).state := by
  have hk := unincorporateDim_keys s col
  by_cases hg : s.outputs.length ≠ 1 ∧ col ∈ s.outputs
  · obtain ⟨s', g1, g2, -, -, -, g6, -, g8, g9, g10⟩ := h.unincorporateDim_ok hg.2 hg.1 hl
    rw [g1] at hk ⊢
    refine ⟨g8, g9, hk, fun c v hc => ?_⟩
    have hc' : s'.Zv c = some v := hc
    rw [g6] at hc'
    by_cases e : c = col
    · subst e; simp at hc'
    · rwa [upd_ne _ _ e] at hc'
  · rw [unincorporateDim_err hg]; exact Settled.refl s

/-- A column that moves, among sorted views, keeps them sorted. -/
theorem Moved.sorted {s s' : State C} {col : Col} {d : Dim C} {cur new : Nat} {va : View C}
    (h : Moved s col d cur new va s') (hs : s.Sorted)
    (hn : new ∈ s.views.keys ∨ pyMax s.views.keys < new ∧ va.dims = []) : s'.Sorted := by
  obtain ⟨vb, d', j1, -, -, j4⟩ := h.views
  have hb : (s.baseViews col new va).keys.Pairwise (· < ·) := by
    unfold baseViews
    split
    · rename_i hlt
      rw [Dict.keys_set, keys_dropCol, if_neg (fun hm => mem_le_pyMax hm hlt)]
      refine List.pairwise_append.mpr ⟨hs, by simp, fun a ha b hb => ?_⟩
      rw [List.mem_singleton.mp hb]
      exact lt_of_le_of_lt (not_lt.mp (mem_le_pyMax ha)) hlt
    · rw [keys_dropCol]; exact hs
  have hb' : ((s.baseViews col new va).set new { vb with dims := vb.dims.set col d' }).keys.Pairwise
      (· < ·) := by
    rw [keys_set_mem j1]; exact hb
  unfold Sorted
  rw [j4]
  split
  · exact hb'.sublist (keys_erase_sublist _ _)
  · exact hb'

/-- A column transition among sorted views keeps the constraints. -/
theorem Moved.good {s s' : State C} {col : Col} {d : Dim C} {cur new : Nat} {va : View C}
    (h : Moved s col d cur new va s') (hg : Good s) (hCd : s.Cd = [])
    (hn : new ∈ s.views.keys ∨ pyMax s.views.keys < new ∧ va.dims = [])
    (hav : ∀ a ∈ avoid s.Ci col, s.Zv a ≠ some new) : Good s' := by
  refine ⟨h.sorted hg.1 hn, fun a b hab hne v ha hb => ?_, fun blk hblk => ?_⟩
  · rw [h.Ci] at hab
    rw [h.Zv] at ha hb
    by_cases ea : a = col
    · subst ea
      simp only [upd_self, Option.some.injEq] at ha
      subst ha
      rw [upd_ne _ _ (Ne.symm hne)] at hb
      exact hav b (mem_avoid.mpr ⟨Ne.symm hne, Or.inr hab⟩) hb
    · rw [upd_ne _ _ ea] at ha
      by_cases eb : b = col
      · subst eb
        simp only [upd_self, Option.some.injEq] at hb
        subst hb
        exact hav a (mem_avoid.mpr ⟨hne, Or.inl hab⟩) ha
      · rw [upd_ne _ _ eb] at hb
        exact hg.2.independent a b hab hne v ha hb
  · rw [h.Cd, hCd] at hblk; cases hblk

theorem Added.good {s s' : State C} {T : List C.Cell} {col : Col} {kind : C.ι} {hyp : C.H} {b : Nat}
    (h : Added s T col kind hyp b s') (hg : Good s)
    (hCi : ∀ p ∈ s.Ci, p.1 ≠ col ∧ p.2 ≠ col) (hCd : ∀ block ∈ s.Cd, col ∉ block)
    (hb : b ∈ s.views.keys ∨ ∀ i ∈ s.views.keys, i < b) : Good s' := by
  refine ⟨?_, fun a c hac hne v h1 h2 => ?_, fun blk hblk a ha c hc v w h1 h2 => ?_⟩
  · unfold Sorted
    rw [h.keys]
    split
    · exact hg.1
    · rename_i hnb
      refine List.pairwise_append.mpr ⟨hg.1, by simp, fun a ha c hc => ?_⟩
      rw [List.mem_singleton.mp hc]
      exact hb.resolve_left hnb a ha
  · rw [h.Ci] at hac
    obtain ⟨e1, e2⟩ := hCi _ hac
    rw [h.Zv, upd_ne _ _ e1] at h1
    rw [h.Zv, upd_ne _ _ e2] at h2
    exact hg.2.independent a c hac hne v h1 h2
  · rw [h.Cd] at hblk
    have := hCd blk hblk
    rw [h.Zv, upd_ne _ _ (by rintro rfl; exact this ha)] at h1
    rw [h.Zv, upd_ne _ _ (by rintro rfl; exact this hc)] at h2
    exact hg.2.dependent blk hblk a ha c hc v w h1 h2

theorem good_apply (hL : C.Lawful) {cfg : Cfg C} {s : State C} (h : Inv s) (hg : Good s)
    (op : State.Op C) (hl : stateLegal cfg s op) (hc : careful s op) :
    Good (s.apply cfg op).state := by
  cases op with
  | inc r obs ks z =>
    by_cases hg' : r = s.nRows ∧ (∀ v ∈ ks.keys, v ∈ s.views.keys) ∧
        (∀ c ∈ obs.keys, c ∈ s.outputs) ∧ ∀ p ∈ obs, p.2 ≠ none
    · obtain ⟨rfl, h1, h2, h3⟩ := hg'
      obtain ⟨s', g1, -, -, -, g5, g6, g7, -, -, g10⟩ := h.incorporate_ok hL z h1 h2 h3
        (fun c d hd => (admissible_iff _ _ _).mp (hl rfl c d hd))
      simp only [State.apply, g1]
      exact (Settled.of g6 g7 g10.keys g5).good hg
    · simp only [State.apply, incorporate_err hg']; exact hg
  | unc r =>
    by_cases hg' : r + 1 = s.nRows ∧ s.nRows ≠ 1
    · obtain ⟨s', g1, -, -, -, g5, g6, g7, -, g10⟩ := h.unincorporate_ok hL hg'.1.symm
        (Nat.pos_of_ne_zero fun e => hg'.2 (by rw [← hg'.1, e]))
      simp only [State.apply, g1]
      exact (Settled.of g6 g7 g10.keys g5).good hg
    · simp only [State.apply, unincorporate_err hg']; exact hg
  | force r obs =>
    by_cases hg' : r < s.nRows ∧ allMissing s.X r obs.keys = .ok true
    · obtain ⟨h1, h2⟩ := hl.2 hg'.1
      obtain ⟨s', g1, -, -, -, g5, g6, g7, -, g10, -⟩ := h.forceCell_ok hL hl.1 hg'.1 hg'.2
        (fun c hc d hd => (admissible_iff _ _ _).mp (by
          rw [← cellsForced_eq]; exact h1 c hc d hd)) h2
      simp only [State.apply, g1]
      exact (Settled.of g6 g7 g10 g5).good hg
    · obtain ⟨e, he⟩ := forceCell_err hg'
      simp only [State.apply, he]; exact hg
  | incDim T outs ins kind v ω =>
    by_cases hg' : T.length = s.nRows ∧ ins = [] ∧ ∃ col, outs = [col] ∧ col ∉ s.outputs
    · obtain ⟨hT, rfl, col, rfl, hcol⟩ := hg'
      obtain ⟨h1, h2, h3, h4, h5, h6, h7⟩ := hl col rfl rfl hT hcol
      obtain ⟨hc1, hc2⟩ := hc
      obtain ⟨hc1, hc3⟩ := hc1 col (by simp)
      obtain ⟨s4, i4, ha, e⟩ := h.incorporateDim_eq (cfg := cfg) hT hcol h1 h2
        (fun r hr => (admissible_iff _ _ _).mp (by rw [← columnAdded_eq]; exact h4 r hr)) h5 v
      have hg4 := ha.good hg hc1 hc3 hc2
      obtain ⟨d, hd, hf⟩ := ha.dimFor
      simp only [State.apply]
      rw [e]
      cases v with
      | some v0 => exact (settled_hypers s4 col _).good hg4
      | none =>
        simp only
        by_cases hg' : s4.anyConditional cfg = false ∧ s4.Cd = [] ∧ ∃ d, s4.dimFor col = .ok d
        · obtain ⟨s5, cur, new, va, g1, g2, g3, g4, g5, g6⟩ := i4.gibbsTransitionDim_ok (cfg := cfg)
            hd hg'.1 hg'.2.1 (m := 1) (by omega) h6.1 (by
              intro a ha'
              rw [ha.Ci] at ha'
              rw [ha.outputs]
              exact List.mem_append_left _ (partners_of (h7 rfl).1 a ha')) h6.2.1 h6.2.2
            (Or.inr hg4.1)
          rw [g1]
          exact (settled_hypers s5 col _).good (g4.good hg4 hg'.2.1 g5 (g6 hg4.1))
        · obtain ⟨e, he⟩ := Props.gibbsTransitionDim_err (m := 1) (aux := ω.aux) (u := ω.u) hg'
          rw [he]
          exact hg4
    · simp only [State.apply, incorporateDim_err hg']; exact hg
  | uncDim col => exact (h.settled_unincorporateDim col hl).good hg
  | cctype col kind ins hyp hyp' => exact (settled_updateCctype cfg s col kind ins hyp hyp').good hg
  | alpha a =>
    simp only [State.apply]
    unfold State.setAlpha Crp.setHypers
    split
    · exact ⟨hg.1, hg.2.independent, hg.2.dependent⟩
    · exact ⟨hg.1, hg.2.independent, hg.2.dependent⟩
  | viewAlpha v a => exact (settled_onView s v _).good hg
  | hypers c hy => exact (settled_hypers s c hy).good hg
  | row v r z =>
    simp only [State.apply]
    unfold State.viewRow
    split
    · exact hg
    · exact (settled_onView s v _).good hg
  | column c m aux u =>
    obtain ⟨h1, h2, h3, h4⟩ := hl
    by_cases hg' : s.anyConditional cfg = false ∧ s.Cd = [] ∧ ∃ d, s.dimFor c = .ok d
    · obtain ⟨g1, g2, d, g3⟩ := hg'
      obtain ⟨s', cur, new, va, f1, f2, f3, f4, f5, f6⟩ := h.gibbsTransitionDim_ok (cfg := cfg) g3 g1
        g2 h1 h2.1 (partners_of h3) h2.2.1 h2.2.2 (h4 d g3)
      simp only [State.apply, f1]
      exact f4.good hg g2 f5 (f6 hg.1)
    · obtain ⟨e, he⟩ := gibbsTransitionDim_err (m := m) (aux := aux) (u := u) hg'
      simp only [State.apply, he]; exact hg

theorem good_run (hL : C.Lawful) {cfg : Cfg C} {s : State C} (h : Inv s) (hg : Good s)
    (ops : List (State.Op C)) (hl : carefulRun cfg s ops) : Good (s.run cfg ops) := by
  induction ops generalizing s with
  | nil => exact hg
  | cons op ops ih => exact ih (inv_apply hL h op hl.1) (good_apply hL h hg op hl.1 hl.2.1) hl.2.2

end Cgpm.State
