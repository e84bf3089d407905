import Verif.Lemmas.StateForce

/-! Columns of a State: adding, removing and rebuilding them. -/
namespace Cgpm
namespace State
variable {C : Cat}
open View

/-- A view without one of its columns. -/
def drop (col : Col) (v : View C) : View C := { v with dims := v.dims.erase col }

theorem mem_dims_of_drop {col : Col} {v : View C} {q : Col × Dim C}
    (h : q ∈ (drop col v).dims) : q ∈ v.dims := by
  obtain ⟨c, d⟩ := q
  have h' : (c, d) ∈ v.dims.erase col := h
  generalize v.dims = ds at h'
  induction ds with
  | nil => simp [Dict.erase] at h'
  | cons p t ih =>
    obtain ⟨k, e⟩ := p
    unfold Dict.erase at h'
    split at h'
    · exact List.mem_cons_of_mem _ (ih h')
    · rcases List.mem_cons.mp h' with h' | h'
      · rw [h']; simp
      · exact List.mem_cons_of_mem _ (ih h')

theorem VOk.drop {X : C.Tbl} {n : Nat} {Z : Col → Option Nat} {cols : Col → Prop} {i : Nat}
    {v : View C} (h : VOk X n Z cols i v) (col : Col) :
    VOk X n (upd Z col none) cols i (drop col v) where
  inv := h.inv.eraseDim col
  rows := h.rows
  dims := fun c => by
    show c ∈ (v.dims.erase col).keys ↔ _
    rw [Dict.mem_keys_erase, h.dims]
    by_cases e : c = col
    · subst e; simp
    · simp [e, upd_ne]
  ins := fun q hq j hj => h.ins q (mem_dims_of_drop hq) j hj

theorem VOk.put {X : C.Tbl} {n : Nat} {Z : Col → Option Nat} {cols : Col → Prop} {i : Nat}
    {v : View C} {col : Col} (h : VOk X n (upd Z col none) cols i v) {d : Dim C}
    (hd : DimOk X v.seat col d) (hi : ∀ j ∈ d.inputs, cols j) :
    VOk X n (upd Z col (some i)) cols i { v with dims := v.dims.set col d } where
  inv := h.inv.setDim hd
  rows := h.rows
  dims := fun c => by
    show c ∈ (v.dims.set col d).keys ↔ _
    rw [Dict.mem_keys_set, h.dims]
    by_cases e : c = col
    · subst e; simp
    · simp [e, upd_ne]
  ins := fun q hq j hj => by
    have hg : (v.dims.set col d).get? q.1 = some q.2 :=
      Dict.get?_of_mem (h.inv.setDim hd).wf hq
    rw [Dict.get?_set] at hg
    split at hg
    · cases hg; exact hi j hj
    · exact h.ins _ (Dict.mem_of_get? hg) j hj

theorem VOk.skip {X : C.Tbl} {n : Nat} {Z : Col → Option Nat} {cols : Col → Prop} {i j : Nat}
    {v : View C} {col : Col} (h : VOk X n (upd Z col none) cols j v) (hne : j ≠ i) :
    VOk X n (upd Z col (some i)) cols j v where
  inv := h.inv
  rows := h.rows
  dims := fun c => by
    rw [h.dims]
    by_cases e : c = col
    · subst e; simp [hne.symm]
    · simp [e, upd_ne]
  ins := h.ins

/-- A column is filed in view `b`. -/
theorem VInv.place {X : C.Tbl} {n : Nat} {Z : Col → Option Nat} {cols : Col → Prop}
    {vs : Dict Nat (View C)} {col : Col} (h : VInv X n (upd Z col none) cols vs) {b : Nat}
    {vb : View C} (hb : vs.get? b = some vb) {d : Dim C} (hd : DimOk X vb.seat col d)
    (hi : ∀ j ∈ d.inputs, cols j) :
    VInv X n (upd Z col (some b)) cols
      (vs.set b { vb with dims := vb.dims.set col d }) where
  wf := Dict.wf_set h.wf _ _
  view := fun j w hw => by
    rw [Dict.get?_set] at hw
    split at hw
    · rename_i e; subst e; cases hw
      exact (h.view j vb hb).put hd hi
    · rename_i e
      exact (h.view j w hw).skip e

/-- The views with column `col` taken out of all of them. -/
def dropCol (col : Col) (vs : Dict Nat (View C)) : Dict Nat (View C) :=
  vs.map fun p => (p.1, drop col p.2)

theorem keys_dropCol (col : Col) (vs : Dict Nat (View C)) : (dropCol col vs).keys = vs.keys := by
  simp [dropCol, Dict.keys, Function.comp_def]

theorem get?_dropCol (col : Col) (vs : Dict Nat (View C)) (i : Nat) :
    (dropCol col vs).get? i = (vs.get? i).map (drop col) := by
  unfold dropCol
  induction vs with
  | nil => rfl
  | cons p t ih =>
    obtain ⟨k, v⟩ := p
    rw [List.map_cons, Dict.get?_cons, Dict.get?_cons, ih]
    split <;> rfl

theorem VInv.dropCol {X : C.Tbl} {n : Nat} {Z : Col → Option Nat} {cols : Col → Prop}
    {vs : Dict Nat (View C)} (h : VInv X n Z cols vs) (col : Col) :
    VInv X n (upd Z col none) cols (dropCol col vs) where
  wf := by
    have := h.wf
    unfold Dict.WF at this ⊢
    rw [keys_dropCol]; exact this
  view := fun i v hv => by
    rw [get?_dropCol] at hv
    cases hg : vs.get? i with
    | none => rw [hg] at hv; cases hv
    | some w => rw [hg] at hv; cases hv; exact (h.view i w hg).drop col

/-! ### One view changed in place -/

/-- A view is replaced by one with the same columns and rows. -/
theorem Inv.setView {s : State C} (h : Inv s) {i : Nat} {v v' : View C}
    (hv : s.views.get? i = some v) (hv' : VOk s.tbl s.nRows s.Zv (· ∈ s.outputs) i v') :
    Inv { s with views := s.views.set i v' } := by
  refine Inv.of (n := s.nRows) h.data h.pos h.crp h.alpha h.cols (h.views.set hv') fun j => ?_
  show j ∈ (s.views.set i v').keys ↔ _
  rw [Dict.keys_set, if_pos (Dict.mem_keys_of_get? hv)]
  exact h.occ j

theorem Inv.setAlpha {s : State C} (h : Inv s) (a : ℝ) : Inv (s.setAlpha a).state := by
  unfold State.setAlpha Crp.setHypers
  split
  · rename_i ha
    exact ⟨h.data, h.pos, ⟨h.crp.wfData, h.crp.wfCounts, h.crp.hN, h.crp.hCounts⟩, ha, h.cols,
      h.views, h.occ⟩
  · exact h

theorem Inv.viewAlpha {s : State C} (h : Inv s) (i : Nat) (a : ℝ) :
    Inv (s.viewAlpha i a).state := by
  unfold State.viewAlpha onView
  cases hv : s.views.get? i with
  | none => exact h
  | some v =>
    have ho := h.views.view i v hv
    simp only [View.setAlpha, Crp.setHypers]
    split <;> rename_i hh <;> split at hh <;> cases hh
    · exact h.setView hv ho
    · rename_i ha
      refine h.setView hv ⟨⟨⟨ho.inv.crp.wfData, ho.inv.crp.wfCounts, ho.inv.crp.hN,
        ho.inv.crp.hCounts⟩, ha, ho.inv.wf, ho.inv.dim⟩, ho.rows, ho.dims, ho.ins⟩

theorem Inv.viewRow_ok (hL : C.Lawful) {s : State C} (h : Inv s) {i : Nat} {v : View C}
    (hv : s.views.get? i = some v) {r : Row} (hr : r < s.nRows) (hn : s.nRows ≠ 1) (z : Tab) :
    ∃ v', s.viewRow i r z = .ok { s with views := s.views.set i v' } ∧
      Inv { s with views := s.views.set i v' } ∧ v'.seat = upd v.seat r (some z) ∧
      v'.crp.alpha = v.crp.alpha ∧ Same v v' := by
  have ho := h.views.view i v hv
  have hs := (ho.rows r).mpr hr
  obtain ⟨v', h1, h2, h3, h4, h5⟩ := gibbsTransitionRow_ok hL ho.inv hs z
  refine ⟨v', ?_, ?_, h3, h4, h5⟩
  · unfold State.viewRow onView
    rw [if_neg hn]
    simp only [hv, h1]
  · refine h.setView hv (ho.same h5 h2 fun r' => ?_)
    rw [h3]
    by_cases e : r' = r
    · subst e; simp [hr]
    · rw [upd_ne _ _ e]; exact ho.rows r'

theorem Inv.viewRow (hL : C.Lawful) {s : State C} (h : Inv s) (i : Nat) (r : Row) (z : Tab) :
    Inv (s.viewRow i r z).state := by
  by_cases hn : s.nRows = 1
  · unfold State.viewRow; rw [if_pos hn]; exact h
  · cases hv : s.views.get? i with
    | none => unfold State.viewRow onView; rw [if_neg hn]; simp only [hv]; exact h
    | some v =>
      by_cases hr : r < s.nRows
      · obtain ⟨v', h1, h2, -⟩ := h.viewRow_ok hL hv hr hn z
        rw [h1]; exact h2
      · have ho := h.views.view i v hv
        have hs : v.seat r = none := by
          by_contra hne; exact hr ((ho.rows r).mp hne)
        obtain ⟨e, he⟩ := gibbsTransitionRow_missing (X := s.tbl) hs z
        unfold State.viewRow onView
        rw [if_neg hn]
        simp only [hv, he]
        exact h.setView hv ho

theorem VOk.hypers {X : C.Tbl} {n : Nat} {Z : Col → Option Nat} {cols : Col → Prop} {i : Nat}
    {v : View C} (h : VOk X n Z cols i v) {c : Col} {d : Dim C} (hd : v.dims.get? c = some d)
    {hy : C.H} (hh : d.fam.hypOk hy) :
    VOk X n Z cols i { v with dims := v.dims.set c (d.transitionHypers hy) } where
  inv := h.inv.setDim ((h.inv.dim (c, d) (Dict.mem_of_get? hd)).transitionHypers hh)
  rows := h.rows
  dims := fun c' => by
    show c' ∈ (v.dims.set c _).keys ↔ _
    rw [Dict.keys_set, if_pos (Dict.mem_keys_of_get? hd)]
    exact h.dims c'
  ins := fun q hq j hj => by
    have hg : (v.dims.set c (d.transitionHypers hy)).get? q.1 = some q.2 :=
      Dict.get?_of_mem (Dict.wf_set h.inv.wf _ _) hq
    rw [Dict.get?_set] at hg
    split at hg
    · rw [← Option.some.inj hg] at hj
      exact h.ins (c, d) (Dict.mem_of_get? hd) j hj
    · exact h.ins _ (Dict.mem_of_get? hg) j hj

theorem Inv.transitionDimHypers_ok {s : State C} (h : Inv s) {c : Col} {d : Dim C}
    (hd : s.dimFor c = .ok d) {hy : C.H} (hh : d.fam.hypOk hy) :
    ∃ i v, s.Zv c = some i ∧ s.views.get? i = some v ∧ v.dims.get? c = some d ∧
      s.transitionDimHypers c hy = .ok
        { s with views := s.views.set i { v with dims := v.dims.set c (d.transitionHypers hy) } } ∧
      Inv { s with views := s.views.set i { v with dims := v.dims.set c (d.transitionHypers hy) } } := by
  obtain ⟨i, v, h1, h2, h3⟩ := dimFor_ok hd
  refine ⟨i, v, h1, h2, h3, ?_, h.setView h2 ((h.views.view i v h2).hypers h3 hh)⟩
  simp only [State.transitionDimHypers, h1, h2, View.transitionDimHypers, h3]

theorem Inv.not_mem {s : State C} (h : Inv s) {c : Col} (hc : c ∉ s.outputs) : s.Zv c = none := by
  by_contra hne; exact hc ((h.cols c).mp hne)

theorem Inv.transitionDimHypers {s : State C} (h : Inv s) (c : Col) {hy : C.H}
    (hh : ∀ d, s.dimFor c = .ok d → d.fam.hypOk hy) : Inv (s.transitionDimHypers c hy).state := by
  by_cases hc : c ∈ s.outputs
  · obtain ⟨v, view, d, -, -, -, hd, -⟩ := h.dim hc
    obtain ⟨i, v, -, -, -, h1, h2⟩ := h.transitionDimHypers_ok hd (hh d hd)
    rw [h1]; exact h2
  · unfold State.transitionDimHypers
    rw [h.not_mem hc]; exact h

/-! ### Removing a column -/

theorem Rect.erase {X : Dict Col (List C.Cell)} {o : List Col} {n : Nat} (h : Rect X o n)
    {col : Col} (hlen : o.length ≠ 1) (hc : col ∈ o) :
    Rect (X.erase col) (o.filter (· ≠ col)) n where
  keys := by rw [Dict.keys_erase, h.keys]
  nodup := h.nodup.filter _
  ne := by
    intro hf
    have hall : ∀ x ∈ o, x = col := by
      intro x hx
      by_contra hne
      have : x ∈ o.filter (· ≠ col) := by simp [hx, hne]
      rw [hf] at this; cases this
    have hnd := h.nodup
    cases o with
    | nil => cases hc
    | cons a t =>
      cases t with
      | nil => simp at hlen
      | cons b t =>
        have ha := hall a (by simp)
        have hb := hall b (by simp)
        subst ha; subst hb
        simp at hnd
  len := fun c l hl => by
    rw [Dict.get?_erase] at hl
    split at hl
    · cases hl
    · exact h.len c l hl

theorem tblOf_erase {X : Dict Col (List C.Cell)} {col c : Col} (hne : c ≠ col) (r : Row) :
    tblOf (X.erase col) c r = tblOf X c r := by
  simp [tblOf, Dict.get?_erase, hne]

theorem count_one_iff {s : Crp} (h : Crp.Inv s) {c : Col} {v : Nat}
    (hc : s.data.get? c = some v) {nv : Int} (hn : s.counts.get? v = some nv) :
    nv = 1 ↔ ∀ c', s.data.get? c' = some v → c' = c := by
  obtain ⟨s', h1, h2, -, h4⟩ := Crp.unc_data h hc
  rw [Crp.unincorporate_ok h hc] at h1
  have hns : nv = nSeated s.data v := by
    have := h.hCounts v
    rw [hn, countOf] at this
    split at this
    · cases this
    · exact Option.some.inj this
  cases h1
  constructor
  · intro e c' hc'
    by_contra hne
    have e1 : nSeated s.data v = 1 := by omega
    have := (Crp.occupied_iff h2 v).mpr ⟨c', by rw [h4, if_neg hne]; exact hc'⟩
    simp only [e1, if_true] at this
    rw [Dict.mem_keys_erase] at this
    exact this.1 rfl
  · intro hall
    by_contra hne
    have e1 : ¬ nSeated s.data v = 1 := by omega
    obtain ⟨c', hc'⟩ := (Crp.occupied_iff h2 v).mp (by
      simp only [e1, if_false]
      rw [Dict.mem_keys_set]; exact Or.inl rfl)
    rw [h4] at hc'
    split at hc'
    · cases hc'
    · rename_i hne'
      exact hne' (hall c' hc')

theorem Inv.counts {s : State C} (h : Inv s) {c : Col} {v : Nat} (hc : s.Zv c = some v) :
    ∃ nv, s.crp.counts.get? v = some nv := by
  exact Dict.exists_of_mem_keys ((Crp.occupied_iff h.crp v).mpr ⟨c, hc⟩)

/-- A column is removed. -/
theorem Inv.unincorporateDim_ok {s : State C} (h : Inv s) {col : Col} (hc : col ∈ s.outputs)
    (hlen : s.outputs.length ≠ 1)
    (hins : ∀ c d, s.dimFor c = .ok d → c ≠ col → col ∉ d.inputs) :
    ∃ s', s.unincorporateDim col = .ok s' ∧ Inv s' ∧ s'.nRows = s.nRows ∧
      s'.outputs = s.outputs.filter (· ≠ col) ∧ s'.X = s.X.erase col ∧
      s'.Zv = upd s.Zv col none ∧ s'.crp.alpha = s.crp.alpha ∧ s'.Cd = s.Cd ∧ s'.Ci = s.Ci ∧
      (∀ i v', s'.views.get? i = some v' → ∃ v, s.views.get? i = some v ∧ v' = drop col v) := by
  obtain ⟨v, view, d, hz, hv, hd, hdf, ho, hdo⟩ := h.dim hc
  obtain ⟨nv, hnv⟩ := h.counts hz
  obtain ⟨crp', h1, h2, h3, h4⟩ := Crp.unc_data h.crp hz
  have hZ' : (fun c => crp'.data.get? c) = upd s.Zv col none := by
    funext c; rw [h4]; unfold upd Zv; rfl
  have hhas : view.dims.has col = true := (Dict.has_iff _ _).mpr (Dict.mem_keys_of_get? hd)
  have hone := count_one_iff h.crp hz hnv
  -- the views after the removal
  have hset : ∀ i w, (s.views.set v (drop col view)).get? i = some w →
      ∃ w0, s.views.get? i = some w0 ∧ w = drop col w0 := by
    intro i w hw
    rw [Dict.get?_set] at hw
    split at hw
    · rename_i e; subst e; cases hw; exact ⟨view, hv, rfl⟩
    · rename_i e
      refine ⟨w, hw, ?_⟩
      have how := h.views.view i w hw
      have : w.dims.get? col = none := by
        rw [Dict.get?_eq_none_iff, how.dims, hz]
        intro he; exact e (Option.some.inj he).symm
      unfold drop
      rw [Dict.erase_of_not_mem this]
  have hV : VInv (tblOf (s.X.erase col)) s.nRows (upd s.Zv col none)
      (· ∈ s.outputs.filter (· ≠ col)) (s.views.set v (drop col view)) := by
    refine ⟨Dict.wf_set h.views.wf _ _, fun i w hw => ?_⟩
    obtain ⟨w0, hw0, rfl⟩ := hset i w hw
    have how := h.views.view i w0 hw0
    have hdrop := how.drop col
    have hcols : ∀ q ∈ (drop col w0).dims, ∀ j ∈ q.2.inputs, j ∈ s.outputs.filter (· ≠ col) := by
      intro q hq j hj
      have hq' := mem_dims_of_drop hq
      have hqne : q.1 ≠ col := by
        have := (hdrop.dims q.1).mp (List.mem_map_of_mem hq)
        intro e; rw [e] at this; simp at this
      have := hins q.1 q.2 (h.dimFor_of_view hw0 (Dict.get?_of_mem how.inv.wf hq')) hqne
      simp only [List.mem_filter, decide_eq_true_eq]
      exact ⟨how.ins q hq' j hj, fun e => this (e ▸ hj)⟩
    have hstep : VOk s.tbl s.nRows (upd s.Zv col none) (· ∈ s.outputs.filter (· ≠ col)) i
        (drop col w0) := ⟨hdrop.inv, hdrop.rows, hdrop.dims, hcols⟩
    refine hstep.congrX (fun c hc => ?_) fun c hc r _ => tblOf_erase ?_ r
    · have hne : c ≠ col := by rintro rfl; simp at hc
      rw [upd_ne _ _ hne] at hc
      simp only [List.mem_filter, decide_eq_true_eq]
      exact ⟨h.hZ c hc, hne⟩
    · simp only [List.mem_filter, decide_eq_true_eq] at hc; exact hc.2
  have hrect := h.data.erase hlen hc
  have hcolsN : ∀ c, upd s.Zv col none c ≠ none ↔ c ∈ s.outputs.filter (· ≠ col) := by
    intro c
    simp only [List.mem_filter, decide_eq_true_eq]
    by_cases e : c = col
    · subst e; simp
    · rw [upd_ne _ _ e, h.cols]; simp [e]
  have hcond : ¬ (nv = 1 ∧ crp'.counts.has v = true) := by
    rintro ⟨e, hh⟩
    obtain ⟨c', hc'⟩ := (Crp.occupied_iff h2 v).mp ((Dict.has_iff _ _).mp hh)
    rw [h4] at hc'
    split at hc'
    · cases hc'
    · rename_i hne; exact hne (hone.mp e c' hc')
  have hlist : s.outputs.contains col = true := by simpa using hc
  refine ⟨{ s with
      views := if nv = 1 then (s.views.set v (drop col view)).erase v
        else s.views.set v (drop col view)
      crp := crp'
      X := s.X.erase col
      outputs := s.outputs.filter (· ≠ col) }, ?_, ?_, hrect.nRows, rfl, rfl, hZ', h3, rfl, rfl, ?_⟩
  · unfold State.unincorporateDim
    rw [if_neg hlen, hlist]
    simp only [Bool.not_true, Bool.false_eq_true, if_false, hz, hv, hnv, View.unincorporateDim,
      hhas, if_true, h1]
    rw [if_neg hcond]
    unfold drop
    by_cases e : nv = 1 <;> simp [e]
  · refine Inv.of (n := s.nRows) hrect h.pos h2 (h3 ▸ h.alpha) ?_ ?_ ?_
    · intro c
      have := congrFun hZ' c
      show crp'.data.get? c ≠ none ↔ _
      rw [this]; exact hcolsN c
    · show VInv (tblOf (s.X.erase col)) s.nRows (fun c => crp'.data.get? c) _ _
      rw [hZ']
      show VInv _ _ _ _ (if nv = 1 then _ else _)
      split
      · exact hV.erase v
      · exact hV
    · intro i
      show i ∈ (if nv = 1 then (s.views.set v (drop col view)).erase v
        else s.views.set v (drop col view)).keys ↔ ∃ c, crp'.data.get? c = some i
      have hk : (s.views.set v (drop col view)).keys = s.views.keys := by
        rw [Dict.keys_set, if_pos (Dict.mem_keys_of_get? hv)]
      split
      · rename_i e1
        rw [Dict.mem_keys_erase, hk, h.occ]
        constructor
        · rintro ⟨hne, c, hc'⟩
          refine ⟨c, ?_⟩
          rw [h4, if_neg]
          · exact hc'
          · rintro rfl
            rw [hz] at hc'
            exact hne (Option.some.inj hc').symm
        · rintro ⟨c, hc'⟩
          rw [h4] at hc'
          split at hc'
          · cases hc'
          · rename_i hne
            refine ⟨?_, c, hc'⟩
            rintro rfl
            exact hne (hone.mp e1 c hc')
      · rename_i e1
        rw [hk, h.occ]
        constructor
        · rintro ⟨c, hc'⟩
          by_cases e : c = col
          · subst e
            rw [hz] at hc'
            cases hc'
            have : ∃ c', s.Zv c' = some v ∧ c' ≠ c := by
              by_contra hno
              push Not at hno
              exact e1 (hone.mpr hno)
            obtain ⟨c', hc1, hc2⟩ := this
            exact ⟨c', by rw [h4, if_neg hc2]; exact hc1⟩
          · exact ⟨c, by rw [h4, if_neg e]; exact hc'⟩
        · rintro ⟨c, hc'⟩
          rw [h4] at hc'
          split at hc'
          · cases hc'
          · exact ⟨c, hc'⟩
  · intro i v' hv'
    have hv'' : (if nv = 1 then (s.views.set v (drop col view)).erase v
        else s.views.set v (drop col view)).get? i = some v' := hv'
    split at hv''
    · rw [Dict.get?_erase] at hv''
      split at hv''
      · cases hv''
      · exact hset i v' hv''
    · exact hset i v' hv''

end State
end Cgpm
