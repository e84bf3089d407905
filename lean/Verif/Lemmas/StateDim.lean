import Verif.Lemmas.StateCols

/-! Columns of a State: changing a type, new views, proposals. -/
namespace Cgpm
namespace State
variable {C : Cat}
open View

/-- Replacing a column inside its view. -/
theorem VOk.replace {X : C.Tbl} {n : Nat} {Z : Col → Option Nat} {cols : Col → Prop} {i : Nat}
    {v : View C} (h : VOk X n Z cols i v) {col : Col} (hz : Z col = some i) {d : Dim C}
    (hd : DimOk X v.seat col d) (hi : ∀ j ∈ d.inputs, cols j) :
    VOk X n Z cols i { v with dims := (v.dims.erase col).set col d } := by
  have := (h.drop col).put (d := d) hd hi
  rw [← hz, upd_eq] at this
  exact this

theorem cctypeInputs_ok {cfg : Cfg C} {view : View C} {col : Col} {kind : C.ι}
    {ins : Option (List Col)} {inputs : List Col}
    (h : cctypeInputs cfg view col kind ins = .ok inputs) : ∀ i ∈ inputs, i ∈ view.dims.keys := by
  unfold cctypeInputs at h
  split at h
  · simp only at h
    split at h
    · cases h
    · split at h
      · rename_i hall
        cases h
        intro i hi
        exact (Dict.has_iff _ _).mp (List.all_eq_true.mp hall i hi)
      · cases h
  · cases h
    simp

/-- The type of a column is changed. -/
theorem Inv.updateCctype_ok {cfg : Cfg C} {s : State C} (h : Inv s) {col : Col} {v : Nat}
    {view : View C} (hz : s.Zv col = some v) (hv : s.views.get? v = some view) {kind : C.ι}
    {ins : Option (List Col)} {inputs : List Col}
    (hins : cctypeInputs cfg view col kind ins = .ok inputs) {hyp hyp' : C.H}
    (hh : (C.F kind).hypOk hyp) (hh' : (C.F kind).hypOk hyp')
    (hacc : ∀ r, r < s.nRows → Accepts s.tbl (Dim.new col inputs kind hyp) r) :
    ∃ d, s.updateCctype cfg col kind ins hyp hyp' = .ok
        { s with views := s.views.set v { view with dims := (view.dims.erase col).set col d } } ∧
      Inv { s with views := s.views.set v { view with dims := (view.dims.erase col).set col d } } ∧
      d.index = col ∧ d.inputs = inputs ∧ d.kind = kind ∧ d.hyp = hyp' := by
  have ho := h.views.view v view hv
  have hc := h.hZ col hz
  have hk : col ∈ view.dims.keys := (ho.dims col).mpr hz
  have hhas : view.dims.has col = true := (Dict.has_iff _ _).mpr hk
  have hdrop := ho.drop col
  rcases incorporateDim_spec hdrop.inv (Dim.new col inputs kind hyp) hh with
    ⟨d', h1, h2, h3, -⟩ | ⟨e, r, -, hr, hn⟩
  swap
  · exact absurd (hacc r ((hdrop.rows r).mp hr)) hn
  have hix : (Dim.new (C := C) col inputs kind hyp).index = col := rfl
  rw [hix] at h1 h3
  have hin : ∀ j ∈ d'.inputs, j ∈ s.outputs := by
    intro j hj
    rw [h2.inputs] at hj
    exact h.hZ j ((ho.dims j).mp (cctypeInputs_ok hins j hj))
  have hVO := ho.replace hz h3 hin
  have hI := h.setView hv hVO
  have hdf : (⟨s.X, s.outputs, s.crp,
      s.views.set v { view with dims := (view.dims.erase col).set col d' }, s.Cd, s.Ci⟩ :
      State C).dimFor col = .ok d' := by
    have hz' : s.crp.data.get? col = some v := hz
    simp only [dimFor, Zv, hz', Dict.get?_set_self]
  obtain ⟨i, w, g1, g2, g3, g4, g5⟩ := hI.transitionDimHypers_ok hdf (hy := hyp') (by
    have : d'.fam = C.F kind := h2.fam
    rw [this]; exact hh')
  have hz' : s.crp.data.get? col = some v := hz
  have ei : i = v := by
    have : s.crp.data.get? col = some i := g1
    rw [hz'] at this; exact (Option.some.inj this).symm
  subst ei
  have ew : w = { view with dims := (view.dims.erase col).set col d' } := by
    have : (s.views.set i { view with dims := (view.dims.erase col).set col d' }).get? i = some w :=
      g2
    rw [Dict.get?_set_self] at this
    exact (Option.some.inj this).symm
  subst ew
  have e1 : (s.views.set i { view with dims := (view.dims.erase col).set col d' }).set i
      { view with dims := ((view.dims.erase col).set col d').set col (d'.transitionHypers hyp') } =
      s.views.set i
      { view with dims := (view.dims.erase col).set col (d'.transitionHypers hyp') } := by
    rw [Dict.set_set, Dict.set_set]
  refine ⟨d'.transitionHypers hyp', ?_, ?_, h2.index, h2.inputs, h2.kind, rfl⟩
  · rw [← e1]
    unfold State.updateCctype
    have hlist : s.outputs.contains col = true := by simpa using hc
    simp only [hlist, Bool.not_true, Bool.false_eq_true, if_false, hz, hv, hins,
      View.updateCctype, View.unincorporateDim, hhas, if_true, Out.bind]
    have h1' : View.incorporateDim s.tbl { view with dims := view.dims.erase col }
      (Dim.new col inputs kind hyp) true = .ok
        { view with dims := (view.dims.erase col).set col d' } := h1
    rw [h1']
    exact g4
  · rw [← e1]; exact g5

/-! ### New views -/

theorem seatRows_ok (zs : List Tab) (i : Nat) {crp : Crp} (h : Crp.Inv crp)
    (hi : ∀ r, i ≤ r → crp.data.get? r = none) :
    ∃ crp', seatRows crp zs i = .ok crp' ∧ Crp.Inv crp' ∧ crp'.alpha = crp.alpha ∧
      ∀ r, crp'.data.get? r = if r < i then crp.data.get? r else zs[r - i]? := by
  induction zs generalizing i crp with
  | nil =>
    refine ⟨crp, rfl, h, rfl, fun r => ?_⟩
    split
    · rfl
    · rename_i hr
      rw [hi r (not_lt.mp hr)]; simp
  | cons z zs ih =>
    obtain ⟨c1, h1, h2, h3, h4⟩ := Crp.inc_data h z (hi i le_rfl)
    obtain ⟨c2, g1, g2, g3, g4⟩ := ih (i + 1) h2 (fun r hr => by
      rw [h4, if_neg (by rintro rfl; exact absurd hr (Nat.not_succ_le_self _))]
      exact hi r (Nat.le_of_succ_le hr))
    refine ⟨c2, by simp only [seatRows, h1, g1], g2, g3.trans h3, fun r => ?_⟩
    rw [g4, h4]
    rcases Nat.lt_trichotomy r i with hlt | rfl | hgt
    · rw [if_pos (Nat.lt_succ_of_lt hlt), if_neg (Nat.ne_of_lt hlt), if_pos hlt]
    · rw [if_pos (Nat.lt_succ_self r), if_pos rfl, if_neg (Nat.lt_irrefl r)]; simp
    · rw [if_neg (Nat.not_lt.mpr hgt), if_neg (Nat.not_lt.mpr (Nat.le_of_lt hgt))]
      obtain ⟨k, rfl⟩ := Nat.exists_eq_add_of_lt hgt
      have e1 : i + k + 1 - (i + 1) = k := by omega
      have e2 : i + k + 1 - i = k + 1 := by omega
      show zs[i + k + 1 - (i + 1)]? = (z :: zs)[i + k + 1 - i]?
      rw [e1, e2]; simp

/-- A new view seats the rows as drawn. -/
theorem newView_ok {a : ℝ} (ha : 0 < a) (zs : List Tab) (X : C.Tbl) :
    ∃ v : View C, newView a zs = .ok v ∧ View.Inv X v ∧ v.dims = [] ∧ v.crp.alpha = a ∧
      ∀ r, v.seat r = zs[r]? := by
  obtain ⟨crp, h1, h2, h3, h4⟩ := seatRows_ok zs 0 (Crp.inv_init a) (fun r _ => rfl)
  refine ⟨⟨crp, []⟩, by simp only [newView, h1], ⟨h2, by rw [h3]; exact ha, Dict.wf_nil,
    fun p hp => by cases hp⟩, rfl, h3, fun r => ?_⟩
  unfold View.seat
  rw [h4]; simp

theorem newView_rows {X : C.Tbl} {n : Nat} {z : Row → Tab} {v : View C}
    {Z : Col → Option Nat} {cols : Col → Prop} {i : Nat} (hv : View.Inv X v) (hd : v.dims = [])
    (hs : ∀ r, v.seat r = ((List.range n).map z)[r]?) (hZ : ∀ c, Z c ≠ some i) :
    VOk X n Z cols i v where
  inv := hv
  rows := fun r => by
    rw [hs, List.getElem?_map]
    by_cases hr : r < n
    · simp [hr]
    · simp [hr]
  dims := fun c => by rw [hd]; simpa [Dict.keys] using hZ c
  ins := fun q hq => by rw [hd] at hq; cases hq

/-! ### Proposals -/

/-- The proposal of a column to one view. -/
theorem propose_ok {cfg : Cfg C} {X : C.Tbl} {v : View C} (h : View.Inv X v) {d : Dim C}
    {col : Col} (hix : d.index = col) (hh : d.fam.hypOk d.hyp)
    (hacc : ∀ r, v.seat r ≠ none → Accepts X d r)
    (hmem : cfg.collapsed d.kind = true ∨ (col ∈ v.dims.keys → DimOk X v.seat col d)) :
    ∃ d1, propose cfg X v d = .ok (drop col v, d1, d1.score) ∧ Dim.Frame d d1 ∧
      DimOk X v.seat col d1 := by
  subst hix
  have key : ∀ b d1, v.incorporateDim X d b = .ok { v with dims := v.dims.set d.index d1 } →
      b = (cfg.collapsed d.kind || !v.dims.has d.index) →
      propose cfg X v d = .ok (drop d.index v, d1, d1.score) := by
    intro b d1 h1 hb
    unfold propose
    rw [← hb, h1]
    have : (v.dims.set d.index d1).has d.index = true := by
      rw [Dict.has_iff, Dict.mem_keys_set]; exact Or.inl rfl
    simp only [Dict.get?_set_self, View.unincorporateDim, this, if_true, Dict.erase_set]
    rfl
  cases hb : (cfg.collapsed d.kind || !v.dims.has d.index) with
  | true =>
    rcases incorporateDim_spec h d hh with ⟨d', h1, h2, h3, -⟩ | ⟨e, r, -, hr, hn⟩
    · exact ⟨d', key true d' h1 hb.symm, h2, h3⟩
    · exact absurd (hacc r hr) hn
  | false =>
    rw [Bool.or_eq_false_iff] at hb
    have hk : d.index ∈ v.dims.keys := (Dict.has_iff _ _).mp (by simpa using hb.2)
    have hd : DimOk X v.seat d.index d := by
      rcases hmem with hc | hm
      · rw [hb.1] at hc; cases hc
      · exact hm hk
    refine ⟨d, key false d rfl ?_, Dim.Frame.refl d, hd⟩
    simp [hb.1, hb.2]

theorem dimOk_of_frame_hyp {X : C.Tbl} {s : Row → Option Tab} {c : Col} {d : Dim C}
    (h : DimOk X s c d) : d.fam.hypOk d.hyp := h.hyp

/-- The proposals of a column to the existing views: it is taken out of all of them, and what is
proposed to each is the column filed under that view's row partition. -/
theorem proposeAll_ok {cfg : Cfg C} {X : C.Tbl} {col : Col} {d0 : Dim C}
    (hix : d0.index = col) (hh : d0.fam.hypOk d0.hyp) {vs : Dict Nat (View C)}
    (h : ∀ p ∈ vs, View.Inv X p.2 ∧ (∀ r, p.2.seat r ≠ none → Accepts X d0 r) ∧
      (cfg.collapsed d0.kind = true ∨ (col ∈ p.2.dims.keys → DimOk X p.2.seat col d0)))
    {d : Dim C} (hf : Dim.Frame d0 d) (hd : cfg.collapsed d0.kind = true ∨ d = d0) :
    ∃ ps, proposeAll cfg X d vs = .ok (dropCol col vs, ps) ∧
      List.Forall₂ (fun (p : Nat × View C) (q : Dim C × ℝ) =>
        Dim.Frame d0 q.1 ∧ DimOk X p.2.seat col q.1 ∧ q.2 = q.1.score) vs ps := by
  induction vs generalizing d with
  | nil => exact ⟨[], rfl, .nil⟩
  | cons p t ih =>
    obtain ⟨i, v⟩ := p
    obtain ⟨hi, hacc, hm⟩ := h (i, v) (by simp)
    obtain ⟨d1, h1, h2, h3⟩ := propose_ok (cfg := cfg) hi (d := d) (col := col)
      (hf.index.trans hix) (by rw [hf.fam, hf.hyp]; exact hh)
      (fun r hr => (accepts_frame hf r).mpr (hacc r hr)) (by
        rw [hf.kind]
        rcases hd with hd | rfl
        · exact Or.inl hd
        · exact hm)
    have hf1 := hf.trans h2
    obtain ⟨ps, g1, g2⟩ := ih (fun q hq => h q (by simp [hq]))
      (d := if cfg.collapsed d.kind then d1 else d)
      (by split
          · exact hf1
          · exact hf)
      (by rw [hf.kind]
          rcases hd with hd | rfl
          · exact Or.inl hd
          · by_cases hc : cfg.collapsed d.kind = true
            · exact Or.inl hc
            · right; rw [if_neg hc])
    refine ⟨(d1, d1.score) :: ps, ?_, .cons ⟨hf1, h3, rfl⟩ g2⟩
    simp only [proposeAll, h1, g1]
    rfl

/-- The auxiliary views and the proposals for them. -/
theorem proposeAux_ok {cfg : Cfg C} {X : C.Tbl} {n : Nat} {col : Col} {d : Dim C}
    (hix : d.index = col) (hh : d.fam.hypOk d.hyp) (hacc : ∀ r, r < n → Accepts X d r)
    {aux : Nat → ℝ × (Row → Tab)} (haux : ∀ j, 0 < (aux j).1) (js : List Nat) :
    ∃ ps, proposeAux cfg X n d aux js = .ok ps ∧
      List.Forall₂ (fun (j : Nat) (q : View C × Dim C × ℝ) =>
        View.Inv X q.1 ∧ q.1.dims = [] ∧ q.1.crp.alpha = (aux j).1 ∧
        (∀ r, q.1.seat r = ((List.range n).map (aux j).2)[r]?) ∧
        Dim.Frame d q.2.1 ∧ DimOk X q.1.seat col q.2.1 ∧ q.2.2 = q.2.1.score) js ps := by
  induction js with
  | nil => exact ⟨[], rfl, .nil⟩
  | cons j js ih =>
    obtain ⟨v, h1, h2, h3, h4, h5⟩ := newView_ok (haux j) ((List.range n).map (aux j).2) X
    have hrows := (newView_rows (Z := fun _ => none) (cols := fun _ => True) (i := 0) h2 h3 h5
      (by simp)).rows
    obtain ⟨d1, g1, g2, g3⟩ := propose_ok (cfg := cfg) h2 hix hh
      (fun r hr => hacc r ((hrows r).mp hr)) (Or.inr (by rw [h3]; simp [Dict.keys]))
    have hdv : drop col v = v := by
      unfold drop; rw [h3]; obtain ⟨crp, ds⟩ := v; simp only at h3; subst h3; rfl
    rw [hdv] at g1
    obtain ⟨ps, e1, e2⟩ := ih
    exact ⟨(v, d1, d1.score) :: ps, by simp only [proposeAux, h1, g1, e1],
      .cons ⟨h2, h3, h4, h5, g2, g3, rfl⟩ e2⟩

end State
end Cgpm
