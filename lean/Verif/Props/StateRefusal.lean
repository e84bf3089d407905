import Verif.Props.State

/-!
C19: what a refused call leaves behind.
-/
namespace Cgpm.Props
open Cgpm Cgpm.View Cgpm.State

variable {C : Cat}

/-- **C19 (partial).** A legal call of incorporate, unincorporate, force_cell, incorporate_dim or
unincorporate_dim that raises leaves the State exactly as it was.  Legality allows all wrong row
numbers, unknown columns, views and clusters, observed cells, and data of the wrong length.
Missing: values that a column does not accept, and incorporate_dim without a view while columns
cannot be moved; in both cases the State is changed, see below. -/
theorem C19_refusals_partial (hC : C.Lawful) {cfg : Cfg C} {s : State C}
    (h : StateReachable cfg s) (op : State.Op C) (hl : stateLegal cfg s op)
    (hop : match op with
      | .inc .. | .unc .. | .force .. | .uncDim .. => True
      | .incDim _ _ _ _ v _ => (∃ v0, v = some v0) ∨
          (∀ c d, s.dimFor c = .ok d → cfg.conditional d.kind = false) ∧ s.Cd = []
      | _ => False)
    {e : Exn} {s' : State C} (he : s.apply cfg op = .err e s') : s' = s := by
  have hI := h.inv hC
  cases op with
  | inc r obs ks z =>
    by_cases hg : r = s.nRows ∧ (∀ v ∈ ks.keys, v ∈ s.views.keys) ∧
        (∀ c ∈ obs.keys, c ∈ s.outputs) ∧ ∀ p ∈ obs, p.2 ≠ none
    · obtain ⟨rfl, h1, h2, h3⟩ := hg
      obtain ⟨s1, g1, -⟩ := hI.incorporate_ok hC z h1 h2 h3
        (fun c d hd => (admissible_iff _ _ _).mp (hl rfl c d hd))
      simp only [State.apply, g1] at he; cases he
    · simp only [State.apply, incorporate_err hg] at he; exact (Out.err.inj he).2.symm
  | unc r =>
    by_cases hg : r + 1 = s.nRows ∧ s.nRows ≠ 1
    · obtain ⟨s1, g1, -⟩ := hI.unincorporate_ok hC hg.1.symm
        (Nat.pos_of_ne_zero fun e => hg.2 (by rw [← hg.1, e]))
      simp only [State.apply, g1] at he; cases he
    · simp only [State.apply, unincorporate_err hg] at he; exact (Out.err.inj he).2.symm
  | force r obs =>
    by_cases hg : r < s.nRows ∧ allMissing s.X r obs.keys = .ok true
    · obtain ⟨h1, h2⟩ := hl.2 hg.1
      obtain ⟨s1, g1, -⟩ := hI.forceCell_ok hC hl.1 hg.1 hg.2
        (fun c hc d hd => (admissible_iff _ _ _).mp (by
          rw [← cellsForced_eq]; exact h1 c hc d hd)) h2
      simp only [State.apply, g1] at he; cases he
    · obtain ⟨e', he'⟩ := forceCell_err hg
      simp only [State.apply, he'] at he; exact (Out.err.inj he).2.symm
  | incDim T outs ins kind v ω =>
    by_cases hg : T.length = s.nRows ∧ ins = [] ∧ ∃ col, outs = [col] ∧ col ∉ s.outputs
    · obtain ⟨hT, rfl, col, rfl, hc⟩ := hg
      obtain ⟨s1, g1, -⟩ := (C18_effect hC h).2.2.2.1 T col kind v ω hl hT hc hop
      simp only [State.apply, g1] at he; cases he
    · simp only [State.apply, incorporateDim_err hg] at he; exact (Out.err.inj he).2.symm
  | uncDim col =>
    by_cases hg : s.outputs.length ≠ 1 ∧ col ∈ s.outputs
    · obtain ⟨s1, g1, -⟩ := hI.unincorporateDim_ok hg.2 hg.1 hl
      simp only [State.apply, g1] at he; cases he
    · simp only [State.apply, unincorporateDim_err hg] at he; exact (Out.err.inj he).2.symm
  | cctype => exact hop.elim
  | alpha => exact hop.elim
  | viewAlpha => exact hop.elim
  | hypers => exact hop.elim
  | row => exact hop.elim
  | column => exact hop.elim

/-! The values decide: a row with good names is accepted exactly when every column accepts its
value, and otherwise the row is in the data set all the same. -/

theorem dim_inc_accepts {d d' : Dim C} {r : Row} {k : Tab} {x : C.Cell} {ins : List C.Cell}
    (h : d.incorporate r k x ins = .ok d') (o : C.O) (ho : validObs x ins = some o) :
    ∃ o', d.fam.prep o = .ok o' := by
  unfold Dim.incorporate at h
  split at h
  · cases h
  · simp only [ho] at h
    split at h
    · cases h
    · rename_i c _
      cases hp : d.fam.prep o with
      | ok o' => exact ⟨o', rfl⟩
      | error e =>
        unfold Comp.incorporate at h
        simp only [hp] at h
        split at h <;> rename_i hh <;> split at hh <;> cases hh
        all_goals cases h

theorem incDims_accepts {X : C.Tbl} {r : Row} {k : Tab} {obs : Dict Col C.Cell}
    {ds ds' : Dict Col (Dim C)} (h : incDims X r k obs ds = .ok ds') :
    ∀ p ∈ ds, ∃ x, obs.get? p.1 = some x ∧ ∀ o, validObs x (inputsOf X p.2 r) = some o →
      ∃ o', p.2.fam.prep o = .ok o' := by
  induction ds generalizing ds' with
  | nil => intro p hp; cases hp
  | cons q t ih =>
    obtain ⟨c, d⟩ := q
    simp only [incDims] at h
    split at h
    · cases h
    · rename_i x hx
      split at h
      · cases h
      · rename_i d1 hd1
        split at h
        · cases h
        · rename_i t' ht'
          intro p hp
          rcases List.mem_cons.mp hp with rfl | hp
          · exact ⟨x, hx, dim_inc_accepts hd1⟩
          · exact ih ht' p hp

theorem view_inc_accepts {X : C.Tbl} {v v' : View C} {r : Row} {obs : Dict Col C.Cell}
    {k : Option Tab} {z : Tab} (h : v.incorporate X r obs k z = .ok v') :
    ∀ p ∈ v.dims, ∃ x, obs.get? p.1 = some x ∧ ∀ o, validObs x (inputsOf X p.2 r) = some o →
      ∃ o', p.2.fam.prep o = .ok o' := by
  have key : ∀ k v1, v.incorporateAt X r obs k = .ok v1 →
      ∀ p ∈ v.dims, ∃ x, obs.get? p.1 = some x ∧ ∀ o, validObs x (inputsOf X p.2 r) = some o →
        ∃ o', p.2.fam.prep o = .ok o' := by
    intro k v1 h
    unfold incorporateAt at h
    split at h
    · cases h
    · split at h
      · cases h
      · split at h
        · cases h
        · rename_i ds hds
          exact incDims_accepts hds
  unfold View.incorporate at h
  cases k with
  | some k => exact key k v' h
  | none =>
    simp only at h
    cases h1 : v.incorporateAt X r obs 0 with
    | ok v1 => exact key 0 v1 h1
    | err e v1 => rw [h1] at h; cases h

theorem incViews_accepts {X : C.Tbl} {r : Row} {ks : Dict Nat Tab} {z : Nat → Tab}
    {vs vs' : Dict Nat (View C)} (h : incViews X r ks z vs = .ok vs') :
    ∀ q ∈ vs, q.2.dims.WF → ∀ p ∈ q.2.dims, ∀ o,
      validObs (X p.1 r) (inputsOf X p.2 r) = some o → ∃ o', p.2.fam.prep o = .ok o' := by
  induction vs generalizing vs' with
  | nil => intro q hq; cases hq
  | cons w t ih =>
    obtain ⟨i, v⟩ := w
    simp only [incViews] at h
    split at h
    · cases h
    · rename_i v1 hv1
      split at h
      · cases h
      · rename_i t' ht'
        intro q hq hw p hp
        rcases List.mem_cons.mp hq with rfl | hq
        · obtain ⟨x, h1, h2⟩ := view_inc_accepts hv1 p hp
          rw [mem_dims_map v hw X r p hp] at h1
          cases h1
          exact h2
        · exact ih ht' q hq hw p hp

/-- **C19.** A row with good names is accepted exactly when every column accepts its value. -/
theorem C19_incorporate_accepts_iff (hC : C.Lawful) {cfg : Cfg C} {s : State C}
    (h : StateReachable cfg s) (obs : Dict Col C.Cell) (ks : Dict Nat Tab) (z : Nat → Tab)
    (hks : ∀ v ∈ ks.keys, v ∈ s.views.keys) (hobs : ∀ c ∈ obs.keys, c ∈ s.outputs)
    (hval : ∀ p ∈ obs, p.2 ≠ none) :
    (∃ s', s.incorporate s.nRows obs ks z = .ok s') ↔
      ∀ c d, s.dimFor c = .ok d → admissible (rowAdded s obs) d s.nRows := by
  have hI := h.inv hC
  constructor
  · rintro ⟨s', hs⟩ c d hd
    rw [admissible_iff, rowAdded_eq]
    obtain ⟨X', h1, h2, h3⟩ := pushRow_ok obs hI.data.nodup (X := s.X)
      (fun c hc => by rw [hI.data.keys]; exact hc)
    obtain ⟨hr, ht, hold⟩ := hI.data.push h2 h3
    unfold State.incorporate at hs
    have e1 : (ks.keys.all fun v => s.views.has v) = true := by
      rw [List.all_eq_true]; intro v hv; exact (Dict.has_iff _ _).mpr (hks v hv)
    have e2 : (obs.keys.all fun c => s.outputs.contains c) = true := by
      rw [List.all_eq_true]; intro v hv; simpa using hobs v hv
    have e3 : (obs.any fun p => p.2.isNone) = false := by
      rw [List.any_eq_false]; intro p hp hn
      exact hval p hp (by simpa using hn)
    simp only [ne_eq, not_true_eq_false, if_false, e1, e2, e3, Bool.not_true, Bool.or_self, h1,
      Bool.false_eq_true] at hs
    split at hs
    · cases hs
    · rename_i vs hvs
      obtain ⟨i, v, -, g2, g3⟩ := dimFor_ok hd
      have ho := hI.views.view i v g2
      have hq := Dict.mem_of_get? g3
      have := incViews_accepts hvs (i, v) (Dict.mem_of_get? g2) ho.inv.wf (c, d) hq
      have hix : d.index = c := (ho.inv.dim (c, d) hq).index
      have hc := hI.dimFor_mem hd
      have hA : ∀ c ∈ s.outputs, tblOf X' c s.nRows = s.rowTbl obs c s.nRows := by
        intro c hc
        unfold rowTbl
        rw [if_pos rfl, if_pos hc]; exact ht c hc
      intro o ho'
      apply this o
      rw [← ho']
      unfold obsOf
      rw [hix]
      show validObs (tblOf X' c s.nRows) (inputsOf (tblOf X') d s.nRows) = _
      rw [hA c hc]
      congr 1
      unfold inputsOf
      exact List.map_congr_left fun j hj => hA j (ho.ins (c, d) hq j hj)
  · intro hadm
    obtain ⟨s', g1, -⟩ := hI.incorporate_ok hC z hks hobs hval
      (fun c d hd => (admissible_iff _ _ _).mp (by have := hadm c d hd; exact this))
    exact ⟨s', g1⟩

/-- **C19 (violated).** Whenever a row with good names is refused because of its values, the data
set has grown by the row: the State is not as it was before the call. -/
theorem C19_incorporate_violated (hC : C.Lawful) {cfg : Cfg C} {s s' : State C}
    (h : StateReachable cfg s) (obs : Dict Col C.Cell) (ks : Dict Nat Tab) (z : Nat → Tab)
    (hks : ∀ v ∈ ks.keys, v ∈ s.views.keys) (hobs : ∀ c ∈ obs.keys, c ∈ s.outputs)
    (hval : ∀ p ∈ obs, p.2 ≠ none) {e : Exn} (he : s.incorporate s.nRows obs ks z = .err e s') :
    s'.nRows = s.nRows + 1 ∧ s' ≠ s := by
  have hI := h.inv hC
  obtain ⟨X', h1, h2, h3⟩ := pushRow_ok obs hI.data.nodup (X := s.X)
    (fun c hc => by rw [hI.data.keys]; exact hc)
  obtain ⟨hr, -, -⟩ := hI.data.push h2 h3
  have e1 : (ks.keys.all fun v => s.views.has v) = true := by
    rw [List.all_eq_true]; intro v hv; exact (Dict.has_iff _ _).mpr (hks v hv)
  have e2 : (obs.keys.all fun c => s.outputs.contains c) = true := by
    rw [List.all_eq_true]; intro v hv; simpa using hobs v hv
  have e3 : (obs.any fun p => p.2.isNone) = false := by
    rw [List.any_eq_false]; intro p hp hn
    exact hval p hp (by simpa using hn)
  unfold State.incorporate at he
  simp only [ne_eq, not_true_eq_false, if_false, e1, e2, e3, Bool.not_true, Bool.or_self, h1,
    Bool.false_eq_true] at he
  have hn : s'.nRows = s.nRows + 1 := by
    split at he
    · cases he; exact hr.nRows
    · cases he
  refine ⟨hn, fun hs => ?_⟩
  rw [hs] at hn
  omega

/-- **C19 (violated).** A new column whose data contain a value its type does not accept is
refused, but its data and its name stay in the State, while no view models it. -/
theorem C19_incorporate_dim_violated (hC : C.Lawful) {cfg : Cfg C} {s : State C}
    (h : StateReachable cfg s) (T : List C.Cell) (hT : T.length = s.nRows) (col : Col)
    (hcol : col ∉ s.outputs) (kind : C.ι) (hcond : cfg.conditional kind = false) (v : Option Nat)
    (ω : DimDraws C) (hh : (C.F kind).hypOk ω.hyp) (hw : 0 < ω.view.1) (r : Row)
    (hr : r < s.nRows)
    (hbad : ¬ admissible (columnAdded s col T) (Dim.new col [] kind ω.hyp) r) :
    ∃ e s', s.incorporateDim cfg T [col] [] kind v ω = .err e s' ∧ col ∈ s'.outputs ∧
      s'.X.get? col = some T ∧ s'.Zv col = none := by
  have hI := h.inv hC
  rw [admissible_iff, columnAdded_eq] at hbad
  have hz : s.Zv col = none := hI.not_mem hcol
  have hc' : s.outputs.contains col = false := by simpa using hcol
  have hn : (⟨s.X.set col T, s.outputs ++ [col], s.crp, s.views, s.Cd, s.Ci⟩ : State C).nRows =
      s.nRows := (hI.data.add hcol hT).nRows
  have hV1 : VInv (s.colTbl col T) s.nRows s.Zv (· ∈ s.outputs) s.views :=
    hI.views.mono fun i v _ ho => ho.congrX (fun c hc => hI.hZ c hc) fun c hc r _ =>
      colTbl_ne (by rintro rfl; exact hcol hc) r
  have key : ∀ vb : View C, View.Inv (s.colTbl col T) vb → vb.seat r ≠ none →
      ∃ e, vb.incorporateDim (s.colTbl col T) (Dim.new col [] kind ω.hyp) true = .err e vb := by
    intro vb hi hs
    rcases incorporateDim_spec hi (Dim.new col [] kind ω.hyp) hh with
      ⟨d', -, -, -, g⟩ | ⟨e, r', g, -⟩
    · exact absurd (g r hs) hbad
    · exact ⟨e, g⟩
  unfold State.incorporateDim
  simp only [hT, ne_eq, not_true_eq_false, if_false, hc', Bool.false_eq_true]
  cases hb : s.views.get? (v.getD 0) with
  | some view =>
    have ho := hV1.view _ view hb
    obtain ⟨e, he⟩ := key view ho.inv ((ho.rows r).mpr hr)
    have he' : View.incorporateDim (State.tbl ⟨s.X.set col T, s.outputs ++ [col], s.crp, s.views,
      s.Cd, s.Ci⟩) view (Dim.new col [] kind ω.hyp) true = .err e view := he
    simp only [hcond, Bool.false_eq_true, if_false, he']
    exact ⟨_, _, rfl, by simp, Dict.get?_set_self _ _ _, hz⟩
  | none =>
    obtain ⟨vb, h1, h2, -, -, h5⟩ := newView_ok hw ((List.range s.nRows).map ω.view.2)
      (s.colTbl col T)
    obtain ⟨e, he⟩ := key vb h2 (by
      rw [h5, ne_eq, List.getElem?_eq_none_iff, not_le]; simpa using hr)
    have he' : View.incorporateDim (State.tbl ⟨s.X.set col T, s.outputs ++ [col], s.crp,
      s.views.set (v.getD 0) vb, s.Cd, s.Ci⟩) vb (Dim.new col [] kind ω.hyp) true =
        .err e vb := he
    simp only [hn, h1, hcond, Bool.false_eq_true, if_false, he']
    exact ⟨_, _, rfl, by simp, Dict.get?_set_self _ _ _, hz⟩

/-- Both do happen: a State with two bernoulli columns, and the value 7. -/
example : ∃ s : State libCat, StateReachable plainCfg s ∧
    (∃ e s', s.incorporate s.nRows [(0, some (7 : ℝ))] [] (fun _ => 0) = .err e s' ∧
      s'.nRows = s.nRows + 1) ∧
    (∃ e s', s.incorporateDim plainCfg [some (7 : ℝ), none] [2] [] ⟨.bernoulli, trivial⟩ none
        ⟨⟨.bernoulli, ⟨1, 1⟩⟩, (1, fun _ => 0), fun _ => (1, fun _ => 0), 0,
          ⟨.bernoulli, ⟨1, 1⟩⟩⟩ = .err e s' ∧
      2 ∈ s'.outputs ∧ s'.Zv 2 = none) := by
  have p7 : remembered .bernoulli 7 = none := by simp [remembered, support]
  have hp : ∀ o, (libCat.F ⟨.bernoulli, trivial⟩).prep ((7 : ℝ), []) ≠ .ok o := by
    intro o ho
    have := ((C10_primitives_store _ _ _).mp ho).2
    rw [p7] at this; cases this
  obtain ⟨e7, hp7⟩ : ∃ e, (libCat.F ⟨.bernoulli, trivial⟩).prep ((7 : ℝ), []) = .error e := by
    cases h : (libCat.F ⟨.bernoulli, trivial⟩).prep ((7 : ℝ), []) with
    | error e => exact ⟨e, rfl⟩
    | ok o => exact absurd h (hp o)
  have hyp : (libCat.F ⟨.bernoulli, trivial⟩).hypOk ⟨.bernoulli, ⟨1, 1⟩⟩ := ⟨rfl, one_pos, one_pos⟩
  obtain ⟨s, h1, h2, -, h4, h5, h6, -, -, h9, h10, -, h12⟩ := stateDemo_init (p := .bernoulli) (x := 1)
    (hy := ⟨1, 1⟩) (by simp [remembered, support]) hyp (a := 0) (b := 1) (by norm_num) [] []
  refine ⟨s, h1, ?_, ?_⟩
  · cases hres : s.incorporate s.nRows [(0, some (7 : ℝ))] [] (fun _ => 0) with
    | err e s' =>
      exact ⟨e, s', rfl, (C19_incorporate_violated (catOf_lawful _) h1 _ _ _ (by simp [Dict.keys])
        (by rw [h4]; simp [Dict.keys]) (by simp) hres).1⟩
    | ok s' =>
      exfalso
      obtain ⟨d, hd⟩ := (dimFor_of_mem h2).mpr (show 0 ∈ s.outputs by rw [h4]; simp)
      have := (C19_incorporate_accepts_iff (catOf_lawful _) h1 [(0, some (7 : ℝ))] [] (fun _ => 0)
        (by simp [Dict.keys]) (by rw [h4]; simp [Dict.keys]) (by simp)).mp ⟨s', hres⟩ 0 d hd
      obtain ⟨k1, k2, -⟩ := h12 0 d hd
      obtain ⟨i, v, -, g2, g3⟩ := dimFor_ok hd
      have hix : d.index = 0 := ((h2.views.view i v g2).inv.dim (0, d) (Dict.mem_of_get? g3)).index
      unfold admissible fileOf at this
      rw [k1, k2, hix] at this
      simp [file, rowAdded, h4, Dict.get?_cons, hp7] at this
  · obtain ⟨e, s', g1, g2, -, g4⟩ := C19_incorporate_dim_violated (catOf_lawful _) h1
      [some (7 : ℝ), none] (by rw [h5]; rfl) 2 (by rw [h4]; simp) ⟨.bernoulli, trivial⟩ rfl none
      ⟨⟨.bernoulli, ⟨1, 1⟩⟩, (1, fun _ => 0), fun _ => (1, fun _ => 0), 0, ⟨.bernoulli, ⟨1, 1⟩⟩⟩
      hyp one_pos 0 (by rw [h5]; norm_num) (by
        unfold admissible fileOf
        simp [file, columnAdded, Dim.new, hp7])
    exact ⟨e, s', g1, g2, g4⟩

end Cgpm.Props
