import Verif.Lemmas.StateTransition

/-! A new column. -/
namespace Cgpm
namespace State
variable {C : Cat}
open View

theorem Rect.add {X : Dict Col (List C.Cell)} {o : List Col} {n : Nat} (h : Rect X o n)
    {col : Col} (hc : col ∉ o) {T : List C.Cell} (hT : T.length = n) :
    Rect (X.set col T) (o ++ [col]) n where
  keys := by rw [Dict.keys_set, if_neg (by rw [h.keys]; exact hc), h.keys]
  nodup := by
    rw [List.nodup_append]
    refine ⟨h.nodup, by simp, ?_⟩
    intro a ha b hb
    simp at hb; subst hb
    rintro rfl; exact hc ha
  ne := by simp
  len := fun c l hl => by
    rw [Dict.get?_set] at hl
    split at hl
    · cases hl; exact hT
    · exact h.len c l hl

/-- The data set with one more column. -/
def colTbl (s : State C) (col : Col) (T : List C.Cell) : C.Tbl := tblOf (s.X.set col T)

theorem colTbl_ne {s : State C} {col c : Col} {T : List C.Cell} (h : c ≠ col) (r : Row) :
    s.colTbl col T c r = s.tbl c r := by
  simp [colTbl, tbl, tblOf, Dict.get?_set_ne _ _ h]

theorem colTbl_self {s : State C} {col : Col} {T : List C.Cell} (r : Row) :
    s.colTbl col T col r = (T[r]?).getD none := by
  simp [colTbl, tblOf, Dict.get?_set_self]

/-- The first part of `incorporate_dim`: column `col` is in view `b`. -/
structure Added (s : State C) (T : List C.Cell) (col : Col) (kind : C.ι) (hyp : C.H) (b : Nat)
    (s' : State C) : Prop where
  X : s'.X = s.X.set col T
  outputs : s'.outputs = s.outputs ++ [col]
  Cd : s'.Cd = s.Cd
  Ci : s'.Ci = s.Ci
  alpha : s'.crp.alpha = s.crp.alpha
  Zv : s'.Zv = upd s.Zv col (some b)
  keys : s'.views.keys = if b ∈ s.views.keys then s.views.keys else s.views.keys ++ [b]
  views : ∃ vb d, s'.views.get? b = some { vb with dims := vb.dims.set col d } ∧
    (s.views.get? b = some vb ∨ s.views.get? b = none ∧ vb.dims = []) ∧
    Dim.Frame (Dim.new col [] kind hyp) d ∧ DimOk s'.tbl vb.seat col d
  other : ∀ i, i ≠ b → s'.views.get? i = s.views.get? i

theorem Inv.added {s : State C} (h : Inv s) {T : List C.Cell} (hT : T.length = s.nRows)
    {col : Col} (hcol : col ∉ s.outputs) {kind : C.ι} {hyp : C.H} (hh : (C.F kind).hypOk hyp)
    (hacc : ∀ r, r < s.nRows → Accepts (s.colTbl col T) (Dim.new col [] kind hyp) r)
    {w : ℝ × (Row → Tab)} (hw : 0 < w.1) (b : Nat) :
    ∃ (vs : Dict Nat (View C)) (vb : View C) (d : Dim C) (crp : Crp),
      (match s.views.get? b with
        | some view => vs = s.views ∧ vb = view
        | none => newView w.1 ((List.range s.nRows).map w.2) = .ok vb ∧ vs = s.views.set b vb) ∧
      vb.incorporateDim (s.colTbl col T) (Dim.new col [] kind hyp) true =
        .ok { vb with dims := vb.dims.set col d } ∧
      s.crp.incorporate col b = .ok crp ∧
      Inv ⟨s.X.set col T, s.outputs ++ [col], crp,
        vs.set b { vb with dims := vb.dims.set col d }, s.Cd, s.Ci⟩ ∧
      Added s T col kind hyp b ⟨s.X.set col T, s.outputs ++ [col], crp,
        vs.set b { vb with dims := vb.dims.set col d }, s.Cd, s.Ci⟩ := by
  have hz : s.Zv col = none := h.not_mem hcol
  have hR := h.data.add hcol hT
  have hV1 : VInv (s.colTbl col T) s.nRows s.Zv (· ∈ s.outputs) s.views :=
    h.views.mono fun i v _ ho => ho.congrX (fun c hc => h.hZ c hc) fun c hc r _ =>
      colTbl_ne (by rintro rfl; exact hcol hc) r
  have hV : VInv (s.colTbl col T) s.nRows (upd s.Zv col none) (· ∈ s.outputs ++ [col]) s.views := by
    rw [← hz, upd_eq]
    exact hV1.mono fun i v _ ho => ⟨ho.inv, ho.rows, ho.dims, fun q hq j hj =>
      List.mem_append_left _ (ho.ins q hq j hj)⟩
  obtain ⟨crp, c1, c2, c3, c4⟩ := Crp.inc_data h.crp (r := col) b hz
  -- the view
  obtain ⟨vs, vb, hcase, hvs, hvb, hother, hold, hkeys⟩ : ∃ (vs : Dict Nat (View C)) (vb : View C),
      (match s.views.get? b with
        | some view => vs = s.views ∧ vb = view
        | none => newView w.1 ((List.range s.nRows).map w.2) = .ok vb ∧ vs = s.views.set b vb) ∧
      VInv (s.colTbl col T) s.nRows (upd s.Zv col none) (· ∈ s.outputs ++ [col]) vs ∧
      vs.get? b = some vb ∧ (∀ i, i ≠ b → vs.get? i = s.views.get? i) ∧
      (s.views.get? b = some vb ∨ s.views.get? b = none ∧ vb.dims = []) ∧
      vs.keys = (if b ∈ s.views.keys then s.views.keys else s.views.keys ++ [b]) := by
    cases hb : s.views.get? b with
    | some view =>
      exact ⟨s.views, view, ⟨rfl, rfl⟩, hV, hb, fun _ _ => rfl, Or.inl rfl,
        by rw [if_pos (Dict.mem_keys_of_get? hb)]⟩
    | none =>
      have hnk : b ∉ s.views.keys := (Dict.get?_eq_none_iff _ _).mp hb
      obtain ⟨v, h1, h2, h3, h4, h5⟩ := newView_ok hw ((List.range s.nRows).map w.2)
        (s.colTbl col T)
      refine ⟨s.views.set b v, v, ⟨h1, rfl⟩, hV.set (newView_rows h2 h3 h5 ?_),
        Dict.get?_set_self _ _ _, fun i hi => Dict.get?_set_ne _ _ hi, Or.inr ⟨rfl, h3⟩, ?_⟩
      · intro c hc
        by_cases e : c = col
        · subst e; simp at hc
        · rw [upd_ne _ _ e] at hc
          exact hnk ((h.occ b).mpr ⟨c, hc⟩)
      · rw [Dict.keys_set]
  have ho := hvs.view b vb hvb
  obtain ⟨d, h1, h2, h3⟩ : ∃ d, vb.incorporateDim (s.colTbl col T) (Dim.new col [] kind hyp) true =
        .ok { vb with dims := vb.dims.set col d } ∧ Dim.Frame (Dim.new col [] kind hyp) d ∧
        DimOk (s.colTbl col T) vb.seat col d := by
    rcases incorporateDim_spec ho.inv (Dim.new col [] kind hyp) hh with
      ⟨d', g1, g2, g3, -⟩ | ⟨e, r, -, hr, hn⟩
    · exact ⟨d', g1, g2, g3⟩
    · exact absurd (hacc r ((ho.rows r).mp hr)) hn
  have hin : ∀ j ∈ d.inputs, j ∈ s.outputs ++ [col] := by
    intro j hj
    rw [h2.inputs] at hj; cases hj
  have hP := hvs.place hvb h3 hin
  have hZ' : (fun c => crp.data.get? c) = upd s.Zv col (some b) := by
    funext c
    rw [c4]
    unfold upd Zv
    rfl
  have hkeys' : (vs.set b { vb with dims := vb.dims.set col d }).keys =
      (if b ∈ s.views.keys then s.views.keys else s.views.keys ++ [b]) := by
    rw [Dict.keys_set, if_pos (Dict.mem_keys_of_get? hvb), hkeys]
  refine ⟨vs, vb, d, crp, hcase, h1, c1, ?_, ⟨rfl, rfl, rfl, rfl, c3, hZ', hkeys',
    ⟨vb, d, Dict.get?_set_self _ _ _, hold, h2, h3⟩, ?_⟩⟩
  · refine Inv.of (n := s.nRows) hR h.pos c2 (by rw [c3]; exact h.alpha) ?_ ?_ ?_
    · intro c
      show (fun c => crp.data.get? c) c ≠ none ↔ c ∈ s.outputs ++ [col]
      rw [hZ', List.mem_append, List.mem_singleton]
      by_cases e : c = col
      · subst e; simp
      · rw [upd_ne _ _ e, h.cols c]; simp [e]
    · show VInv (s.colTbl col T) s.nRows (fun c => crp.data.get? c) (· ∈ s.outputs ++ [col]) _
      rw [hZ']
      exact hP
    · intro i
      show i ∈ (vs.set b { vb with dims := vb.dims.set col d }).keys ↔
        ∃ c, (fun c => crp.data.get? c) c = some i
      rw [hkeys', hZ']
      have hmem : (i ∈ if b ∈ s.views.keys then s.views.keys else s.views.keys ++ [b]) ↔
          i = b ∨ i ∈ s.views.keys := by
        split
        · rename_i hb
          constructor
          · exact Or.inr
          · rintro (rfl | hi)
            · exact hb
            · exact hi
        · simp [or_comm]
      rw [hmem, h.occ]
      constructor
      · rintro (rfl | ⟨c, hc⟩)
        · exact ⟨col, by simp⟩
        · refine ⟨c, ?_⟩
          rw [upd_ne _ _ (by rintro rfl; rw [hz] at hc; cases hc)]
          exact hc
      · rintro ⟨c, hc⟩
        by_cases e : c = col
        · subst e; simp at hc; exact Or.inl hc.symm
        · rw [upd_ne _ _ e] at hc; exact Or.inr ⟨c, hc⟩
  · intro i hi
    show (vs.set b _).get? i = _
    rw [Dict.get?_set_ne _ _ hi, hother i hi]

theorem Added.dimFor {s s' : State C} {T : List C.Cell} {col : Col} {kind : C.ι} {hyp : C.H}
    {b : Nat} (h : Added s T col kind hyp b s') :
    ∃ d, s'.dimFor col = .ok d ∧ Dim.Frame (Dim.new col [] kind hyp) d := by
  obtain ⟨vb, d, h1, -, h2, -⟩ := h.views
  refine ⟨d, ?_, h2⟩
  unfold State.dimFor
  rw [h.Zv]
  simp only [upd_self, h1, Dict.get?_set_self]

theorem Added.dimFor_ne {s s' : State C} {T : List C.Cell} {col : Col} {kind : C.ι} {hyp : C.H}
    {b : Nat} (ha : Added s T col kind hyp b s') (h : Inv s) {c : Col} (hc : c ≠ col) :
    s'.dimFor c = s.dimFor c := by
  unfold State.dimFor
  rw [ha.Zv, upd_ne _ _ hc]
  cases hz : s.Zv c with
  | none => rfl
  | some i =>
    simp only
    by_cases e : i = b
    · subst e
      obtain ⟨vb, d, h1, h2, -⟩ := ha.views
      obtain ⟨v0, hv0⟩ := Dict.exists_of_mem_keys ((h.occ i).mpr ⟨c, hz⟩)
      have h2' : s.views.get? i = some vb := by
        rcases h2 with h2 | ⟨h2, -⟩
        · exact h2
        · rw [hv0] at h2; cases h2
      simp only [h1, h2', Dict.get?_set_ne _ _ hc]
    · rw [ha.other i e]

theorem anyConditional_iff {cfg : Cfg C} {s : State C} :
    s.anyConditional cfg = true ↔
      ∃ c ∈ s.outputs, ∃ d, s.dimFor c = .ok d ∧ cfg.conditional d.kind = true := by
  unfold anyConditional dims
  rw [List.any_eq_true]
  constructor
  · rintro ⟨o, ho, hk⟩
    obtain ⟨c, hc, rfl⟩ := List.mem_map.mp ho
    cases hd : s.dimFor c with
    | error e => simp [hd] at hk
    | ok d => exact ⟨c, hc, d, hd, by simpa [hd] using hk⟩
  · rintro ⟨c, hc, d, hd, hk⟩
    exact ⟨_, List.mem_map.mpr ⟨c, hc, rfl⟩, by simpa [hd] using hk⟩

/-- `incorporate_dim` reduces to its last part. -/
theorem Inv.incorporateDim_eq {cfg : Cfg C} {s : State C} (h : Inv s) {T : List C.Cell}
    (hT : T.length = s.nRows) {col : Col} (hcol : col ∉ s.outputs) {kind : C.ι}
    (hcond : cfg.conditional kind = false) {ω : DimDraws C} (hh : (C.F kind).hypOk ω.hyp)
    (hacc : ∀ r, r < s.nRows → Accepts (s.colTbl col T) (Dim.new col [] kind ω.hyp) r)
    (hw : 0 < ω.view.1) (v : Option Nat) :
    ∃ s4, Inv s4 ∧ Added s T col kind ω.hyp (v.getD 0) s4 ∧
      s.incorporateDim cfg T [col] [] kind v ω =
        match (match v with
          | none => s4.gibbsTransitionDim cfg col 1 ω.aux ω.u
          | some _ => .ok s4) with
        | .err e s5 => .err e s5
        | .ok s5 => s5.transitionDimHypers col ω.hyp' := by
  obtain ⟨vs, vb, d, crp, h1, h2, h3, h4, h5⟩ := h.added hT hcol hh hacc hw (v.getD 0)
  refine ⟨_, h4, h5, ?_⟩
  unfold State.incorporateDim
  have hc' : s.outputs.contains col = false := by simpa using hcol
  have hn : (⟨s.X.set col T, s.outputs ++ [col], s.crp, s.views, s.Cd, s.Ci⟩ : State C).nRows =
      s.nRows := (h.data.add hcol hT).nRows
  simp only [hT, ne_eq, not_true_eq_false, if_false, hc', Bool.false_eq_true]
  cases hb : s.views.get? (v.getD 0) with
  | some view =>
    rw [hb] at h1
    obtain ⟨rfl, rfl⟩ := h1
    have h2' : View.incorporateDim (State.tbl ⟨s.X.set col T, s.outputs ++ [col], s.crp, s.views,
      s.Cd, s.Ci⟩) vb (Dim.new col [] kind ω.hyp) true =
        .ok { vb with dims := vb.dims.set col d } := h2
    simp only [hcond, Bool.false_eq_true, if_false, h2', h3]
    cases v <;> rfl
  | none =>
    rw [hb] at h1
    obtain ⟨h1, rfl⟩ := h1
    have h2' : View.incorporateDim (State.tbl ⟨s.X.set col T, s.outputs ++ [col], s.crp,
      s.views.set (v.getD 0) vb, s.Cd, s.Ci⟩) vb (Dim.new col [] kind ω.hyp) true =
        .ok { vb with dims := vb.dims.set col d } := h2
    simp only [hn, h1, hcond, Bool.false_eq_true, if_false, h2', h3]
    cases v <;> rfl

/-- What `incorporate_dim` needs to succeed and to keep the state consistent. -/
structure IncDimOk (cfg : Cfg C) (s : State C) (T : List C.Cell) (col : Col) (kind : C.ι)
    (v : Option Nat) (ω : DimDraws C) : Prop where
  cond : cfg.conditional kind = false
  hyp : (C.F kind).hypOk ω.hyp
  hyp' : (C.F kind).hypOk ω.hyp'
  acc : ∀ r, r < s.nRows → Accepts (s.colTbl col T) (Dim.new col [] kind ω.hyp) r
  view : 0 < ω.view.1
  aux : ∀ j, 0 < (ω.aux j).1
  u : 0 ≤ ω.u
  u1 : ω.u < 1
  part : v = none → ∀ a ∈ avoid s.Ci col, a ∈ s.outputs
  sort : v = none → cfg.collapsed kind = true ∨ (s.Sorted ∧ 0 ∈ s.views.keys)

theorem Inv.hypers_keep {s s' : State C} {col : Col} {hy : C.H} (h : Inv s)
    (he : s.transitionDimHypers col hy = .ok s') :
    s'.X = s.X ∧ s'.outputs = s.outputs ∧ s'.crp = s.crp ∧ s'.Cd = s.Cd ∧ s'.Ci = s.Ci ∧
      s'.views.keys = s.views.keys := by
  unfold State.transitionDimHypers at he
  split at he
  · cases he
  · split at he
    · cases he
    · rename_i v _ _ view hv
      split at he
      · cases he
      · cases he
        refine ⟨rfl, rfl, rfl, rfl, rfl, ?_⟩
        show (s.views.set v _).keys = _
        rw [Dict.keys_set, if_pos (Dict.mem_keys_of_get? hv)]

/-- `incorporate_dim` keeps a state consistent. -/
theorem Inv.incorporateDim_inv {cfg : Cfg C} {s : State C} (h : Inv s) {T : List C.Cell}
    (hT : T.length = s.nRows) {col : Col} (hcol : col ∉ s.outputs) {kind : C.ι} {v : Option Nat}
    {ω : DimDraws C} (hok : IncDimOk cfg s T col kind v ω) :
    Inv (s.incorporateDim cfg T [col] [] kind v ω).state ∧
    ((∃ v0, v = some v0) ∨ s.anyConditional cfg = false ∧ s.Cd = [] →
      ∃ s', s.incorporateDim cfg T [col] [] kind v ω = .ok s' ∧ s'.X = s.X.set col T ∧
        s'.outputs = s.outputs ++ [col] ∧ s'.Cd = s.Cd ∧ s'.Ci = s.Ci ∧
        s'.crp.alpha = s.crp.alpha ∧ ∃ b, s'.Zv = upd s.Zv col (some b) ∧
          ∀ v0, v = some v0 → b = v0) := by
  obtain ⟨s4, h4, ha, e⟩ := h.incorporateDim_eq hT hcol hok.cond hok.hyp hok.acc hok.view v
  obtain ⟨d, hd, hf⟩ := ha.dimFor
  rw [e]
  cases v with
  | some v0 =>
    obtain ⟨i, v, -, -, -, g4, g5⟩ := h4.transitionDimHypers_ok hd (hy := ω.hyp')
      (by rw [hf.fam]; exact hok.hyp')
    simp only
    refine ⟨by rw [g4]; exact g5, fun _ => ⟨_, g4, ha.X, ha.outputs, ha.Cd, ha.Ci, ha.alpha, v0,
      ha.Zv, fun w hw => Option.some.inj hw⟩⟩
  | none =>
    have hn4 : s4.nRows = s.nRows := by
      unfold nRows; rw [ha.X, ha.outputs]; exact (h.data.add hcol hT).nRows
    have hany : s4.anyConditional cfg = s.anyConditional cfg := by
      rw [Bool.eq_iff_iff, anyConditional_iff, anyConditional_iff]
      constructor
      · rintro ⟨c, hc, d', hd', hk⟩
        rw [ha.outputs, List.mem_append, List.mem_singleton] at hc
        by_cases e : c = col
        · subst e
          rw [hd] at hd'; cases hd'
          rw [hf.kind] at hk
          exact absurd hk (by rw [show (Dim.new c [] kind ω.hyp).kind = kind from rfl, hok.cond]; simp)
        · exact ⟨c, hc.resolve_right e, d', by rw [← ha.dimFor_ne h e]; exact hd', hk⟩
      · rintro ⟨c, hc, d', hd', hk⟩
        have e : c ≠ col := by rintro rfl; exact hcol hc
        exact ⟨c, by rw [ha.outputs]; exact List.mem_append_left _ hc, d',
          by rw [ha.dimFor_ne h e]; exact hd', hk⟩
    by_cases hc : s.anyConditional cfg = true
    · have : s4.gibbsTransitionDim cfg col 1 ω.aux ω.u = .err .valueError s4 := by
        unfold gibbsTransitionDim; rw [if_pos (hany.trans hc)]
      simp only [this]
      refine ⟨h4, ?_⟩
      rintro (⟨v0, hv⟩ | ⟨hc', -⟩)
      · cases hv
      · rw [hc] at hc'; cases hc'
    · have hc0 : s.anyConditional cfg = false := by simpa using hc
      by_cases hCd : s.Cd = []
      · obtain ⟨s5, cur, new, va, g1, g2, g3, g4, -⟩ := h4.gibbsTransitionDim_ok (cfg := cfg) hd
          (hany.trans hc0) (ha.Cd.trans hCd) (m := 1) (by omega) hok.aux (by
            intro a ha'
            rw [ha.Ci] at ha'
            rw [ha.outputs]
            exact List.mem_append_left _ (hok.part rfl a ha')) hok.u hok.u1 (by
            rcases hok.sort rfl with hs | ⟨hs, h0⟩
            · left; rw [hf.kind]; exact hs
            · right
              unfold Sorted
              rw [ha.keys, Option.getD_none, if_pos h0]; exact hs)
        obtain ⟨vb, d', j1, j2, j3, j4⟩ := g4.views
        have hd5 : ∃ d5, s5.dimFor col = .ok d5 ∧ d5.kind = kind := by
          have hcm : col ∈ s5.outputs := by rw [g4.outputs, ha.outputs]; simp
          obtain ⟨i, vw, d5, k1, k2, k3, k4, -⟩ := g2.dim hcm
          refine ⟨d5, k4, ?_⟩
          have hi : i = new := by
            rw [g4.Zv] at k1; simp at k1; exact k1.symm
          subst hi
          have : s5.views.get? i = some { vb with dims := vb.dims.set col d' } := by
            rw [j4]
            split
            · rename_i hcon
              rw [Dict.get?_erase_ne _ (Ne.symm hcon.1), Dict.get?_set_self]
            · rw [Dict.get?_set_self]
          rw [k2] at this
          cases this
          rw [Dict.get?_set_self] at k3
          cases k3
          rw [j2.kind, hf.kind]; rfl
        obtain ⟨d5, k1, k2⟩ := hd5
        obtain ⟨i, vv, -, -, -, l4, l5⟩ := g2.transitionDimHypers_ok k1 (hy := ω.hyp')
          (by show (C.F d5.kind).hypOk _; rw [k2]; exact hok.hyp')
        simp only [g1]
        refine ⟨by rw [l4]; exact l5, fun _ => ⟨_, l4, g4.X.trans ha.X, g4.outputs.trans ha.outputs,
          g4.Cd.trans ha.Cd, g4.Ci.trans ha.Ci, g4.alpha.trans ha.alpha, new, ?_, fun v0 hv => by cases hv⟩⟩
        show s5.Zv = _
        rw [g4.Zv, ha.Zv]
        funext c
        unfold upd
        split <;> rfl
      · have : s4.gibbsTransitionDim cfg col 1 ω.aux ω.u = .err .valueError s4 := by
          unfold gibbsTransitionDim
          rw [if_neg (by rw [hany]; exact hc), if_pos (by rw [ha.Cd]; exact hCd)]
        simp only [this]
        refine ⟨h4, ?_⟩
        rintro (⟨v0, hv⟩ | ⟨-, hc'⟩)
        · cases hv
        · exact absurd hc' hCd

end State
end Cgpm
