import Verif.Lemmas.StateGibbs

/-! The Gibbs transition of a column: the move. -/
namespace Cgpm
namespace State
variable {C : Cat}
open View

/-- A proposal is installed in the view it was made for. -/
theorem refile {cfg : Cfg C} {X : C.Tbl} {vb : View C} (h : View.Inv X vb) {col : Col}
    {d dk : Dim C} (hix : d.index = col) (hh : d.fam.hypOk d.hyp) (hf : Dim.Frame d dk)
    (hacc : ∀ r, vb.seat r ≠ none → Accepts X d r)
    (hk : cfg.collapsed d.kind = true ∨ DimOk X vb.seat col dk) :
    ∃ d', vb.incorporateDim X dk (cfg.collapsed dk.kind) =
        .ok { vb with dims := vb.dims.set col d' } ∧ Dim.Frame d d' ∧ DimOk X vb.seat col d' := by
  have hixk : dk.index = col := hf.index.trans hix
  rw [hf.kind]
  cases hc : cfg.collapsed d.kind with
  | true =>
    rcases incorporateDim_spec h dk (by rw [hf.fam, hf.hyp]; exact hh) with
      ⟨d', h1, h2, h3, -⟩ | ⟨e, r, -, hr, hn⟩
    · rw [hixk] at h1 h3
      exact ⟨d', h1, hf.trans h2, h3⟩
    · exact absurd ((accepts_frame hf r).mpr (hacc r hr)) hn
  | false =>
    rcases hk with hk | hk
    · rw [hc] at hk; cases hk
    · refine ⟨dk, ?_, hf, hk⟩
      unfold View.incorporateDim
      rw [hixk]; simp

/-- The views before the column is installed in view `new`. -/
def baseViews (s : State C) (col : Col) (new : Nat) (va : View C) : Dict Nat (View C) :=
  if pyMax s.views.keys < new then (dropCol col s.views).set new va else dropCol col s.views

/-- A state in which the columns are `outputs`, once column `col` has been moved to `new`. -/
structure Moved (s : State C) (col : Col) (d : Dim C) (cur new : Nat) (va : View C)
    (s' : State C) : Prop where
  X : s'.X = s.X
  outputs : s'.outputs = s.outputs
  Cd : s'.Cd = s.Cd
  Ci : s'.Ci = s.Ci
  crpInv : Crp.Inv s'.crp
  alpha : s'.crp.alpha = s.crp.alpha
  Zv : s'.Zv = upd s.Zv col (some new)
  views : ∃ vb d', (s.baseViews col new va).get? new = some vb ∧ Dim.Frame d d' ∧
    DimOk s.tbl vb.seat col d' ∧
    s'.views = (if cur ≠ new ∧ s.crp.counts.get? cur = some 1 then
      ((s.baseViews col new va).set new { vb with dims := vb.dims.set col d' }).erase cur
      else (s.baseViews col new va).set new { vb with dims := vb.dims.set col d' })

/-- `s` with the views `vs`, without an emptied view `cur`, and the partition `c`. -/
def after (s : State C) (cur new : Nat) (vs : Dict Nat (View C)) (c : Crp) : State C :=
  { s with
    views := if cur ≠ new ∧ s.crp.counts.get? cur = some 1 then vs.erase cur else vs
    crp := c }

/-- The target of a move: an existing view or a new one. -/
def Target (cfg : Cfg C) (s : State C) (col : Col) (d dk : Dim C) (new : Nat) (va : View C) : Prop :=
  (new ∈ s.views.keys ∧ ∀ v, s.views.get? new = some v →
    cfg.collapsed d.kind = true ∨ DimOk s.tbl v.seat col dk) ∨
  (pyMax s.views.keys < new ∧ View.Inv s.tbl va ∧ va.dims = [] ∧
    (∀ r, va.seat r ≠ none ↔ r < s.nRows) ∧
    (cfg.collapsed d.kind = true ∨ DimOk s.tbl va.seat col dk))

theorem mem_le_pyMax {l : List Nat} {x : Nat} (h : x ∈ l) : ¬ pyMax l < x :=
  not_lt.mpr (Props.le_pyMax h)

theorem Inv.base {cfg : Cfg C} {s : State C} (h : Inv s) {col : Col} {d dk : Dim C} {new : Nat}
    {va : View C} (ht : Target cfg s col d dk new va) :
    VInv s.tbl s.nRows (upd s.Zv col none) (· ∈ s.outputs) (s.baseViews col new va) ∧
    (∃ vb, (s.baseViews col new va).get? new = some vb ∧
      (cfg.collapsed d.kind = true ∨ DimOk s.tbl vb.seat col dk)) ∧
    ∀ i, i ∈ (s.baseViews col new va).keys ↔ i = new ∨ i ∈ s.views.keys := by
  have hdrop := h.views.dropCol col
  unfold baseViews
  rcases ht with ⟨hn, hk⟩ | ⟨hn, hi, hdims, hr, hk⟩
  · rw [if_neg (mem_le_pyMax hn)]
    refine ⟨hdrop, ?_, ?_⟩
    · obtain ⟨v, hv⟩ := Dict.exists_of_mem_keys hn
      exact ⟨drop col v, by rw [get?_dropCol, hv]; rfl, hk v hv⟩
    · intro i
      rw [keys_dropCol]
      constructor
      · exact Or.inr
      · rintro (rfl | hi)
        · exact hn
        · exact hi
  · rw [if_pos hn]
    refine ⟨hdrop.set ⟨hi, hr, fun c => ?_, fun q hq => by rw [hdims] at hq; cases hq⟩,
      ⟨va, Dict.get?_set_self _ _ _, hk⟩, ?_⟩
    · rw [hdims]
      simp only [Dict.keys, List.map_nil, List.not_mem_nil, false_iff]
      by_cases e : c = col
      · subst e; simp
      · rw [upd_ne _ _ e]
        intro hc
        exact mem_le_pyMax ((h.occ new).mpr ⟨c, hc⟩) hn
    · intro i
      rw [Dict.mem_keys_set, keys_dropCol]

theorem Inv.moved {s s' : State C} (h : Inv s) {col : Col} {d : Dim C} {cur new : Nat}
    {va : View C} (hcur : s.Zv col = some cur) (hd : s.dimFor col = .ok d)
    (hb : VInv s.tbl s.nRows (upd s.Zv col none) (· ∈ s.outputs) (s.baseViews col new va))
    (hkeys : ∀ i, i ∈ (s.baseViews col new va).keys ↔ i = new ∨ i ∈ s.views.keys)
    (hm : Moved s col d cur new va s') : Inv s' := by
  obtain ⟨vb, d', h1, h2, h3, h4⟩ := hm.views
  obtain ⟨i0, v0, hz, hv0, hd0⟩ := dimFor_ok hd
  have hins : ∀ j ∈ d'.inputs, j ∈ s.outputs := by
    intro j hj
    rw [h2.inputs] at hj
    exact (h.views.view i0 v0 hv0).ins (col, d) (Dict.mem_of_get? hd0) j hj
  have hp := hb.place h1 h3 hins
  have hcol : col ∈ s.outputs := h.hZ col hcur
  obtain ⟨na, hna⟩ := h.counts hcur
  have hone := count_one_iff h.crp hcur hna
  have htbl : s'.tbl = s.tbl := by unfold tbl; rw [hm.X]
  have hk2 : ∀ i, i ∈ ((s.baseViews col new va).set new
      { vb with dims := vb.dims.set col d' }).keys ↔ i = new ∨ i ∈ s.views.keys := by
    intro i
    rw [Dict.mem_keys_set, hkeys]; tauto
  refine Inv.of (n := s.nRows) ?_ h.pos hm.crpInv (by rw [hm.alpha]; exact h.alpha) ?_ ?_ ?_
  · rw [hm.X, hm.outputs]; exact h.data
  · intro c
    rw [hm.Zv, hm.outputs]
    by_cases e : c = col
    · subst e; simp [hcol]
    · rw [upd_ne _ _ e]; exact h.cols c
  · rw [htbl, hm.Zv, hm.outputs, h4]
    split
    · exact hp.erase cur
    · exact hp
  · intro i
    rw [hm.Zv, h4]
    have hex : (∃ c, upd s.Zv col (some new) c = some i) ↔
        i = new ∨ ∃ c, c ≠ col ∧ s.Zv c = some i := by
      constructor
      · rintro ⟨c, hc⟩
        by_cases e : c = col
        · subst e; simp at hc; exact Or.inl hc.symm
        · rw [upd_ne _ _ e] at hc; exact Or.inr ⟨c, e, hc⟩
      · rintro (rfl | ⟨c, hne, hc⟩)
        · exact ⟨col, by simp⟩
        · exact ⟨c, by rw [upd_ne _ _ hne]; exact hc⟩
    rw [hex]
    split
    · rename_i hcond
      obtain ⟨hne, h1'⟩ := hcond
      rw [hna] at h1'
      have hna1 : na = 1 := Option.some.inj h1'
      rw [Dict.mem_keys_erase, hk2, h.occ]
      constructor
      · rintro ⟨hi, rfl | ⟨c, hc⟩⟩
        · exact Or.inl rfl
        · right
          refine ⟨c, ?_, hc⟩
          rintro rfl
          rw [hcur] at hc; exact hi (Option.some.inj hc).symm
      · rintro (rfl | ⟨c, hcne, hc⟩)
        · exact ⟨fun e => hne e.symm, Or.inl rfl⟩
        · refine ⟨?_, Or.inr ⟨c, hc⟩⟩
          rintro rfl
          exact hcne (hone.mp hna1 c hc)
    · rename_i hcond
      rw [hk2, h.occ]
      constructor
      · rintro (rfl | ⟨c, hc⟩)
        · exact Or.inl rfl
        · by_cases e : c = col
          · subst e
            rw [hcur] at hc
            cases hc
            by_cases hne : cur = new
            · exact Or.inl hne
            · right
              have : ¬ na = 1 := fun e1 => hcond ⟨hne, by rw [hna, e1]⟩
              rw [hone] at this
              push Not at this
              obtain ⟨c', hc1, hc2⟩ := this
              exact ⟨c', hc2, hc1⟩
          · exact Or.inr ⟨c, e, hc⟩
      · rintro (rfl | ⟨c, -, hc⟩)
        · exact Or.inl rfl
        · exact Or.inr ⟨c, hc⟩

/-- The column is installed in the view drawn. -/
theorem Inv.gibbsDimMove_ok {cfg : Cfg C} {s : State C} (h : Inv s) {col : Col} {d dk : Dim C}
    (hd : s.dimFor col = .ok d) {cur new : Nat} (hcur : s.Zv col = some cur) {tables : List Nat}
    {dims : List (Dim C)} {auxViews : List (View C)} {k : Nat} {va : View C}
    (htab : tables[k]? = some new) (hdim : dims[k]? = some dk) (hf : Dim.Frame d dk)
    (ht : Target cfg s col d dk new va)
    (hva : pyMax s.views.keys < new → auxViews[k - s.views.length]? = some va) :
    ∃ s', ({ s with views := dropCol col s.views } : State C).gibbsDimMove cfg col tables dims
        auxViews k = .ok s' ∧ Inv s' ∧ Moved s col d cur new va s' := by
  obtain ⟨hb, ⟨vb, hvb, hvk⟩, hkeys⟩ := h.base ht
  obtain ⟨i0, v0, hz, hv0, hd0⟩ := dimFor_ok hd
  have ho0 := h.views.view i0 v0 hv0
  have hdo : DimOk s.tbl v0.seat col d := ho0.inv.dim (col, d) (Dict.mem_of_get? hd0)
  have hacc : ∀ r, r < s.nRows → Accepts s.tbl d r := fun r hr => by
    obtain ⟨k, hk⟩ := Option.ne_none_iff_exists'.mp ((ho0.rows r).mpr hr)
    exact hdo.acc r k hk
  have hvbo := hb.view new vb hvb
  obtain ⟨d', h1, h2, h3⟩ := refile (cfg := cfg) hvbo.inv hdo.index hdo.hyp hf
    (fun r hr => hacc r ((hvbo.rows r).mp hr)) hvk
  have hcur' : s.crp.data.get? col = some cur := hcur
  have hlen : (dropCol col s.views).length = s.views.length := by simp [dropCol]
  by_cases hne : cur = new
  · -- the column stays where it is
    subst hne
    have hmem : cur ∈ s.views.keys := (h.occ cur).mpr ⟨col, hcur⟩
    have hbase : s.baseViews col cur va = dropCol col s.views := by
      unfold baseViews; rw [if_neg (mem_le_pyMax hmem)]
    rw [hbase] at hvb
    have hM : Moved s col d cur cur va
        { s with views := (dropCol col s.views).set cur { vb with dims := vb.dims.set col d' } } := by
      refine ⟨rfl, rfl, rfl, rfl, h.crp, rfl, ?_, vb, d', by rw [hbase]; exact hvb, h2, h3, ?_⟩
      · show s.Zv = _
        rw [← hcur, upd_eq]
      · rw [if_neg (by simp), hbase]
    refine ⟨_, ?_, h.moved hcur hd hb hkeys hM, hM⟩
    unfold gibbsDimMove
    simp only [htab, hdim, Zv, hcur', ne_eq, not_true_eq_false, if_false, hvb]
    have h1' : vb.incorporateDim (State.tbl { s with views := dropCol col s.views }) dk
        (cfg.collapsed dk.kind) = .ok { vb with dims := vb.dims.set col d' } := h1
    rw [h1']
  · -- it moves
    obtain ⟨na, hna⟩ := h.counts hcur
    have hone := count_one_iff h.crp hcur hna
    obtain ⟨vc, hvc⟩ := Dict.exists_of_mem_keys ((h.occ cur).mpr ⟨col, hcur⟩)
    have hbc : (s.baseViews col new va).get? cur = some (drop col vc) := by
      unfold baseViews
      split
      · rw [Dict.get?_set, if_neg hne, get?_dropCol, hvc]; rfl
      · rw [get?_dropCol, hvc]; rfl
    have hnot : (drop col vc).dims.has dk.index = false := by
      rw [Dict.has_false_iff, hf.index, hdo.index]
      exact Dict.get?_erase_self _ _
    obtain ⟨c1, g1, g2, g3, g4⟩ := Crp.unc_data h.crp hcur'
    obtain ⟨c2, e1, e2, e3, e4⟩ := Crp.inc_data g2 (r := col) new (by rw [g4, if_pos rfl])
    have hZ2 : (fun c => c2.data.get? c) = upd s.Zv col (some new) := by
      funext c
      rw [e4, g4]
      unfold upd Zv
      split <;> simp_all
    have hcnt : na = 1 → c2.counts.has cur = false := by
      intro h1'
      cases hh : c2.counts.has cur with
      | false => rfl
      | true =>
        obtain ⟨c, hc⟩ := (Crp.occupied_iff e2 cur).mp ((Dict.has_iff _ _).mp hh)
        rw [e4] at hc
        split at hc
        · exact absurd (Option.some.inj hc).symm hne
        · rename_i hcne
          rw [g4, if_neg hcne] at hc
          exact absurd (hone.mp h1' c hc) hcne
    have hixk : dk.index = col := hf.index.trans hdo.index
    obtain ⟨vs1, hvs1⟩ : ∃ vs1, vs1 = (s.baseViews col new va).set new
        { vb with dims := vb.dims.set col d' } := ⟨_, rfl⟩
    have hM : Moved s col d cur new va (s.after cur new vs1 c2) :=
      ⟨rfl, rfl, rfl, rfl, e2, e3.trans g3, hZ2, vb, d', hvb, h2, h3, by rw [← hvs1]; rfl⟩
    have hmig : ({ s with views := s.baseViews col new va } : State C).migrateDim cfg cur new dk =
        .ok (s.after cur new vs1 c2) := by
      unfold migrateDim migrateDimAs after
      have h1' : vb.incorporateDim (State.tbl { s with views := s.baseViews col new va }) dk
        (cfg.collapsed dk.kind) = .ok { vb with dims := vb.dims.set col d' } := h1
      rw [hixk] at hnot
      simp only [hna, hbc, hixk, hnot, Bool.false_eq_true, if_false, hvb, h1', g1, e1, ← hvs1]
      by_cases h1' : na = 1
      · rw [if_pos h1', hcnt h1']
        simp [hne, h1']
      · rw [if_neg h1']
        have : ¬ (cur ≠ new ∧ some na = some 1) := by
          rintro ⟨-, hh⟩; exact h1' (Option.some.inj hh)
        rw [if_neg this]
    refine ⟨_, ?_, h.moved hcur hd hb hkeys hM, hM⟩
    rw [← hmig]
    unfold gibbsDimMove
    simp only [htab, hdim, Zv, hcur', ne_eq, hne, not_false_eq_true, if_true, keys_dropCol, hlen]
    unfold baseViews
    split
    · rename_i hlt
      rw [hva hlt]
    · rfl

end State
end Cgpm
