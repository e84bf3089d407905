import Verif.Lemmas.StateTransition

/-! The weights of a column transition. -/
namespace Cgpm.Crp
open Cgpm.Props

/-- The weight of table `t` for a row is its predictive weight given the other rows, divided by
the number of auxiliary tables if no other row sits there. -/
theorem gibbsWeight_m {s s' : Crp} (h : Inv s) (hα : 0 < s.alpha) {r : Row} {own : Tab}
    (hd : s.data.get? r = some own) (hs' : s.unincorporate r = .ok s') {m : Nat} (hm : 0 < m)
    (t : Tab) : Real.log (s.gibbsWeight own m t) =
      Real.log (s'.N + s'.alpha) + calcPredictiveLogp t s'.N s'.counts s'.alpha -
        (if s'.counts.get? t = none then Real.log m else 0) := by
  have h' : Inv s' := by have := inv_unincorporate h r; rwa [hs'] at this
  have ha' : s'.alpha = s.alpha := by
    rw [unincorporate_ok h hd] at hs'; cases hs'; rfl
  have hdata' : s'.data = s.data.erase r := by
    rw [unincorporate_ok h hd] at hs'; cases hs'; rfl
  have hn := nSeated_erase h.wfData hd
  have hc' : ∀ t, s'.counts.get? t = countOf (s.data.erase r) t := by
    intro t; rw [h'.hCounts t, hdata']
  have hownpos : 0 < nSeated s.data own := by have := hn own; simp at this; omega
  have hcown : s.counts.get? own = some (nSeated s.data own : Int) := by
    rw [h.hCounts, countOf, if_neg (by omega)]
  have hother : ∀ t, t ≠ own → s'.counts.get? t = s.counts.get? t := by
    intro t ht
    have := hn t
    rw [if_neg (Ne.symm ht)] at this
    rw [hc' t, h.hCounts t, countOf, countOf, this, Nat.add_zero]
  have hw : s.gibbsWeight own m t = wt s' t / (if s'.counts.get? t = none then (m : ℝ) else 1) := by
    unfold gibbsWeight wt
    by_cases hto : t = own
    · subst hto
      have h1 := hn t
      simp only [if_true] at h1
      rw [if_pos rfl, hcown, hc' t, countOf, ha']
      by_cases hs1 : nSeated s.data t = 1
      · have : nSeated (s.data.erase r) t = 0 := by omega
        simp [hs1, this]
      · have h2 : ¬ ((nSeated s.data t : Int) = 1) := by omega
        have h3 : ¬ nSeated (s.data.erase r) t = 0 := by omega
        simp only [h2, if_false, h3]
        push_cast [h1]; simp
    · rw [if_neg hto, hother t hto, ha']
      cases s.counts.get? t <;> simp
  have e : calcPredictiveLogp t s'.N s'.counts s'.alpha =
      Real.log (wt s' t) - Real.log (s'.N + s'.alpha) := rfl
  have hp := wt_pos h' (by rw [ha']; exact hα) t
  rw [hw, e]
  split
  · rw [Real.log_div hp.ne' (by positivity)]; ring
  · simp

end Cgpm.Crp

namespace Cgpm.State
open Cgpm.View
variable {C : Cat}

/-- The sum of `f` over the values of a dictionary. -/
noncomputable def fsum {K V : Type} (f : V → ℝ) (d : Dict K V) : ℝ := (d.vals.map f).sum

theorem fsum_erase {K V : Type} [DecidableEq K] (f : V → ℝ) {d : Dict K V} (h : d.WF) (k : K) :
    fsum f (d.erase k) = fsum f d - ((d.get? k).map f).getD 0 := by
  cases hk : d.get? k with
  | none => rw [Dict.erase_of_not_mem hk]; simp
  | some w =>
    have h2 := Dict.perm_cons_erase h hk
    have e : fsum f d = f w + fsum f (d.erase k) := by
      unfold fsum Dict.vals
      rw [((h2.map Prod.snd).map f).sum_eq]; simp
    rw [e]; simp

theorem fsum_set {K V : Type} [DecidableEq K] (f : V → ℝ) {d : Dict K V} (h : d.WF) (k : K) (v : V) :
    fsum f (d.set k v) = fsum f d - ((d.get? k).map f).getD 0 + f v := by
  have h1 := fsum_erase f (Dict.wf_set h k v) k
  rw [Dict.erase_set, fsum_erase f h, Dict.get?_set_self] at h1
  simp only [Option.map_some, Option.getD_some] at h1
  linarith

/-- The likelihood once a column has moved: that of the other columns plus that of the column
under the row partition of its new view. -/
theorem Moved.likelihood {s s' : State C} (hL : C.Lawful) (h : Inv s) {col : Col} {d : Dim C}
    {cur new : Nat} {va : View C} (hd : s.dimFor col = .ok d) (hcur : s.Zv col = some cur)
    (hm : Moved s col d cur new va s') (hva : pyMax s.views.keys < new → va.dims = [])
    {dk : Dim C} {vb : View C} (hvb : (s.baseViews col new va).get? new = some vb)
    (hf : Dim.Frame d dk) (hdk : DimOk s.tbl vb.seat col dk) :
    s'.likelihood = fsum View.likelihood (dropCol col s.views) + dk.score := by
  obtain ⟨vb', d', j1, j2, j3, j4⟩ := hm.views
  rw [hvb] at j1
  obtain rfl := Option.some.inj j1
  have hsc : d'.score = dk.score := (j3.equiv hL hdk (⟨hf.index.trans j2.index.symm, hf.inputs.trans j2.inputs.symm, hf.kind.trans j2.kind.symm, hf.hyp.trans j2.hyp.symm⟩)).score
  have hwf : (dropCol col s.views).WF := (h.views.dropCol col).wf
  have hbwf : (s.baseViews col new va).WF := by
    unfold baseViews; split
    · exact Dict.wf_set hwf _ _
    · exact hwf
  have hnew0 : pyMax s.views.keys < new → s.views.get? new = none := fun hlt => by
    rw [Dict.get?_eq_none_iff]; exact fun hm => mem_le_pyMax hm hlt
  have hbase : fsum View.likelihood (s.baseViews col new va) =
      fsum View.likelihood (dropCol col s.views) := by
    unfold baseViews; split
    · rename_i hlt
      rw [fsum_set _ hwf, get?_dropCol, hnew0 hlt]
      simp [View.likelihood, hva hlt, Dict.vals]
    · rfl
  have hvbc : vb.dims.get? col = none := by
    unfold baseViews at hvb
    split at hvb
    · rename_i hlt
      rw [Dict.get?_set_self] at hvb
      rw [← Option.some.inj hvb, hva hlt]; rfl
    · rw [get?_dropCol] at hvb
      cases hv : s.views.get? new with
      | none => rw [hv] at hvb; cases hvb
      | some v =>
        rw [hv] at hvb
        rw [← Option.some.inj hvb]
        exact Dict.get?_erase_self _ _
  have hlikb : View.likelihood { vb with dims := vb.dims.set col d' } = vb.likelihood + d'.score := by
    show ((vb.dims.set col d').vals.map Dim.score).sum = _
    rw [Dict.set_of_not_mem d' hvbc]
    simp [View.likelihood, Dict.vals]
  have hset : fsum View.likelihood ((s.baseViews col new va).set new
      { vb with dims := vb.dims.set col d' }) =
      fsum View.likelihood (dropCol col s.views) + dk.score := by
    rw [fsum_set _ hbwf, hvb, hlikb, hbase, ← hsc]; simp; ring
  show fsum View.likelihood s'.views = _
  rw [j4]
  split
  · rename_i hcon
    rw [fsum_erase _ (Dict.wf_set hbwf _ _), hset, Dict.get?_set_ne _ _ hcon.1]
    -- the view that is deleted is empty
    obtain ⟨vc, hvc⟩ := Dict.exists_of_mem_keys ((h.occ cur).mpr ⟨col, hcur⟩)
    have hbc : (s.baseViews col new va).get? cur = some (drop col vc) := by
      unfold baseViews
      split
      · rw [Dict.get?_set, if_neg hcon.1, get?_dropCol, hvc]; rfl
      · rw [get?_dropCol, hvc]; rfl
    have hempty : (drop col vc).dims = [] := by
      have hone := (count_one_iff h.crp hcur hcon.2).mp rfl
      rcases hds : (drop col vc).dims with _ | ⟨⟨c, e⟩, l⟩
      · rfl
      · exfalso
        have hc : c ∈ (drop col vc).dims.keys := by rw [hds]; simp [Dict.keys]
        have hc' : c ≠ col ∧ c ∈ vc.dims.keys := (Dict.mem_keys_erase _ _ _).mp hc
        exact hc'.1 (hone c (((h.views.view cur vc hvc).dims c).mp hc'.2))
    rw [hbc]
    simp [View.likelihood, hempty, Dict.vals]
  · exact hset

/-- The score of the column partition once a column has moved. -/
theorem Moved.crp_score {s s' : State C} (h : Inv s) {col : Col} {d : Dim C} {cur new : Nat}
    {va : View C} (hcur : s.Zv col = some cur) (hm : Moved s col d cur new va s') {c1 : Crp}
    (hc1 : s.crp.unincorporate col = .ok c1) :
    s'.crp.logpdfScore = c1.logpdfScore + Crp.calcPredictiveLogp new c1.N c1.counts c1.alpha := by
  obtain ⟨c1', g1, g2, g3, g4⟩ := Crp.unc_data h.crp hcur
  rw [hc1] at g1; cases g1
  have hn : c1.data.get? col = none := by rw [g4, if_pos rfl]
  obtain ⟨c2, e1, e2, e3, e4⟩ := Crp.inc_data g2 (r := col) new hn
  have hs := Props.score_incorporate g2 (by rw [g3]; exact h.alpha) (x := new) hn
  rw [e1] at hs
  rw [← hs]
  refine (Crp.equiv_of_inv hm.crpInv e2 (by rw [hm.alpha, e3, g3]) fun r => ?_).score
  have := congrFun hm.Zv r
  show s'.Zv r = _
  rw [this, e4, g4]
  unfold upd State.Zv
  split <;> simp_all

open Classical in
/-- The weights of a column transition: for each candidate view that is not forbidden, the score of
the column partition plus the likelihood, once the column has moved there, plus a constant; a view
without other columns is one of `m`. -/
theorem Inv.gibbsDimScore_full (hL : C.Lawful) {cfg : Cfg C} {s : State C} (h : Inv s) {col : Col}
    {d : Dim C} (hd : s.dimFor col = .ok d) {m : Nat} (hm : 0 < m) {aux : Nat → ℝ × (Row → Tab)}
    (haux : ∀ j, 0 < (aux j).1) (hCi : ∀ a ∈ avoid s.Ci col, a ∈ s.outputs) (hs : s.Sorted) :
    ∃ tables dims auxViews w s1 const cur, s.gibbsDimScore cfg col m aux =
        .ok (tables, dims, auxViews, w) s1 ∧ tables = s.candidates col m ∧
        w.length = tables.length ∧ s.Zv col = some cur ∧
      ∀ (k new : Nat), tables[k]? = some new →
        ∃ s' va, s1.gibbsDimMove cfg col tables dims auxViews k = .ok s' ∧ Inv s' ∧
          Moved s col d cur new va s' ∧
          (new ∈ s.views.keys ∨ ∃ j, j < s.mAux col m ∧ new = pyMax s.views.keys + 1 + j ∧
            View.Inv s.tbl va ∧ va.dims = [] ∧ va.crp.alpha = (aux j).1 ∧
            ∀ r, va.seat r = ((List.range s.nRows).map (aux j).2)[r]?) ∧
          ((∃ a ∈ avoid s.Ci col, s.Zv a = some new) → w[k]? = some ⊥) ∧
          ((¬ ∃ a ∈ avoid s.Ci col, s.Zv a = some new) → w[k]? = some
            ((s'.crp.logpdfScore + s'.likelihood + const -
              (if ∀ a, a ≠ col → s.Zv a ≠ some new then Real.log m else 0) : ℝ) : LogP)) := by
  obtain ⟨cur, vcur, hcur, hvcur, hdcur⟩ := dimFor_ok hd
  obtain ⟨ps, auxs, w, h1, h2, h3, h4, h5, h6⟩ := h.gibbsDimScore_ok (cfg := cfg) hd hm haux hCi
    hcur
  obtain ⟨c1, g1, g2, g3, g4⟩ := Crp.unc_data h.crp hcur
  have hlps : ps.length = s.views.length := h2.length_eq.symm
  have hlaux : auxs.length = s.mAux col m := by rw [← h3.length_eq]; simp
  refine ⟨_, _, _, w, _, Real.log (c1.N + c1.alpha) - c1.logpdfScore -
    fsum View.likelihood (dropCol col s.views), cur, h1, rfl, h4, hcur, fun k new htab => ?_⟩
  have hklt : k < (s.candidates col m).length := (List.getElem?_eq_some_iff.mp htab).1
  -- the target
  have htgt : ∃ dk va sc, (ps.map Prod.fst ++ auxs.map (fun p => p.2.1))[k]? = some dk ∧
      (ps.map Prod.snd ++ auxs.map (fun p => p.2.2))[k]? = some sc ∧ sc = dk.score ∧
      Dim.Frame d dk ∧ Target cfg s col d dk new va ∧
      (∃ vb, (s.baseViews col new va).get? new = some vb ∧ DimOk s.tbl vb.seat col dk) ∧
      (pyMax s.views.keys < new →
        (auxs.map (fun p => p.1))[k - s.views.length]? = some va ∧ va.dims = []) ∧
      (new ∈ s.views.keys ∨ ∃ j, j < s.mAux col m ∧ new = pyMax s.views.keys + 1 + j ∧
            View.Inv s.tbl va ∧ va.dims = [] ∧ va.crp.alpha = (aux j).1 ∧
            ∀ r, va.seat r = ((List.range s.nRows).map (aux j).2)[r]?) := by
    rcases h.candidate_cases htab with ⟨hlt, hs', hmem⟩ | ⟨hge, hlt, he⟩
    · have hkl : k < ps.length := by omega
      obtain ⟨p, hp, hf, hdo, hsc⟩ := forall2_right h2 (List.getElem?_eq_getElem hkl)
      rw [h.sorted_keys hs, Dict.keys, List.getElem?_map, hp] at hs'
      have hpn : p.1 = new := Option.some.inj hs'
      have hg := Dict.get?_of_mem (k := p.1) (v := p.2) h.views.wf (List.mem_of_getElem? hp)
      rw [hpn] at hg
      refine ⟨(ps[k]'hkl).1, vcur, (ps[k]'hkl).2, ?_, ?_, hsc, hf, Or.inl ⟨hmem, fun v hv => ?_⟩,
        ⟨drop col p.2, ?_, hdo⟩, fun hcon => absurd hcon (mem_le_pyMax hmem), Or.inl hmem⟩
      · rw [List.getElem?_append, if_pos (by simpa using hkl), List.getElem?_map,
          List.getElem?_eq_getElem hkl]; rfl
      · rw [List.getElem?_append, if_pos (by simpa using hkl), List.getElem?_map,
          List.getElem?_eq_getElem hkl]; rfl
      · right
        rw [hv] at hg
        rw [Option.some.inj hg]
        exact hdo
      · unfold baseViews
        rw [if_neg (mem_le_pyMax hmem), get?_dropCol, hg]; rfl
    · have hkl : k - s.views.length < auxs.length := by omega
      obtain ⟨j, hj, hi, hdm, ha, hseat, hf, hdo, hsc⟩ :=
        forall2_right h3 (List.getElem?_eq_getElem hkl)
      have hjk : j = k - s.views.length := by
        obtain ⟨hj1, hj2⟩ := List.getElem?_eq_some_iff.mp hj
        simpa using hj2.symm
      have hva : (auxs.map (fun p => p.1))[k - s.views.length]? =
          some (auxs[k - s.views.length]'hkl).1 := by
        rw [List.getElem?_map, List.getElem?_eq_getElem hkl]; rfl
      have hlt' : pyMax s.views.keys < new := by omega
      refine ⟨_, (auxs[k - s.views.length]'hkl).1, (auxs[k - s.views.length]'hkl).2.2, ?_, ?_, hsc,
        hf, Or.inr ⟨hlt', hi, hdm, ?_, Or.inr hdo⟩, ⟨_, ?_, hdo⟩, fun _ => ⟨hva, hdm⟩,
        Or.inr ⟨k - s.views.length, hlt, he, hi, hdm, ?_, ?_⟩⟩
      · rw [List.getElem?_append, if_neg (by simp; omega), List.getElem?_map]
        simp only [List.length_map, hlps]
        rw [List.getElem?_eq_getElem hkl]; rfl
      · rw [List.getElem?_append, if_neg (by simp; omega), List.getElem?_map]
        simp only [List.length_map, hlps]
        rw [List.getElem?_eq_getElem hkl]; rfl
      · intro r
        rw [hseat, ne_eq, List.getElem?_eq_none_iff, not_le]
        simp
      · unfold baseViews
        rw [if_pos hlt', Dict.get?_set_self]
      · rw [ha, hjk]
      · intro r; rw [hseat r, hjk]
  obtain ⟨dk, va, sc, hdk, hsck, hsc, hf, ht, ⟨vb, hvb, hdo⟩, hva, hfresh⟩ := htgt
  obtain ⟨s', e1, e2, e3⟩ := h.gibbsDimMove_ok hd hcur htab hdk hf ht (fun hl => (hva hl).1)
  have hiff : (∃ a ∈ avoid s.Ci col, s.Zv a = some new) ↔
      ∃ a ∈ avoid s.Ci col, ∃ v, s.Zv a = some v ∧ s.views.keys[k]? = some v := by
    rcases h.candidate_cases htab with ⟨hlt, hs', hmem⟩ | ⟨hge, hlt, he⟩
    · rw [h.sorted_keys hs] at hs'
      constructor
      · rintro ⟨a, ha, hz⟩; exact ⟨a, ha, new, hz, hs'⟩
      · rintro ⟨a, ha, v, hz, hk⟩
        rw [hs'] at hk
        exact ⟨a, ha, by rw [Option.some.inj hk]; exact hz⟩
    · constructor
      · rintro ⟨a, ha, hz⟩
        have : new ∈ s.views.keys := (h.occ new).mpr ⟨a, hz⟩
        exact absurd (by omega : pyMax s.views.keys < new) (mem_le_pyMax this)
      · rintro ⟨a, ha, v, hz, hk⟩
        have := (List.getElem?_eq_some_iff.mp hk).1
        simp [Dict.keys] at this
        omega
  refine ⟨s', va, e1, e2, e3, hfresh, fun hc => h5 k (hiff.mp hc) (by rw [h4]; exact hklt), fun hc => ?_⟩
  rw [h6 k (fun hc' => hc (hiff.mpr hc')), List.getElem?_zipWith, hsck, List.getElem?_map, htab]
  simp only [Option.map_some, Option.some.injEq]
  have hcnt : c1.counts.get? new = none ↔ ∀ a, a ≠ col → s.Zv a ≠ some new := by
    rw [Dict.get?_eq_none_iff, Crp.occupied_iff g2]
    constructor
    · intro hn a ha hz
      exact hn ⟨a, by rw [g4, if_neg ha]; exact hz⟩
    · rintro hn ⟨a, ha⟩
      rw [g4] at ha
      split at ha
      · cases ha
      · rename_i hne; exact hn a hne ha
  rw [Crp.gibbsWeight_m h.crp h.alpha hcur g1 hm new, e3.crp_score h hcur g1,
    e3.likelihood hL h hd hcur (fun hl => (hva hl).2) hvb hf hdo, hsc]
  congr 1
  by_cases hn : ∀ a, a ≠ col → s.Zv a ≠ some new
  · rw [if_pos hn, if_pos (hcnt.mpr hn)]; ring
  · rw [if_neg hn, if_neg (fun e => hn (hcnt.mp e))]; ring

open Classical in
theorem Inv.gibbsDimScore_value (hL : C.Lawful) {cfg : Cfg C} {s : State C} (h : Inv s) {col : Col}
    {d : Dim C} (hd : s.dimFor col = .ok d) {m : Nat} (hm : 0 < m) {aux : Nat → ℝ × (Row → Tab)}
    (haux : ∀ j, 0 < (aux j).1) (hCi : ∀ a ∈ avoid s.Ci col, a ∈ s.outputs) (hs : s.Sorted) :
    ∃ tables dims auxViews w s1 const, s.gibbsDimScore cfg col m aux =
        .ok (tables, dims, auxViews, w) s1 ∧ tables = s.candidates col m ∧
        w.length = tables.length ∧
      ∀ (k new : Nat), tables[k]? = some new →
        ∃ s', s1.gibbsDimMove cfg col tables dims auxViews k = .ok s' ∧
          s'.Zv = upd s.Zv col (some new) ∧
          ((∃ a ∈ avoid s.Ci col, s.Zv a = some new) → w[k]? = some ⊥) ∧
          ((¬ ∃ a ∈ avoid s.Ci col, s.Zv a = some new) → w[k]? = some
            ((s'.crp.logpdfScore + s'.likelihood + const -
              (if ∀ a, a ≠ col → s.Zv a ≠ some new then Real.log m else 0) : ℝ) : LogP)) := by
  obtain ⟨tables, dims, auxViews, w, s1, const, cur, h1, h2, h3, -, h4⟩ :=
    h.gibbsDimScore_full (cfg := cfg) hL hd hm haux hCi hs
  refine ⟨tables, dims, auxViews, w, s1, const, h1, h2, h3, fun k new hk => ?_⟩
  obtain ⟨s', va, e1, -, e2, -, e3, e4⟩ := h4 k new hk
  exact ⟨s', e1, e2.Zv, e3, e4⟩

end Cgpm.State
