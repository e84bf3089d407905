import Verif.Lemmas.StateRows
import Verif.Props.Partition

/-! `State.force_cell`. -/
namespace Cgpm

theorem Dim.unincorporate_inputs {C : Cat} {d d1 : Dim C} {r : Row}
    (h : d.unincorporate r = .ok d1) : d1.inputs = d.inputs := by
  unfold Dim.unincorporate at h
  split at h
  · cases h; rfl
  · split at h
    · cases h
    · split at h
      · cases h
      · split at h
        · cases h
        · cases h; rfl

namespace View
variable {C : Cat}

theorem forceCell_congr {X X' : C.Tbl} {v : View C} {r : Row} {c : Col} {x : C.Cell}
    (h : ∀ d, v.dims.get? c = some d → ∀ i ∈ d.inputs, X' i r = X i r) :
    v.forceCell X' r c x = v.forceCell X r c x := by
  unfold forceCell
  cases v.seat r with
  | none => rfl
  | some k =>
    simp only
    cases hd : v.dims.get? c with
    | none => rfl
    | some d =>
      simp only
      cases h1 : d.unincorporate r with
      | err e d1 => rfl
      | ok d1 =>
        have : inputsOf X' d1 r = inputsOf X d1 r := by
          unfold inputsOf
          rw [Dim.unincorporate_inputs h1]
          exact List.map_congr_left (h d hd)
        simp only [this]

theorem Same.setDim {v : View C} {c : Col} {d d' : Dim C} (hd : v.dims.get? c = some d)
    (hf : Dim.Frame d d') : Same v { v with dims := v.dims.set c d' } := by
  intro c'
  show Option.Rel _ _ (Dict.get? (v.dims.set c d') c')
  rw [Dict.get?_set]
  split
  · rename_i e; subst e; rw [hd]; exact .some hf
  · exact Same.refl v c'

end View

namespace State
variable {C : Cat}
open View

/-- The data set in which the columns `done` have been updated. -/
def mix (X X' : C.Tbl) (done : List Col) : C.Tbl := fun c r => if c ∈ done then X' c r else X c r

theorem forceCols_ok (hL : C.Lawful) {X X' : C.Tbl} {r : Row} {obs : Dict Col C.Cell}
    (F : List Col) (hin : ∀ c ∈ F, X' c r = (obs.get? c).getD none)
    (hrow : ∀ c r', r' ≠ r → X' c r' = X c r') (hout : ∀ c r', c ∉ F → X' c r' = X c r')
    (cs done : List Col) (hcs : ∀ c ∈ cs, c ∈ F) (hdone : ∀ c ∈ done, c ∈ F) {v : View C}
    (h : View.Inv (mix X X' done) v) (hr : v.seat r ≠ none) (hd : ∀ c ∈ cs, c ∈ v.dims.keys)
    (hacc : ∀ c ∈ cs, ∀ d, v.dims.get? c = some d → Accepts X' d r)
    (hins : ∀ p ∈ v.dims, ∀ i ∈ p.2.inputs, i ∉ F) :
    ∃ v', forceCols X' r obs cs v = .ok v' ∧ View.Inv (mix X X' (cs.reverse ++ done)) v' ∧
      v'.seat = v.seat ∧ v'.crp = v.crp ∧ Same v v' := by
  induction cs generalizing done v with
  | nil => exact ⟨v, rfl, h, rfl, rfl, Same.refl v⟩
  | cons c cs ih =>
    obtain ⟨d, hg⟩ := Dict.exists_of_mem_keys (hd c (by simp))
    have hcF := hcs c (by simp)
    have hmd := Dict.mem_of_get? hg
    have hmix : setCell (mix X X' done) c r ((obs.get? c).getD none) = mix X X' (c :: done) := by
      funext c' r'
      unfold setCell mix
      by_cases e : c' = c
      · subst e
        by_cases e' : r' = r
        · subst e'; simp [hin _ hcF]
        · simp [e', hrow _ _ e']
      · simp [e]
    have hix : d.index = c := (h.dim (c, d) hmd).index
    have hmixin : ∀ i, i ∉ F → ∀ r', mix X X' (c :: done) i r' = X' i r' := by
      intro i hi r'
      unfold mix
      split
      · rfl
      · exact (hout i r' hi).symm
    obtain ⟨d', h1, h2, h3⟩ := forceCell_ok hL h hg hr (x := (obs.get? c).getD none) (by
        rw [hmix]
        have := hacc c (by simp) d hg
        unfold Accepts at this ⊢
        rw [obsOf_congr (X := X')]
        · exact this
        · rw [hix]; unfold mix; simp
        · intro i hi; exact hmixin i (hins _ hmd i hi) r)
      (fun p hp hc => hins p hp c hc hcF)
    rw [hmix] at h1 h3
    have h1' : v.forceCell X' r c ((obs.get? c).getD none)
        = .ok { v with dims := v.dims.set c d' } := by
      rw [← h1]
      refine forceCell_congr fun e he i hi => ?_
      exact (hmixin i (hins _ (Dict.mem_of_get? he) i hi) r).symm
    have hS : Same v { v with dims := v.dims.set c d' } := Same.setDim hg h2
    obtain ⟨v', g1, g2, g3, g4, g5⟩ := ih (done := c :: done) (fun c' hc' => hcs c' (by simp [hc']))
      (by simpa using ⟨hcF, hdone⟩) h3 hr
      (fun c' hc' => (mem_keys_same hS c').mpr (hd c' (by simp [hc'])))
      (fun c' hc' e he => by
        have he' : (v.dims.set c d').get? c' = some e := he
        rw [Dict.get?_set] at he'
        split at he'
        · rename_i ec; subst ec; cases he'
          exact (accepts_frame h2 r).mpr (hacc c' (by simp [hc']) d hg)
        · exact hacc c' (by simp [hc']) e he')
      (fun p hp i hi => by
        have hg' := Dict.get?_of_mem h3.wf hp
        have he' : (v.dims.set c d').get? p.1 = some p.2 := hg'
        rw [Dict.get?_set] at he'
        split at he'
        · cases he'
          rw [h2.inputs] at hi
          exact hins _ hmd i hi
        · exact hins _ (Dict.mem_of_get? he') i hi)
    refine ⟨v', ?_, ?_, g3, g4, hS.trans g5⟩
    · simp only [forceCols, h1', g1]
    · simpa using g2

theorem forceViews_ok (hL : C.Lawful) {X X' : C.Tbl} {n : Nat} {r : Row} {obs : Dict Col C.Cell}
    (hrn : r < n) (F : List Col) (Z : Col → Option Nat) (cols : Col → Prop)
    (hin : ∀ c ∈ F, X' c r = (obs.get? c).getD none)
    (hrow : ∀ c r', r' ≠ r → X' c r' = X c r') (hout : ∀ c r', c ∉ F → X' c r' = X c r')
    (qs : List (Nat × List Col)) (hnd : (qs.map Prod.fst).Nodup)
    (hqs : ∀ q ∈ qs, ∀ c, c ∈ q.2 ↔ c ∈ F ∧ Z c = some q.1) {vs : Dict Nat (View C)}
    (hwf : vs.WF) (hk : ∀ q ∈ qs, q.1 ∈ vs.keys)
    (hpend : ∀ i v, vs.get? i = some v → i ∈ qs.map Prod.fst → VOk X n Z cols i v)
    (hdone : ∀ i v, vs.get? i = some v → i ∉ qs.map Prod.fst → VOk X' n Z cols i v)
    (hacc : ∀ i v, vs.get? i = some v → ∀ c ∈ F, ∀ d, v.dims.get? c = some d → Accepts X' d r)
    (hins : ∀ i v, vs.get? i = some v → ∀ p ∈ v.dims, ∀ i ∈ p.2.inputs, i ∉ F) :
    ∃ vs', forceViews X' r obs qs vs = .ok vs' ∧ VInv X' n Z cols vs' ∧ vs'.keys = vs.keys ∧
      ∀ i v', vs'.get? i = some v' → ∃ v, vs.get? i = some v ∧ v'.crp = v.crp ∧ Same v v' := by
  induction qs generalizing vs with
  | nil =>
    exact ⟨vs, rfl, ⟨hwf, fun i v hv => hdone i v hv (by simp)⟩, rfl,
      fun i v hv => ⟨v, hv, rfl, Same.refl v⟩⟩
  | cons q qs ih =>
    obtain ⟨i, cs⟩ := q
    obtain ⟨v, hv⟩ := Dict.exists_of_mem_keys (hk (i, cs) (by simp))
    have hq := hqs (i, cs) (by simp)
    have ho := hpend i v hv (by simp)
    have hmix0 : mix X X' [] = X := by funext c r; simp [mix]
    obtain ⟨v', h1, h2, h3, h4, h5⟩ := forceCols_ok hL (X := X) (X' := X') (r := r) (obs := obs) F
      hin hrow hout cs [] (fun c hc => ((hq c).mp hc).1) (by simp) (v := v)
      (by rw [hmix0]; exact ho.inv)
      ((ho.rows r).mpr hrn) (fun c hc => (ho.dims c).mpr ((hq c).mp hc).2)
      (fun c hc d hd => hacc i v hv c ((hq c).mp hc).1 d hd) (hins i v hv)
    have hinv : View.Inv X' v' := by
      refine h2.congrX fun p hp r' _ => obsOf_congr ?_ fun j hj => ?_
      · have hix := (h2.dim p hp).index
        have hpk : p.1 ∈ v.dims.keys := (mem_keys_same h5 p.1).mp (List.mem_map_of_mem hp)
        rw [hix]
        unfold mix
        split
        · rfl
        · rename_i hnot
          refine hout _ _ fun hF => hnot ?_
          simp only [List.append_nil, List.mem_reverse]
          exact (hq p.1).mpr ⟨hF, (ho.dims p.1).mp hpk⟩
      · have hj' : j ∉ F := by
          have := h5 p.1
          rw [Dict.get?_of_mem h2.wf hp] at this
          cases ha : v.dims.get? p.1 with
          | none => rw [ha] at this; cases this
          | some d =>
            rw [ha] at this
            cases this with
            | some hf =>
              rw [hf.inputs] at hj
              exact hins i v hv (p.1, d) (Dict.mem_of_get? ha) j hj
        unfold mix
        split
        · rfl
        · exact hout _ _ hj'
    have hnd' : i ∉ qs.map Prod.fst ∧ (qs.map Prod.fst).Nodup := by
      simpa using hnd
    have hkset : (vs.set i v').keys = vs.keys := by
      rw [Dict.keys_set, if_pos (Dict.mem_keys_of_get? hv)]
    have hVO : VOk X' n Z cols i v' := ho.same h5 hinv (fun r' => by rw [h3]; exact ho.rows r')
    obtain ⟨vs', g1, g2, g3, g4⟩ := ih hnd'.2 (fun q hq => hqs q (by simp [hq]))
      (vs := vs.set i v') (Dict.wf_set hwf _ _) (fun q hq => by rw [hkset]; exact hk q (by simp [hq]))
      (fun j w hw hj => by
        rw [Dict.get?_set] at hw
        split at hw
        · rename_i e; subst e; exact absurd hj hnd'.1
        · exact hpend j w hw (by simp only [List.map_cons, List.mem_cons]; exact Or.inr hj))
      (fun j w hw hj => by
        rw [Dict.get?_set] at hw
        split at hw
        · rename_i e; subst e; cases hw; exact hVO
        · rename_i e
          exact hdone j w hw (by simp only [List.map_cons, List.mem_cons, not_or]; exact ⟨e, hj⟩))
      (fun j w hw c hc d hd => by
        rw [Dict.get?_set] at hw
        split at hw
        · rename_i e; subst e; cases hw
          have := h5 c
          rw [hd] at this
          cases ha : v.dims.get? c with
          | none => rw [ha] at this; cases this
          | some d0 =>
            rw [ha] at this
            cases this with
            | some hf => exact (accepts_frame hf r).mpr (hacc j v hv c hc d0 ha)
        · exact hacc j w hw c hc d hd)
      (fun j w hw p hp l hl => by
        rw [Dict.get?_set] at hw
        split at hw
        · rename_i e; subst e; cases hw
          have := h5 p.1
          rw [Dict.get?_of_mem h2.wf hp] at this
          cases ha : v.dims.get? p.1 with
          | none => rw [ha] at this; cases this
          | some d =>
            rw [ha] at this
            cases this with
            | some hf =>
              rw [hf.inputs] at hl
              exact hins j v hv (p.1, d) (Dict.mem_of_get? ha) l hl
        · exact hins j w hw p hp l hl)
    refine ⟨vs', ?_, g2, g3.trans hkset, fun j w hw => ?_⟩
    · simp only [forceViews, hv, h1, g1]
    · obtain ⟨w0, e1, e2, e3⟩ := g4 j w hw
      rw [Dict.get?_set] at e1
      split at e1
      · rename_i e; subst e; cases e1
        exact ⟨v, hv, e2.trans h4, h5.trans e3⟩
      · exact ⟨w0, e1, e2, e3⟩

theorem allMissing_ok {X : Dict Col (List C.Cell)} {r : Row} {cs : List Col} {b : Bool}
    (h : allMissing X r cs = .ok b) (hb : b = true) : ∀ c ∈ cs, c ∈ X.keys ∧ tblOf X c r = none := by
  subst hb
  induction cs with
  | nil => simp
  | cons c cs ih =>
    unfold allMissing at h
    split at h
    · cases h
    · rename_i l hl
      split at h
      · cases h
      · cases h
      · rename_i hc
        intro c' hc'
        rcases List.mem_cons.mp hc' with rfl | hc'
        · exact ⟨Dict.mem_keys_of_get? hl, by simp [tblOf_some hl, hc]⟩
        · exact ih h c' hc'

theorem putCells_spec {r : Row} {obs : Dict Col C.Cell} (hw : obs.WF)
    {X : Dict Col (List C.Cell)} (hk : ∀ c ∈ obs.keys, c ∈ X.keys) :
    (putCells r obs X).keys = X.keys ∧
      ∀ c, (putCells r obs X).get? c = match obs.get? c with
        | none => X.get? c
        | some x => (X.get? c).map fun l => l.set r x := by
  induction obs generalizing X with
  | nil => exact ⟨rfl, fun c => by simp [putCells]⟩
  | cons p t ih =>
    obtain ⟨c, x⟩ := p
    obtain ⟨l, hl⟩ := Dict.exists_of_mem_keys (hk c (by simp [Dict.keys]))
    rw [Dict.wf_cons] at hw
    have hks : (X.set c (l.set r x)).keys = X.keys := by
      rw [Dict.keys_set, if_pos (Dict.mem_keys_of_get? hl)]
    obtain ⟨h1, h2⟩ := ih hw.2 (X := X.set c (l.set r x)) (fun c' hc' => by
      rw [hks]; exact hk c' (by simp only [Dict.keys] at hc' ⊢; simp only [List.map_cons, List.mem_cons]; exact Or.inr hc'))
    have hgt : Dict.get? t c = none := hw.1
    simp only [putCells, hl]
    refine ⟨h1.trans hks, fun c' => ?_⟩
    rw [h2 c', Dict.get?_cons, Dict.get?_set]
    by_cases e : c = c'
    · subst e; simp [hgt, hl]
    · have e' : ¬ c' = c := fun h => e h.symm
      simp [e, e']

/-- The data set after `force_cell`. -/
def forceTbl (s : State C) (rowid : Row) (obs : Dict Col C.Cell) : C.Tbl :=
  fun c r => if r = rowid then
      (match obs.get? c with
      | none => s.tbl c r
      | some x => x)
    else s.tbl c r

/-- Cells are forced. -/
theorem Inv.forceCell_ok (hL : C.Lawful) {s : State C} (h : Inv s) {rowid : Row}
    {obs : Dict Col C.Cell} (hw : obs.WF) (hr : rowid < s.nRows)
    (hm : allMissing s.X rowid obs.keys = .ok true)
    (hacc : ∀ c ∈ obs.keys, ∀ d, s.dimFor c = .ok d → Accepts (s.forceTbl rowid obs) d rowid)
    (hins : ∀ c d, s.dimFor c = .ok d → ∀ i ∈ d.inputs, i ∉ obs.keys) :
    ∃ s', s.forceCell rowid obs = .ok s' ∧ Inv s' ∧ s'.nRows = s.nRows ∧
      s'.outputs = s.outputs ∧ s'.crp = s.crp ∧ s'.Cd = s.Cd ∧ s'.Ci = s.Ci ∧
      s'.tbl = s.forceTbl rowid obs ∧ s'.views.keys = s.views.keys ∧
      ∀ i v', s'.views.get? i = some v' →
        ∃ v, s.views.get? i = some v ∧ v'.crp = v.crp ∧ Same v v' := by
  have hmiss := allMissing_ok hm rfl
  have hkeys : ∀ c ∈ obs.keys, c ∈ s.X.keys := fun c hc => (hmiss c hc).1
  obtain ⟨hk, hget⟩ := putCells_spec (r := rowid) hw hkeys
  set X' := putCells rowid obs s.X with hX'
  have hrect : Rect X' s.outputs s.nRows := by
    refine ⟨hk.trans h.data.keys, h.data.nodup, h.data.ne, fun c l hl => ?_⟩
    rw [hget c] at hl
    split at hl
    · exact h.data.len c l hl
    · cases hx : s.X.get? c with
      | none => rw [hx] at hl; cases hl
      | some l0 => rw [hx] at hl; cases hl; simp [h.data.len c l0 hx]
  have htbl : tblOf X' = s.forceTbl rowid obs := by
    funext c r
    unfold forceTbl tbl
    cases ho : obs.get? c with
    | none =>
      have : X'.get? c = s.X.get? c := by rw [hget c, ho]
      simp [tblOf, this]
    | some x =>
      obtain ⟨l, hl⟩ := Dict.exists_of_mem_keys (hkeys c (Dict.mem_keys_of_get? ho))
      have : X'.get? c = some (l.set rowid x) := by rw [hget c, ho, hl]; rfl
      rw [tblOf_some this, tblOf_some hl]
      by_cases e : r = rowid
      · subst e
        have hlt : r < l.length := by rw [h.data.len c l hl]; exact hr
        rw [if_pos rfl, List.getElem?_set_self hlt]
        rfl
      · rw [if_neg e, List.getElem?_set_ne (fun h => e h.symm)]
  have hZ : ∀ c ∈ obs.keys, s.crp.data.get? c ≠ none := fun c hc =>
    (h.cols c).mpr (by rw [← h.data.keys]; exact hkeys c hc)
  obtain ⟨qs, hq1, hq2, hq3, hq4⟩ := Props.isGrouping_of (fun l => s.crp.data.get? l) obs.keys hZ
  have hqg : ∀ q ∈ qs, qs.get? q.1 = some q.2 := fun q hq => Dict.get?_of_mem hq2 hq
  have hqm : ∀ q ∈ qs, ∀ c, c ∈ q.2 ↔ c ∈ obs.keys ∧ s.Zv c = some q.1 := by
    intro q hq c
    rw [hq4 q.1 q.2 (hqg q hq)]
    simp [Zv]
  have hout : ∀ c r', c ∉ obs.keys → tblOf X' c r' = s.tbl c r' := by
    intro c r' hc
    rw [htbl]
    unfold forceTbl
    rw [(Dict.get?_eq_none_iff _ _).mpr hc]
    simp
  have hVdims : ∀ i v, s.views.get? i = some v → ∀ c d, v.dims.get? c = some d →
      s.dimFor c = .ok d := fun i v hv c d hd => h.dimFor_of_view hv hd
  obtain ⟨vs', g1, g2, g3, g4⟩ := forceViews_ok hL (X := s.tbl) (X' := tblOf X') (n := s.nRows)
    (r := rowid) (obs := obs) hr obs.keys s.Zv (· ∈ s.outputs)
    (fun c hc => by
      rw [htbl]
      obtain ⟨x, hx⟩ := Dict.exists_of_mem_keys hc
      simp [forceTbl, hx])
    (fun c r' hr' => by rw [htbl]; simp [forceTbl, hr'])
    hout qs hq2 hqm h.views.wf
    (fun q hq => by
      obtain ⟨c, hc, hcz⟩ := (hq3 q.1).mp (List.mem_map_of_mem hq)
      exact (h.occ q.1).mpr ⟨c, hcz⟩)
    (fun i v hv _ => h.views.view i v hv)
    (fun i v hv hi => by
      have ho := h.views.view i v hv
      have hnF : ∀ c, s.Zv c = some i → c ∉ obs.keys := fun c hc hF =>
        hi ((hq3 i).mpr ⟨c, hF, hc⟩)
      refine ⟨ho.inv.congrX fun p hp r' _ => obsOf_congr ?_ fun j hj => ?_, ho.rows, ho.dims,
        ho.ins⟩
      · rw [(ho.inv.dim p hp).index]
        exact hout _ _ (hnF _ ((ho.dims _).mp (List.mem_map_of_mem hp)))
      · exact hout _ _ (hins p.1 p.2 (hVdims i v hv _ _ (Dict.get?_of_mem ho.inv.wf hp)) j hj))
    (fun i v hv c hc d hd => by rw [htbl]; exact hacc c hc d (hVdims i v hv c d hd))
    (fun i v hv p hp j hj =>
      hins p.1 p.2 (hVdims i v hv _ _ (Dict.get?_of_mem (h.views.view i v hv).inv.wf hp)) j hj)
  have hrun : s.forceCell rowid obs = .ok { s with X := X', views := vs' } := by
    unfold State.forceCell
    rw [if_neg (not_not.mpr hr)]
    simp only [hm, partitionList, hq1, ← hX', g1]
  refine ⟨_, hrun, ?_, hrect.nRows, rfl, rfl, rfl, rfl, htbl, g3, g4⟩
  refine Inv.of (n := s.nRows) hrect h.pos h.crp h.alpha h.cols g2 fun v => ?_
  show v ∈ vs'.keys ↔ _
  rw [g3]; exact h.occ v

end State
end Cgpm
