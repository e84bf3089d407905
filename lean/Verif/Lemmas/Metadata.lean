import Verif.Spec.Metadata
import Verif.Lemmas.StateRun
import Verif.Lemmas.Composite
import Verif.Lemmas.ViewGibbs

/-! Lemmas about serialization. -/
namespace Cgpm
variable {C : Cat}

namespace Dict
variable {K V : Type} [DecidableEq K]

theorem update_eq_append (d e : Dict K V) (h : WF (d ++ e)) : update d e = d ++ e := by
  induction e generalizing d with
  | nil => simp [update]
  | cons p e ih =>
    obtain ⟨k, v⟩ := p
    have hk : get? d k = none := by
      rw [get?_eq_none_iff]
      unfold WF keys at h
      rw [List.map_append, List.nodup_append] at h
      intro hm
      exact h.2.2 k hm k (by simp) rfl
    have h2 : WF ((d ++ [(k, v)]) ++ e) := by simpa using h
    show update (set d k v) e = d ++ (k, v) :: e
    rw [set_of_not_mem v hk, ih _ h2]
    simp

theorem update_nil_eq {e : Dict K V} (h : WF e) : update [] e = e := by
  simpa using update_eq_append [] e h

end Dict

namespace View

theorem sorted_keys {v : View C} {n : Nat} (h : Crp.Inv v.crp) (hr : ∀ r, v.seat r ≠ none ↔ r < n) :
    pySorted v.crp.data.keys = List.range n := by
  unfold pySorted
  have hp : (v.crp.data.keys.insertionSort (· ≤ ·)).Perm (List.range n) := by
    refine (List.perm_insertionSort _ _).trans ?_
    refine (List.perm_ext_iff_of_nodup h.wfData List.nodup_range).mpr fun r => ?_
    rw [List.mem_range, ← hr]
    unfold seat
    rw [ne_eq, Dict.get?_eq_none_iff, not_not]
  refine hp.eq_of_pairwise (le := (· ≤ ·)) (fun a b _ _ h1 h2 => le_antisymm h1 h2) ?_ ?_
  · exact List.pairwise_insertionSort _ _
  · exact List.pairwise_lt_range.imp le_of_lt

theorem rowLabels_ok {v : View C} {n : Nat} (h : Crp.Inv v.crp)
    (hr : ∀ r, v.seat r ≠ none ↔ r < n) :
    v.rowLabels.length = n ∧ ∀ r, v.rowLabels[r]? = v.seat r := by
  unfold rowLabels
  rw [sorted_keys h hr]
  refine ⟨by simp, fun r => ?_⟩
  rw [List.getElem?_map]
  by_cases hlt : r < n
  · rw [List.getElem?_range hlt]
    obtain ⟨k, hk⟩ := Option.ne_none_iff_exists'.mp ((hr r).mpr hlt)
    simp [hk]
  · have : v.seat r = none := by
      by_contra hne; exact hlt ((hr r).mp hne)
    rw [this, List.getElem?_eq_none (by simpa using hlt)]; rfl

end View

namespace State
open Cgpm.View (DimOk)

theorem columnsOf_ok {s : State C} (h : Inv s) :
    columnsOf s.dataArray s.outputs = .ok s.X := by
  have hn := h.pos
  have hd := h.data
  have hne := hd.ne
  have hrow : ∀ r, r < s.nRows → s.dataArray[r]? = some (s.X.vals.map fun l => (l[r]?).getD none) := by
    intro r hr
    simp [dataArray, List.getElem?_range hr]
  have hlen : s.dataArray.length = s.nRows := by simp [dataArray]
  have hkl : s.outputs.length = s.X.length := by rw [← hd.keys]; simp [Dict.keys]
  have key : (s.outputs.zipIdx.map fun p =>
      (p.1, s.dataArray.map fun row => (row[p.2]?).getD none)) = s.X := by
    refine List.ext_getElem? fun i => ?_
    rw [List.getElem?_map, List.getElem?_zipIdx]
    by_cases hi : i < s.X.length
    · have e1 : s.outputs[i]? = some (s.X[i]).1 := by
        rw [← hd.keys]; simp [Dict.keys, hi]
      rw [e1, List.getElem?_eq_getElem hi]
      simp only [Option.map_some, Nat.zero_add, Option.some.injEq]
      have hl : (s.X[i]).2.length = s.nRows :=
        hd.len (s.X[i]).1 (s.X[i]).2 (Dict.get?_of_mem hd.wf (List.getElem_mem hi))
      refine Prod.ext rfl ?_
      refine List.ext_getElem? fun r => ?_
      simp only [List.getElem?_map]
      by_cases hr : r < s.nRows
      · rw [hrow r hr]
        have : r < (s.X[i]).2.length := by omega
        simp [Dict.vals, hi, this]
      · rw [List.getElem?_eq_none (by omega), List.getElem?_eq_none (by omega)]; rfl
    · rw [List.getElem?_eq_none (by omega), List.getElem?_eq_none (by omega)]; rfl
  unfold columnsOf
  cases hrows : s.dataArray with
  | nil => rw [hrows] at hlen; simp at hlen; omega
  | cons row rest =>
    have h0 := hrow 0 hn
    rw [hrows] at h0
    have hrl : row.length = s.outputs.length := by
      simp at h0; rw [h0]; simp [Dict.vals, hkl]
    simp only [if_neg hne, hrl, ne_eq, not_true_eq_false, if_false]
    rw [← hrows, key, Dict.update_nil_eq hd.wf]

theorem specsOf_ok {s : State C} (h : Inv s) (cs : List Col) (hcs : ∀ c ∈ cs, c ∈ s.outputs) :
    ∃ l, s.specsOf cs = .ok l ∧ l.length = cs.length ∧ ∀ (j : Nat) (c : Col), cs[j]? = some c →
      ∃ d, s.dimFor c = .ok d ∧ l[j]? = some (View.specOf d) := by
  induction cs with
  | nil => exact ⟨[], rfl, rfl, by simp⟩
  | cons c cs ih =>
    obtain ⟨l, h1, h2, h3⟩ := ih fun c hc => hcs c (by simp [hc])
    obtain ⟨v, view, d, -, -, -, h4, -⟩ := h.dim (hcs c (by simp))
    refine ⟨View.specOf d :: l, by simp [specsOf, h4, h1, Except.map], by simp [h2], ?_⟩
    intro j c' hj
    cases j with
    | zero => simp at hj; subst hj; exact ⟨d, h4, rfl⟩
    | succ j => exact h3 j c' (by simpa using hj)

/-- The metadata of a consistent State. -/
theorem toMetadata_ok {s : State C} (h : Inv s) :
    ∃ specs, s.toMetadata = .ok
      { X := s.dataArray, outputs := s.outputs, alpha := s.crp.alpha, Zv := s.crp.data, specs
        Cd := s.Cd, Ci := s.Ci
        Zrv := s.views.map fun p => (p.1, p.2.rowLabels)
        viewAlphas := s.views.map fun p => (p.1, p.2.crp.alpha) } ∧
      specs.length = s.outputs.length ∧ ∀ c ∈ s.outputs, ∃ d, s.dimFor c = .ok d ∧
        specAt s.outputs specs c = some (View.specOf d) := by
  obtain ⟨l, h1, h2, h3⟩ := specsOf_ok h s.outputs fun c hc => hc
  refine ⟨l, by simp [toMetadata, h1], h2, fun c hc => ?_⟩
  exact h3 (s.outputs.idxOf c) c (List.getElem?_idxOf hc)

open Cgpm.Props in
/-- A consistent State is restored from its metadata. -/
theorem fromMetadata_ok (hL : C.Lawful) {s : State C} (h : Inv s) {ρ : Restoring} (hρ : ρ.Lists)
    {m : StateMeta C} (hm : s.toMetadata = .ok m) :
    ∃ s', fromMetadata ρ m = .ok s' ∧ Inv s' ∧ StateRestored s s' ∧
      ∃ X n schema alpha Zv order rows Cd Ci, LegalInit (C := C) X n schema alpha Zv order rows ∧
        init X schema alpha Zv order rows Cd Ci = .ok s' := by
  obtain ⟨specs, h1, h2, h3⟩ := toMetadata_ok h
  rw [hm] at h1
  cases h1
  have hzp := hρ.zv (Dict.update [] s.crp.data)
  rw [Dict.update_nil_eq h.crp.wfData] at hzp
  have hzw : (ρ.zv s.crp.data).WF := (Dict.wf_perm hzp).mpr h.crp.wfData
  have hzg : ∀ c, (ρ.zv s.crp.data).get? c = s.Zv c := fun c => Dict.get?_perm hzw hzp c
  have hvw := h.views.wf
  have hvals : ∀ v, v ∈ (ρ.zv s.crp.data).vals ↔ v ∈ s.views.keys := by
    intro v
    rw [h.occ]
    constructor
    · intro hv
      obtain ⟨p, hp, rfl⟩ := List.mem_map.mp hv
      exact ⟨p.1, by rw [← hzg]; exact Dict.get?_of_mem hzw hp⟩
    · rintro ⟨c, hc⟩
      rw [← hzg] at hc
      exact List.mem_map.mpr ⟨(c, v), Dict.mem_of_get? hc, rfl⟩
  have hzr : Dict.update [] (s.views.map fun p => (p.1, p.2.rowLabels)) =
      s.views.map fun p => (p.1, p.2.rowLabels) :=
    Dict.update_nil_eq (by unfold Dict.WF; rw [Dict.keys_map_val]; exact hvw)
  have hal : Dict.update [] (s.views.map fun p => (p.1, p.2.crp.alpha)) =
      s.views.map fun p => (p.1, p.2.crp.alpha) :=
    Dict.update_nil_eq (by
      unfold Dict.WF; rw [Dict.keys_map_val fun v : View C => v.crp.alpha]; exact hvw)
  have hgz : ∀ v, Dict.get? (s.views.map fun p => (p.1, p.2.rowLabels)) v =
      (s.views.get? v).map View.rowLabels := fun v => Dict.get?_map_val _ _ _
  have hga : ∀ v, Dict.get? (s.views.map fun p => (p.1, p.2.crp.alpha)) v =
      (s.views.get? v).map fun w => w.crp.alpha := fun v =>
    Dict.get?_map_val (fun w : View C => w.crp.alpha) _ _
  obtain ⟨d0, t0, e0⟩ : ∃ d0 t0, specs = d0 :: t0 := by
    cases specs with
    | nil => exact absurd (List.length_eq_zero_iff.mp h2.symm) h.data.ne
    | cons d t => exact ⟨d, t, rfl⟩
  set schema : Col → ColSpec C := fun c => (specAt s.outputs specs c).getD d0 with hsch
  set rows : Nat → ℝ × List Tab := fun v =>
    (((s.views.get? v).map fun w => w.crp.alpha).getD (ρ.alphas v),
      ((s.views.get? v).map View.rowLabels).getD []) with hrw
  have hschema : ∀ c ∈ s.outputs, ∃ v view d, s.Zv c = some v ∧ s.views.get? v = some view ∧
      view.dims.get? c = some d ∧ schema c = View.specOf d ∧ DimOk s.tbl view.seat c d ∧
      VOk s.tbl s.nRows s.Zv (· ∈ s.outputs) v view := by
    intro c hc
    obtain ⟨v, view, d, g1, g2, g3, g4, g5, g6⟩ := h.dim hc
    obtain ⟨d', k1, k2⟩ := h3 c hc
    rw [g4] at k1
    cases k1
    exact ⟨v, view, d, g1, g2, g3, by simp [hsch, k2], g6, g5⟩
  have hlegal : LegalInit s.X s.nRows schema s.crp.alpha (ρ.zv s.crp.data)
      (ρ.views (ρ.zv s.crp.data).vals) rows := by
    refine ⟨⟨h.data.wf, ?_⟩, h.data.len, h.pos, h.alpha, ⟨hzw, fun c => ?_⟩,
      ⟨(hρ.views _).1, fun v => ?_⟩, fun v hv => ?_, fun c hc => ?_, fun c hc i hi => ?_,
      fun c hc r hr => ?_⟩
    · intro e
      exact h.data.ne (by rw [← h.data.keys, e]; rfl)
    · rw [h.data.keys, ← h.cols, ← hzg, ne_eq, Dict.get?_eq_none_iff, not_not]
    · rw [(hρ.views _).2, hvals, h.occ]
      simp only [hzg]
    · rw [(hρ.views _).2, hvals] at hv
      obtain ⟨view, hw⟩ := Dict.exists_of_mem_keys hv
      have ho := h.views.view v view hw
      simp only [hrw, hw, Option.map_some, Option.getD_some]
      exact ⟨ho.inv.alpha, (View.rowLabels_ok ho.inv.crp ho.rows).1⟩
    · rw [h.data.keys] at hc
      obtain ⟨v, view, d, -, -, -, g4, g5, -⟩ := hschema c hc
      rw [g4]; exact g5.hyp
    · rw [h.data.keys] at hc ⊢
      obtain ⟨v, view, d, -, -, g3, g4, g5, g6⟩ := hschema c hc
      rw [g4] at hi
      exact g6.ins (c, d) (Dict.mem_of_get? g3) i hi
    · rw [h.data.keys] at hc
      obtain ⟨v, view, d, -, -, g3, g4, g5, g6⟩ := hschema c hc
      rw [admissible_iff, g4]
      obtain ⟨k, hk⟩ := Option.ne_none_iff_exists'.mp ((g6.rows r).mpr hr)
      have ha := g5.acc r k hk
      have hf : Dim.Frame (Dim.new c d.inputs d.kind d.hyp) d := ⟨g5.index, rfl, rfl, rfl⟩
      exact (View.accepts_frame hf r).mp ha
  obtain ⟨s', i1, i2, i3, i4, i5, i6, i7, i8, i9, i10, i11⟩ := init_ok s.Cd s.Ci (initOk_of hlegal)
  have htbl : s'.tbl = s.tbl := by unfold tbl; rw [i3]
  refine ⟨s', ?_, i2, ?_, _, _, _, _, _, _, _, _, _, hlegal, i1⟩
  · unfold fromMetadata
    simp only [columnsOf_ok h, Dict.update_nil_eq h.crp.wfData, hzr, hal]
    rw [if_pos]
    · unfold withSchema
      rw [e0]
      simp only
      rw [if_neg (by rw [← e0, h2, h.data.keys]; exact lt_irrefl _), h.data.keys, ← e0]
      rw [← i1]
      simp only [hgz, hga, hsch, hrw]
    · rw [Dict.keys_map_val]
      simp only [Bool.and_eq_true, List.all_eq_true, List.contains_iff_mem]
      exact ⟨fun v hv => (hvals v).mpr hv, fun v hv => (hvals v).mp hv⟩
  · refine ⟨i3.symm, by rw [i4, h.data.keys], Crp.equiv_of_inv h.crp i2.crp i6.symm fun c => ?_,
      i9.symm, i10.symm, ?_, hvw, fun v => ?_⟩
    · rw [show s'.crp.data.get? c = s'.Zv c from rfl, i7, hzg]; rfl
    · rw [i8]
      exact (List.perm_ext_iff_of_nodup hvw (hρ.views _).1).mpr fun v => by
        rw [(hρ.views _).2, hvals]
    · have hk : v ∈ s.views.keys ↔ v ∈ s'.views.keys := by rw [i8, (hρ.views _).2, hvals]
      cases hw : s.views.get? v with
      | none =>
        rw [(Dict.get?_eq_none_iff _ _).mpr (fun hm => (Dict.get?_eq_none_iff _ _).mp hw (hk.mpr hm))]
        exact Option.Rel.none
      | some w =>
        obtain ⟨w', hw'⟩ := Dict.exists_of_mem_keys (hk.mp (Dict.mem_keys_of_get? hw))
        rw [hw']
        have ho := h.views.view v w hw
        have ho' := i2.views.view v w' hw'
        obtain ⟨j1, j2, j3⟩ := i11 v w' hw'
        have hI' : View.Inv s.tbl w' := htbl ▸ ho'.inv
        refine Option.Rel.some (View.equiv_of_inv hL ho.inv hI' ?_ ?_ fun c => ?_)
        · rw [j1]; simp [hrw, hw]
        · funext r
          rw [j2]
          simp only [hrw, hw, Option.map_some, Option.getD_some]
          exact ((View.rowLabels_ok ho.inv.crp ho.rows).2 r).symm
        · cases hd : w.dims.get? c with
          | none =>
            have : w'.dims.get? c = none := by
              rw [Dict.get?_eq_none_iff, ho'.dims, i7, hzg, ← ho.dims, ← Dict.get?_eq_none_iff]
              exact hd
            rw [this]; exact Option.Rel.none
          | some d =>
            have hz : s.Zv c = some v := (ho.dims c).mp (Dict.mem_keys_of_get? hd)
            obtain ⟨d', hd'⟩ := Dict.exists_of_mem_keys
              ((ho'.dims c).mpr (by rw [i7, hzg]; exact hz))
            rw [hd']
            obtain ⟨v2, w2, d2, g1, g2, g3, g4, g5, -⟩ :=
              hschema c ((h.cols c).mp (by rw [hz]; simp))
            rw [hz] at g1; cases g1
            rw [hw] at g2; cases g2
            rw [hd] at g3; cases g3
            have := j3 c d' hd'
            rw [g4] at this
            exact Option.Rel.some ⟨this.index.trans g5.index.symm, this.inputs, this.kind, this.hyp⟩

end State

namespace View

/-- A consistent view whose rows are numbered from 0 is restored from its metadata. -/
theorem fromMetadata_ok (hL : C.Lawful) {X : C.Tbl} {v : View C} {n : Nat} (h : Inv X v)
    (hr : ∀ r, v.seat r ≠ none ↔ r < n) :
    ∃ v', fromMetadata X v.toMetadata = .ok v' ∧ Inv X v' ∧ Equiv v v' := by
  obtain ⟨l1, l2⟩ := rowLabels_ok h.crp hr
  obtain ⟨w, h1, h2, h3, h4, h5⟩ := State.newView_ok (C := C) h.alpha v.rowLabels X
  have hseat : v.seat = w.seat := by funext r; rw [h5, l2]
  have hrw : ∀ r, w.seat r ≠ none ↔ r < n := by rw [← hseat]; exact hr
  unfold fromMetadata toMetadata
  simp only [h1]
  by_cases hk : v.dims.keys = []
  · rw [if_pos hk]
    refine ⟨w, rfl, h2, equiv_of_inv hL h h2 h4.symm hseat fun c => ?_⟩
    have : v.dims.get? c = none := (Dict.get?_eq_none_iff _ _).mpr (by simp [hk])
    rw [this, h3]; exact Option.Rel.none
  · rw [if_neg hk]
    have hvl : (v.dims.vals.map specOf).length = v.dims.keys.length := by
      simp [Dict.vals, Dict.keys]
    obtain ⟨d0, t0, e0⟩ : ∃ d0 t0, v.dims.vals.map specOf = d0 :: t0 := by
      cases hs : v.dims.vals.map specOf with
      | nil => rw [hs] at hvl; exact absurd (List.length_eq_zero_iff.mp hvl.symm) hk
      | cons d t => exact ⟨d, t, rfl⟩
    have hsp : ∀ c d, v.dims.get? c = some d →
        State.specAt v.dims.keys (v.dims.vals.map specOf) c = some (specOf d) := by
      intro c d hd
      have hm := Dict.mem_keys_of_get? hd
      have hi : v.dims.keys[v.dims.keys.idxOf c]? = some c := List.getElem?_idxOf hm
      unfold State.specAt
      set i := v.dims.keys.idxOf c
      simp only [Dict.keys, List.getElem?_map, Option.map_eq_some_iff] at hi
      obtain ⟨p, hp, rfl⟩ := hi
      have := Dict.get?_of_mem h.wf (List.mem_of_getElem? hp)
      rw [hd] at this
      cases this
      simp [Dict.vals, hp]
    set schema : Col → State.ColSpec C := fun c =>
      (State.specAt v.dims.keys (v.dims.vals.map specOf) c).getD d0 with hsch
    obtain ⟨v', g1, g2, g3, g4, g5⟩ := State.addDims_ok (X := X) (n := n) (schema := schema)
      (cols := v.dims.keys ++ v.dims.vals.flatMap Dim.inputs) v.dims.keys h2 hrw (by
        intro c hc
        obtain ⟨d, hd⟩ := Dict.exists_of_mem_keys hc
        have hs : schema c = specOf d := by simp [hsch, hsp c d hd]
        have hok := h.dim (c, d) (Dict.mem_of_get? hd)
        refine ⟨by rw [hs]; exact hok.hyp, fun i hi => ?_, fun r hlt => ?_⟩
        · rw [hs] at hi
          refine List.mem_append_right _ (List.mem_flatMap.mpr ⟨d, ?_, hi⟩)
          exact List.mem_map.mpr ⟨(c, d), Dict.mem_of_get? hd, rfl⟩
        · obtain ⟨k, hkr⟩ := Option.ne_none_iff_exists'.mp ((hr r).mpr hlt)
          rw [hs]
          have hf : Dim.Frame (Dim.new c d.inputs d.kind d.hyp) d := ⟨hok.index, rfl, rfl, rfl⟩
          exact (accepts_frame hf r).mp (hok.acc r k hkr))
    refine ⟨v', ?_, g2, equiv_of_inv hL h g2 (by rw [g3, h4]) ?_ fun c => ?_⟩
    · unfold State.withSchema
      rw [e0]
      simp only
      rw [if_neg (by rw [← e0, hvl]; exact lt_irrefl _), ← e0, g1]
    · rw [hseat]; unfold seat; rw [g3]
    · cases hd : v.dims.get? c with
      | none =>
        have : v'.dims.get? c = none := by
          rw [Dict.get?_eq_none_iff, g4, h3]
          rintro (hm | hm)
          · cases hm
          · exact (Dict.get?_eq_none_iff _ _).mp hd hm
        rw [this]; exact Option.Rel.none
      | some d =>
        obtain ⟨d', hd'⟩ := Dict.exists_of_mem_keys ((g4 c).mpr (.inr (Dict.mem_keys_of_get? hd)))
        rw [hd']
        rcases g5 c d' hd' with hg | ⟨-, hg⟩
        · rw [h3] at hg; cases hg
        · rw [show schema c = specOf d by simp [hsch, hsp c d hd]] at hg
          exact Option.Rel.some ⟨hg.index.trans (h.dim (c, d) (Dict.mem_of_get? hd)).index.symm,
            hg.inputs, hg.kind, hg.hyp⟩

end View
end Cgpm
