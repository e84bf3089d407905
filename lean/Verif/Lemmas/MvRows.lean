import Verif.Spec.MvRows
import Verif.Model.Kde
import Verif.Lemmas.Dict

/-!
Queries of models that keep rows of values: the evidence, and the rows without missing cells.
-/
namespace Cgpm.MvRows
open Cgpm Cgpm.Spec.Mv

variable {outputs : List Col} {o : MvRows}

theorem observed_wf (hn : outputs.Nodup) (vs : List (Option ℝ)) (T : List Col) (C : Dict Col ℝ) :
    Dict.WF (observed outputs vs T C) := by
  unfold Dict.WF
  have h1 : ((outputs.zip vs).map Prod.fst).Sublist outputs := by
    clear hn
    induction outputs generalizing vs with
    | nil => simp
    | cons a t ih =>
      cases vs with
      | nil => simp
      | cons b vs => simpa using ih vs
  have h2 : (observed outputs vs T C).keys.Sublist ((outputs.zip vs).map Prod.fst) := by
    unfold observed Dict.keys
    generalize outputs.zip vs = l
    induction l with
    | nil => simp
    | cons p t ih =>
      obtain ⟨q, v⟩ := p
      cases v with
      | none =>
        simp only [List.filterMap_cons, List.map_cons]
        exact ih.cons _
      | some v =>
        simp only [List.filterMap_cons, List.map_cons]
        split
        · exact ih.cons _
        · next h =>
          split at h
          · cases h
          · cases h
            simp only [List.map_cons]
            exact ih.cons_cons _
  exact hn.sublist (h2.trans h1)

theorem observed_get? (hn : outputs.Nodup) {vs : List (Option ℝ)}
    (hv : vs.length = outputs.length) (T : List Col) (C : Dict Col ℝ) (q : Col) :
    (observed outputs vs T C).get? q
      = if q ∈ T ∨ q ∈ C.keys then none else (vs[outputs.idxOf q]?).join := by
  have hw := observed_wf hn vs T C
  have key : ∀ v, (q, v) ∈ observed outputs vs T C ↔
      ¬ (q ∈ T ∨ q ∈ C.keys) ∧ vs[outputs.idxOf q]? = some (some v) := by
    intro v
    unfold observed
    rw [List.mem_filterMap]
    constructor
    · rintro ⟨⟨a, b⟩, hm, he⟩
      cases b with
      | none => simp at he
      | some b =>
        simp only at he
        split at he
        · cases he
        · next hno =>
          simp only [Option.some.injEq, Prod.mk.injEq] at he
          obtain ⟨rfl, rfl⟩ := he
          obtain ⟨i, hi, hz⟩ := List.getElem_of_mem hm
          have hl := hi
          simp only [List.length_zip] at hl
          rw [List.getElem_zip] at hz
          simp only [Prod.mk.injEq] at hz
          obtain ⟨z1, z2⟩ := hz
          have hio : i < outputs.length := by omega
          have hp : outputs.idxOf a = i := by
            rw [← z1]
            exact hn.idxOf_getElem i hio
          refine ⟨?_, ?_⟩
          · simpa [Dict.has_iff] using hno
          · rw [hp, List.getElem?_eq_getElem (by omega), z2]
    · rintro ⟨h1, h3⟩
      refine ⟨(q, some v), ?_, ?_⟩
      · have hlt : outputs.idxOf q < vs.length := by
          by_contra hc
          rw [List.getElem?_eq_none (by omega)] at h3
          cases h3
        have hlo : outputs.idxOf q < outputs.length := by omega
        have hz : outputs.idxOf q < (outputs.zip vs).length := by
          simp only [List.length_zip]
          omega
        have := List.getElem_mem hz
        rw [List.getElem_zip] at this
        have e1 : outputs[outputs.idxOf q] = q := List.getElem_idxOf hlo
        have e2 : vs[outputs.idxOf q]'(by omega) = some v := by
          rw [List.getElem?_eq_getElem (by omega)] at h3
          exact Option.some.inj h3
        rw [e1, e2] at this
        exact this
      · simp only
        rw [if_neg]
        simpa [Dict.has_iff] using h1
  by_cases hb : q ∈ T ∨ q ∈ C.keys
  · rw [if_pos hb]
    cases hg : (observed outputs vs T C).get? q with
    | none => rfl
    | some v => exact absurd hb ((key v).1 (Dict.mem_of_get? hg)).1
  · rw [if_neg hb]
    cases hc : vs[outputs.idxOf q]? with
    | none =>
      cases hg : (observed outputs vs T C).get? q with
      | none => rfl
      | some v =>
        have := ((key v).1 (Dict.mem_of_get? hg)).2
        rw [hc] at this; cases this
    | some o =>
      cases o with
      | some v => exact Dict.get?_of_mem hw ((key v).2 ⟨hb, hc⟩)
      | none =>
        cases hg : (observed outputs vs T C).get? q with
        | none => rfl
        | some v =>
          have := ((key v).1 (Dict.mem_of_get? hg)).2
          rw [hc] at this; cases this

/-- The populated constraints are the evidence. -/
theorem populate_ok (hF : Full outputs o) (r : Option Row) (T : List Col)
    {C : Dict Col ℝ} (hC : C.keys.Nodup) :
    ∃ cs, o.populate outputs r T C = .ok cs ∧ Evidence outputs o r T C cs := by
  unfold populate
  have hcell : ∀ q, (r.bind fun r => cell outputs o r q)
      = ((r.bind o.data.get?).bind fun vs => vs[outputs.idxOf q]?).join := by
    intro q
    cases r <;> rfl
  cases hb : r.bind o.data.get? with
  | none =>
    refine ⟨C, rfl, hC, fun q => ?_⟩
    rw [hcell, hb]
    cases C.get? q <;> simp
  | some vs =>
    have hv : vs.length = outputs.length := by
      cases r with
      | none => cases hb
      | some r => exact hF.full r vs hb
    simp only [hv, ne_eq, not_true_eq_false, if_false]
    refine ⟨_, rfl, Dict.wf_update hC _, fun q => ?_⟩
    rw [Dict.get?_update _ _ (observed_wf hF.nodup vs T C), observed_get? hF.nodup hv, hcell, hb]
    cases hc : C.get? q with
    | some v =>
      have : q ∈ C.keys := Dict.mem_keys_of_get? hc
      simp [this]
    | none =>
      have : q ∉ C.keys := (Dict.get?_eq_none_iff _ _).1 hc
      by_cases hT : q ∈ T <;> simp [this, hT]

theorem _root_.Cgpm.Spec.Mv.Evidence.perm {r : Option Row} {T : List Col} {C E₁ E₂ : Dict Col ℝ}
    (h1 : Evidence outputs o r T C E₁) (h2 : Evidence outputs o r T C E₂) : E₁.Perm E₂ :=
  Dict.perm_of_get? h1.nodup h2.nodup fun q => by rw [h1.get, h2.get]

theorem _root_.Cgpm.Spec.Mv.Evidence.disjoint {r : Option Row} {T : List Col} {C Ev : Dict Col ℝ}
    (h : Evidence outputs o r T C Ev) (hd : ∀ q ∈ T, q ∉ C.keys) : ∀ q ∈ T, q ∉ Ev.keys := by
  intro q hq
  rw [← Dict.get?_eq_none_iff, h.get, if_pos hq, (Dict.get?_eq_none_iff _ _).2 (hd q hq)]
  rfl

theorem _root_.Cgpm.Spec.Mv.Evidence.assigns {r : Option Row} {T : List Col} {C Ev : Dict Col ℝ}
    (h : Evidence outputs o r T C Ev) (hF : Full outputs o) (hC : Assigns outputs C) :
    Assigns outputs Ev := by
  refine ⟨h.nodup, fun q hq => ?_⟩
  obtain ⟨v, hv⟩ := Dict.exists_of_mem_keys hq
  rw [h.get] at hv
  cases hc : C.get? q with
  | some w => exact hC.known q (Dict.mem_keys_of_get? hc)
  | none =>
    rw [hc] at hv
    simp only [Option.none_or] at hv
    split at hv
    · cases hv
    · cases r with
      | none => cases hv
      | some r =>
        change cell outputs o r q = _ at hv
        unfold cell at hv
        cases hg : o.data.get? r with
        | none => rw [hg] at hv; cases hv
        | some vs =>
          rw [hg] at hv
          change (vs[outputs.idxOf q]?).join = _ at hv
          have hl := hF.full r vs hg
          by_contra hne
          have : outputs.idxOf q = outputs.length := List.idxOf_eq_length_iff.mpr hne
          rw [List.getElem?_eq_none (by omega)] at hv
          cases hv

theorem mapM_some {α β : Type} {f : α → Option β} {g : α → β} {l : List α}
    (h : ∀ a ∈ l, f a = some (g a)) : l.mapM f = some (l.map g) := by
  induction l with
  | nil => rfl
  | cons a t ih =>
    rw [List.mapM_cons, h a List.mem_cons_self, ih fun b hb => h b (List.mem_cons_of_mem _ hb)]
    rfl

theorem mapM_none {α β : Type} {f : α → Option β} {l : List α} {a : α} (ha : a ∈ l)
    (h : f a = none) : l.mapM f = none := by
  induction l with
  | nil => cases ha
  | cons b t ih =>
    rw [List.mapM_cons]
    rcases List.mem_cons.mp ha with rfl | ha
    · rw [h]; rfl
    · rw [ih ha]
      cases f b <;> rfl

/-- The rows without missing cells. -/
theorem complete_eq (hF : Full outputs o) (qs : List Col) :
    o.complete (qs.map outputs.idxOf)
      = (exemplars outputs o qs).map fun r => qs.map fun q => (cell outputs o r q).getD 0 := by
  unfold complete exemplars Dict.vals Dict.keys
  rw [List.filterMap_map, ← List.filterMap_eq_filter, List.map_filterMap, List.filterMap_map]
  refine List.filterMap_congr fun p hp => ?_
  have hg : o.data.get? p.1 = some p.2 := Dict.get?_of_mem hF.keys hp
  have hc : ∀ q, cell outputs o p.1 q = (p.2[outputs.idxOf q]?).join := fun q => by
    unfold cell; rw [hg]; rfl
  simp only [Function.comp_apply]
  by_cases h : ∀ q ∈ qs, (cell outputs o p.1 q).isSome
  · rw [show (Option.guard (fun x => qs.all fun q => (cell outputs o x q).isSome) p.1) = some p.1 by
      unfold Option.guard; rw [if_pos (List.all_eq_true.mpr h)]]
    rw [List.mapM_map, Option.map_some]
    refine mapM_some (g := fun q => (cell outputs o p.1 q).getD 0) fun q hq => ?_
    have := h q hq
    rw [Function.comp_apply, ← hc]
    obtain ⟨v, hv⟩ := Option.isSome_iff_exists.mp this
    rw [hv]; rfl
  · push Not at h
    obtain ⟨q, hq, hn⟩ := h
    rw [show (Option.guard (fun x => qs.all fun q => (cell outputs o x q).isSome) p.1) = none by
      unfold Option.guard
      rw [if_neg fun hh => hn (List.all_eq_true.mp hh q hq)]]
    rw [List.mapM_map, Option.map_none]
    refine mapM_none hq ?_
    rw [Function.comp_apply, ← hc]
    simpa using hn

end Cgpm.MvRows
