import Verif.Lemmas.FactorQuery

/-
Lemmas for C48: the evidence, and the order of an assignment.
-/
namespace Cgpm.Factor
open Matrix Cgpm.Spec.Factor

variable {f : Factor}

/-- The density does not depend on the order of the assignment. -/
theorem density_perm {d e : Dict Col ℝ} (hd : d.keys.Nodup) (h : d.Perm e) :
    density f d = density f e := by
  have h1 : d.Nodup := List.Nodup.of_map _ hd
  have h2 : e.Nodup := h.nodup_iff.1 h1
  let σ : Fin d.length ≃ Fin e.length :=
    (List.Nodup.getEquiv d h1).trans
      ((Equiv.subtypeEquivRight fun x => h.mem_iff).trans (List.Nodup.getEquiv e h2).symm)
  have hσ : ∀ i, e[σ i] = d[i] := by
    intro i
    have := (List.Nodup.getEquiv e h2).apply_symm_apply
      ((Equiv.subtypeEquivRight fun x => h.mem_iff) (List.Nodup.getEquiv d h1 i))
    have := congrArg Subtype.val this
    exact this
  unfold density
  rw [← gauss_equiv σ (fun i : Fin e.length => e[i].2)]
  congr 1
  · funext i; exact congrArg Prod.snd (hσ i).symm
  · funext i; exact congrArg (fun p => mean f p.1) (hσ i).symm
  · funext i j
    have e1 := congrArg Prod.fst (hσ i)
    have e2 := congrArg Prod.fst (hσ j)
    simp only [submatrix_apply, of_apply]
    rw [e1, e2]

theorem take_D (f : Factor) : f.outputs.take f.D = f.outputs.take (numObs f) := by rw [D_eq]

theorem observed_wf (hn : f.outputs.Nodup) (vs : List (Option ℝ)) (T : List Col) (C : Dict Col ℝ) :
    Dict.WF (f.observed vs T C) := by
  unfold Dict.WF
  have h1 : (((f.outputs.take f.D).zip vs).map Prod.fst).Sublist (f.outputs.take f.D) := by
    generalize f.outputs.take f.D = l
    induction l generalizing vs with
    | nil => simp
    | cons a t ih =>
      cases vs with
      | nil => simp
      | cons b vs => simpa using ih vs
  have h2 : (f.observed vs T C).keys.Sublist (((f.outputs.take f.D).zip vs).map Prod.fst) := by
    unfold observed Dict.keys
    generalize (f.outputs.take f.D).zip vs = l
    induction l with
    | nil => simp
    | cons p t ih =>
      obtain ⟨q, v⟩ := p
      cases v with
      | none =>
        simp only [List.filterMap_cons, List.map_cons]
        exact ih.cons _
      | some v =>
        simp only [List.filterMap_cons, List.map_cons]
        split
        · exact ih.cons _
        · next h =>
          split at h
          · cases h
          · cases h
            simp only [List.map_cons]
            exact ih.cons_cons _
  exact (hn.sublist (List.take_sublist _ _)).sublist (h2.trans h1)

theorem observed_get? (hn : f.outputs.Nodup) {vs : List (Option ℝ)}
    (hv : vs.length = numObs f) (T : List Col) (C : Dict Col ℝ) (q : Col) :
    (f.observed vs T C).get? q
      = if q ∈ T ∨ q ∈ C.keys then none else if IsObs f q then (vs[pos f q]?).join else none := by
  have hw := observed_wf hn vs T C
  have key : ∀ v, (q, v) ∈ f.observed vs T C ↔
      ¬ (q ∈ T ∨ q ∈ C.keys) ∧ IsObs f q ∧ vs[pos f q]? = some (some v) := by
    intro v
    unfold observed
    rw [List.mem_filterMap]
    constructor
    · rintro ⟨⟨a, b⟩, hm, he⟩
      cases b with
      | none => simp at he
      | some b =>
        simp only at he
        split at he
        · cases he
        · next hno =>
          simp only [Option.some.injEq, Prod.mk.injEq] at he
          obtain ⟨rfl, rfl⟩ := he
          obtain ⟨i, hi, hz⟩ := List.getElem_of_mem hm
          have hl := hi
          simp only [List.length_zip] at hl
          rw [List.getElem_zip] at hz
          simp only [Prod.mk.injEq] at hz
          obtain ⟨z1, z2⟩ := hz
          have hid : i < numObs f := by omega
          have hio : i < f.outputs.length := by unfold numObs at hid; omega
          have hp : pos f a = i := by
            unfold pos
            rw [← z1, List.getElem_take]
            exact hn.idxOf_getElem i hio
          refine ⟨?_, ?_, ?_⟩
          · simpa [Dict.has_iff] using hno
          · unfold IsObs; rw [hp]; exact hid
          · rw [hp, List.getElem?_eq_getElem (by omega), z2]
    · rintro ⟨h1, h2, h3⟩
      refine ⟨(q, some v), ?_, ?_⟩
      · have hlt : pos f q < numObs f := h2
        have hlo : pos f q < f.outputs.length := by unfold numObs at hlt; omega
        have hz : pos f q < ((f.outputs.take f.D).zip vs).length := by
          simp only [List.length_zip, List.length_take, D_eq]
          omega
        have := List.getElem_mem hz
        rw [List.getElem_zip, List.getElem_take] at this
        have e1 : f.outputs[pos f q] = q := List.getElem_idxOf hlo
        have e2 : vs[pos f q]'(by omega) = some v := by
          rw [List.getElem?_eq_getElem (by omega)] at h3
          exact Option.some.inj h3
        rw [e1, e2] at this
        exact this
      · simp only
        rw [if_neg]
        simpa [Dict.has_iff] using h1
  by_cases hb : q ∈ T ∨ q ∈ C.keys
  · rw [if_pos hb]
    cases hg : (f.observed vs T C).get? q with
    | none => rfl
    | some v => exact absurd hb ((key v).1 (Dict.mem_of_get? hg)).1
  · rw [if_neg hb]
    by_cases ho : IsObs f q
    · rw [if_pos ho]
      cases hc : vs[pos f q]? with
      | none =>
        cases hg : (f.observed vs T C).get? q with
        | none => rfl
        | some v =>
          have := ((key v).1 (Dict.mem_of_get? hg)).2.2
          rw [hc] at this; cases this
      | some o =>
        cases o with
        | some v => exact Dict.get?_of_mem hw ((key v).2 ⟨hb, ho, hc⟩)
        | none =>
          cases hg : (f.observed vs T C).get? q with
          | none => rfl
          | some v =>
            have := ((key v).1 (Dict.mem_of_get? hg)).2.2
            rw [hc] at this; cases this
    · rw [if_neg ho]
      cases hg : (f.observed vs T C).get? q with
      | none => rfl
      | some v => exact absurd ((key v).1 (Dict.mem_of_get? hg)).2.1 ho

/-- The populated constraints are the evidence. -/
theorem populate_ok (hn : f.outputs.Nodup) (hr : FullRows f) (r : Option Row) (T : List Col)
    {C : Dict Col ℝ} (hC : C.keys.Nodup) :
    ∃ cs, f.populate r T C = .ok cs ∧ Evidence f r T C cs := by
  unfold populate
  cases hb : r.bind f.data.get? with
  | none =>
    refine ⟨C, rfl, hC, fun q => ?_⟩
    unfold cell
    rw [hb]
    cases C.get? q <;> simp
  | some vs =>
    have hv : vs.length = numObs f := by
      cases r with
      | none => cases hb
      | some r => exact hr r vs hb
    have hl : (f.outputs.take f.D).length = numObs f := by
      rw [D_eq, List.length_take]; unfold numObs; omega
    simp only [hl, hv, ne_eq, not_true_eq_false, if_false]
    refine ⟨_, rfl, Dict.wf_update hC _, fun q => ?_⟩
    rw [Dict.get?_update _ _ (observed_wf hn vs T C), observed_get? hn hv]
    unfold cell
    rw [hb]
    cases hc : C.get? q with
    | some v =>
      have : q ∈ C.keys := Dict.mem_keys_of_get? hc
      simp [this]
    | none =>
      have : q ∉ C.keys := (Dict.get?_eq_none_iff _ _).1 hc
      by_cases hT : q ∈ T <;> simp [this, hT]

theorem evidence_perm {r : Option Row} {T : List Col} {C E₁ E₂ : Dict Col ℝ}
    (h1 : Evidence f r T C E₁) (h2 : Evidence f r T C E₂) : E₁.Perm E₂ :=
  Dict.perm_of_get? h1.nodup h2.nodup fun q => by rw [h1.get, h2.get]

theorem evidence_disjoint {r : Option Row} {T : List Col} {C Ev : Dict Col ℝ}
    (h : Evidence f r T C Ev) (hd : ∀ q ∈ T, q ∉ C.keys) : ∀ q ∈ T, q ∉ Ev.keys := by
  intro q hq
  rw [← Dict.get?_eq_none_iff, h.get, if_pos hq, (Dict.get?_eq_none_iff _ _).2 (hd q hq)]
  rfl

theorem evidence_assigns {r : Option Row} {T : List Col} {C Ev : Dict Col ℝ}
    (h : Evidence f r T C Ev) (hC : Assigns f C) : Assigns f Ev := by
  refine ⟨h.nodup, fun q hq => ?_⟩
  obtain ⟨v, hv⟩ := Dict.exists_of_mem_keys hq
  rw [h.get] at hv
  cases hc : C.get? q with
  | some w => exact hC.known q (Dict.mem_keys_of_get? hc)
  | none =>
    rw [hc] at hv
    simp only [Option.none_or] at hv
    split at hv
    · cases hv
    · unfold cell at hv
      split at hv
      · next ho =>
        unfold IsObs pos numObs at ho
        exact List.idxOf_lt_length_iff.1 (by omega)
      · cases hv

end Cgpm.Factor
