import Verif.Props.Composite
import Verif.Props.StateLogpdf
import Verif.Lemmas.StateDemo

/-! Property C45 for the queries about an existing row of a composite State. -/
namespace Cgpm.Props
open Cgpm Cgpm.Net Cgpm.State
section
variable {C : Cat} {Ω : Type} {close : C.V → C.V → Bool} {ord : PyOrder} {beh : ViewBehaviour C Ω}
  {cfg : Cfg C} {s : State C} {ωj ωm ω : Nat → Nat → Ω} {u : ℝ}
  {hooked : Dict Nat (NetCgpm (Option Row) (Val C) Ω)} {rowid : Option Row}
  {T E inputs : Dict Col C.Cell} {targets : List Col} {acc : Option Nat}

theorem get?_populate (h : State.Inv s) {r : Row} (hr : r < s.nRows) (targets : List Col)
    (E : Dict Col C.Cell) (c : Col) :
    (s.outputs.head? ≠ some c →
      (s.populateConstraints (some r) targets E).get? c = stateKnown s r targets E c) ∧
    (s.outputs.head? = some c → (s.populateConstraints (some r) targets E).get? c = E.get? c) := by
  have hnd : s.outputs.Nodup := h.data.nodup
  set f : Col → Bool := fun c => !targets.contains c && !E.has c && (s.tbl c r).isSome with hf
  have hkeys : Dict.keys ((s.outputs.tail.filter f).map fun c => (c, s.tbl c r)) =
      s.outputs.tail.filter f := by simp [Dict.keys, Function.comp_def]
  have hwf : Dict.WF ((s.outputs.tail.filter f).map fun c => (c, s.tbl c r)) := by
    unfold Dict.WF
    rw [hkeys]
    exact (hnd.sublist (List.tail_sublist _)).filter _
  have hp : s.populateConstraints (some r) targets E =
      E.update ((s.outputs.tail.filter f).map fun c => (c, s.tbl c r)) := by
    unfold State.populateConstraints
    simp only [state_hyp_old hr]
    rfl
  rw [hp, Dict.get?_update _ _ hwf]
  have hfc : f c = true ↔ c ∉ targets ∧ c ∉ E.keys ∧ s.tbl c r ≠ none := by
    simp only [hf, Bool.and_eq_true, Bool.not_eq_true', Option.isSome_iff_ne_none,
      Dict.has_false_iff, Dict.get?_eq_none_iff, and_assoc, ne_eq]
    simp
  constructor
  · intro hh
    have hm : c ∈ s.outputs.tail ↔ c ∈ s.outputs := by
      cases ho : s.outputs with
      | nil => simp
      | cons a l =>
        rw [ho] at hh
        simp only [List.head?_cons, ne_eq, Option.some.injEq] at hh
        simp only [List.tail_cons, List.mem_cons, iff_or_self]
        intro e
        exact absurd e.symm hh
    unfold stateKnown
    by_cases hk : c ∈ s.outputs ∧ c ∉ targets ∧ c ∉ E.keys ∧ s.tbl c r ≠ none
    · rw [if_pos hk, Dict.get?_of_mem hwf (v := s.tbl c r)
        (List.mem_map.mpr ⟨c, List.mem_filter.mpr ⟨hm.mpr hk.1, hfc.mpr hk.2⟩, rfl⟩), Option.some_or]
    · rw [if_neg hk, (Dict.get?_eq_none_iff _ _).mpr, Option.none_or]
      rw [hkeys]
      exact fun hc => hk ⟨hm.mp (List.mem_filter.mp hc).1, hfc.mp (List.mem_filter.mp hc).2⟩
  · intro hh
    rw [(Dict.get?_eq_none_iff _ _).mpr, Option.none_or]
    rw [hkeys]
    intro hc
    have := (List.mem_filter.mp hc).1
    cases ho : s.outputs with
    | nil => rw [ho] at hh; cases hh
    | cons a l =>
      rw [ho] at hh this hnd
      simp only [List.head?_cons, Option.some.injEq] at hh
      subst hh
      exact (List.nodup_cons.mp hnd).1 this

/-- **C45 (partial).** A density query about a row of a composite State, for unobserved columns and
with constraints that agree with the row, is the query to the network given what is known about the
row: the constraints and every observed cell that is neither a target nor a constraint. Missing: the
cell of the first column (C45_first_column_violated) and targets of composed models
(C45_foreign_target_violated). -/
theorem C45_composite_partial (hL : C.Lawful) (hR : StateReachable cfg s) {r : Row}
    (hr : r < s.nRows) (hT : ∀ c ∈ T.keys, c ∈ s.outputs) (hE : E.keys.Nodup)
    (hd : ∀ c ∈ T.keys, c ∉ E.keys) (ho : ∀ c ∈ T.keys, s.tbl c r = none)
    (ha : StateAgrees close s r E) :
    ∃ K, (∀ c, s.outputs.head? ≠ some c → K.get? c = stateKnown s r T.keys E c) ∧
      s.logpdf close ord beh ωj ωm true hooked (some r) T E inputs acc =
        (Net.build ord (s.buildCgpms beh hooked) (some (acc.getD 1))).bind fun net =>
          Net.logpdf ord ωj ωm (some r) net (toVals T) (toVals K) (toVals inputs) := by
  have h := hR.inv hL
  refine ⟨_, fun c => (get?_populate h hr T.keys E c).1, ?_⟩
  have hval : s.validateQuery close (some r) false T.keys E = .ok () := by
    rw [validate_old h hr hT]
    have h1 : (T.keys.any fun c => (s.tbl c r).isSome) = false := by
      rw [List.any_eq_false]; intro c hc; rw [ho c hc]; simp
    have h2 : (T.keys.any fun t => E.has t) = false := by
      rw [List.any_eq_false]
      intro t ht
      simp only [Bool.not_eq_true]
      exact (Dict.has_false_iff _ _).mpr ((Dict.get?_eq_none_iff _ _).mpr (hd t ht))
    rw [h1, h2, (stateGood_iff hE).mpr ha]
    rfl
  unfold State.logpdf
  simp only [hval, if_true]
  cases Net.build ord (s.buildCgpms beh hooked) (some (acc.getD 1)) <;> rfl

/-- **C45 (partial).** The same for simulation: any distinct targets, of the State or of the composed
models. -/
theorem C45_composite_simulate_partial (hL : C.Lawful) (hR : StateReachable cfg s) {r : Row}
    (hr : r < s.nRows) (ht : targets.Nodup) (hE : E.keys.Nodup)
    (hd : ∀ c ∈ targets, c ∉ E.keys) (ha : StateAgrees close s r E) :
    ∃ K, (∀ c, s.outputs.head? ≠ some c → K.get? c = stateKnown s r targets E c) ∧
      s.simulateComposite close ord beh ω u hooked (some r) targets E inputs acc =
        (Net.build ord (s.buildCgpms beh hooked) (some (acc.getD 1))).bind fun net =>
          Net.simulate ord ω u (some r) net targets (toVals K) (toVals inputs) := by
  have h := hR.inv hL
  refine ⟨_, fun c => (get?_populate h hr targets E c).1, ?_⟩
  have hval : s.validateQuery close (some r) true targets E = .ok () := by
    have h2 : (targets.any fun t => E.has t) = false := by
      rw [List.any_eq_false]
      intro t ht
      simp only [Bool.not_eq_true]
      exact (Dict.has_false_iff _ _).mpr ((Dict.get?_eq_none_iff _ _).mpr (hd t ht))
    simp only [State.validateQuery, State.validateConstraints, ht, decide_true, Bool.not_true,
      Bool.and_false, Bool.false_eq_true, if_false, state_hyp_old hr, h2, (stateGood_iff hE).mpr ha]
  unfold State.simulateComposite
  simp only [hval]
  cases Net.build ord (s.buildCgpms beh hooked) (some (acc.getD 1)) <;> rfl

/-- **C45.** A simulation query for a row of a composite State with a constraint that contradicts an
observed cell is refused. -/
theorem C45_composite_simulate_contradiction {r : Row} (hr : r < s.nRows) (hE : E.keys.Nodup)
    (ha : ¬ StateAgrees close s r E) :
    s.simulateComposite close ord beh ω u hooked (some r) targets E inputs acc =
      .error .valueError := by
  have hb : (E.any fun p => !s.goodConstraint close r p.1 p.2) = true := by
    by_contra h
    rw [Bool.not_eq_true] at h
    exact ha ((stateGood_iff hE).mp h)
  have hval : s.validateQuery close (some r) true targets E = .error .valueError := by
    simp only [State.validateQuery, State.validateConstraints, state_hyp_old hr, hb, if_true]
    split
    · rfl
    · split <;> rfl
  unfold State.simulateComposite
  simp only [hval]

/-- **C45.** A query about a new row of a composite State uses the constraints alone. -/
theorem C45_composite_new (hr : NewRowId s rowid) (ht : targets.Nodup)
    (hd : ∀ c ∈ targets, c ∉ E.keys) :
    s.simulateComposite close ord beh ω u hooked rowid targets E inputs acc =
      (Net.build ord (s.buildCgpms beh hooked) (some (acc.getD 1))).bind fun net =>
        Net.simulate ord ω u rowid net targets (toVals E) (toVals inputs) := by
  have hh : s.hypothetical rowid = true := by
    cases rowid with
    | none => rfl
    | some r => simpa [State.hypothetical] using hr r rfl
  have h2 : (targets.any fun t => E.has t) = false := by
    rw [List.any_eq_false]
    intro t ht
    simp only [Bool.not_eq_true]
    exact (Dict.has_false_iff _ _).mpr ((Dict.get?_eq_none_iff _ _).mpr (hd t ht))
  have hval : s.validateQuery close rowid true targets E = .ok () := by
    simp only [State.validateQuery, State.validateConstraints, ht, decide_true, Bool.not_true,
      Bool.and_false, Bool.false_eq_true, if_false, hh, h2]
  have hp : s.populateConstraints rowid targets E = E := by
    simp only [State.populateConstraints, hh]
  unfold State.simulateComposite
  simp only [hval, hp]
  cases Net.build ord (s.buildCgpms beh hooked) (some (acc.getD 1)) <;> rfl

/-- **C45** violated: the observed cell of the first column of a composite State is not used. The
answer to a query about the row is the answer to the query to the network without it. -/
theorem C45_first_column_violated (hL : C.Lawful) (hR : StateReachable cfg s) {r : Row}
    (hr : r < s.nRows) (ht : targets.Nodup) (hE : E.keys.Nodup)
    (hd : ∀ c ∈ targets, c ∉ E.keys) (ha : StateAgrees close s r E) {c0 : Col}
    (h0 : s.outputs.head? = some c0) (hc : c0 ∉ targets) (he : c0 ∉ E.keys)
    (hobs : s.tbl c0 r ≠ none) :
    stateKnown s r targets E c0 = some (s.tbl c0 r) ∧
    ∃ K, K.get? c0 = none ∧
      s.simulateComposite close ord beh ω u hooked (some r) targets E inputs acc =
        (Net.build ord (s.buildCgpms beh hooked) (some (acc.getD 1))).bind fun net =>
          Net.simulate ord ω u (some r) net targets (toVals K) (toVals inputs) := by
  have h := hR.inv hL
  have hm : c0 ∈ s.outputs := by
    cases ho : s.outputs with
    | nil => rw [ho] at h0; cases h0
    | cons a l => rw [ho] at h0; cases h0; simp
  refine ⟨if_pos ⟨hm, hc, he, hobs⟩, s.populateConstraints (some r) targets E, ?_, ?_⟩
  · rw [(get?_populate h hr targets E c0).2 h0]
    exact (Dict.get?_eq_none_iff _ _).mpr he
  · have h2 : (targets.any fun t => E.has t) = false := by
      rw [List.any_eq_false]
      intro t ht
      simp only [Bool.not_eq_true]
      exact (Dict.has_false_iff _ _).mpr ((Dict.get?_eq_none_iff _ _).mpr (hd t ht))
    have hval : s.validateQuery close (some r) true targets E = .ok () := by
      simp only [State.validateQuery, State.validateConstraints, ht, decide_true, Bool.not_true,
        Bool.and_false, Bool.false_eq_true, if_false, state_hyp_old hr, h2,
        (stateGood_iff hE).mpr ha]
    unfold State.simulateComposite
    simp only [hval]
    cases Net.build ord (s.buildCgpms beh hooked) (some (acc.getD 1)) <;> rfl

/-- **C45** violated: the density of a variable of a composed model, at a row of the State, is not
answered: KeyError. -/
theorem C45_foreign_target_violated (hL : C.Lawful) (hR : StateReachable cfg s) {r : Row}
    (hr : r < s.nRows) {v : Col} (hv : v ∉ s.outputs) (x : C.Cell) {composite : Bool} :
    s.logpdf close ord beh ωj ωm composite hooked (some r) [(v, x)] E inputs acc =
      .error .keyError := by
  have h := hR.inv hL
  have hx : s.X.get? v = none := by
    rw [← Option.not_isSome_iff_eq_none]
    intro hh
    obtain ⟨l, hl⟩ := Option.isSome_iff_exists.mp hh
    exact hv ((h.data.mem v).mpr ⟨l, hl⟩)
  have hval : s.validateQuery close (some r) false [v] E = .error .keyError := by
    simp only [State.validateQuery, Bool.false_and, Bool.false_eq_true, if_false, state_hyp_old hr,
      State.anyObserved, hx]
  unfold State.logpdf
  have : Dict.keys [(v, x)] = [v] := rfl
  simp only [this, hval]

end

/-- The hypotheses are met, with a child of the first column. -/
example : ∃ s : State libCat, StateReachable plainCfg s ∧ 0 < s.nRows ∧
    s.outputs.head? = some 0 ∧ s.tbl 0 0 ≠ none ∧ s.tbl 1 0 = none ∧
    WellFormed (s.buildCgpms noBehaviour [(57481, foreignModel [7] [0])]) ∧
    StateAgrees (fun _ _ => true) s 0 [] := by
  obtain ⟨s, h1, h2, h3, h4, h5, h6, h7, h8, -, -, h11, h12⟩ := stateDemo_init
    (normal_remembered 0) normal_hyp (a := 0) (b := 1) (by decide) [] []
  refine ⟨s, h1, by rw [h5]; decide, by rw [h4]; rfl, ?_, ?_, ?_, fun c x hx => by cases hx⟩
  · simp [State.tbl, State.tblOf, h3, stateDemoX, Dict.get?_cons]
  · simp [State.tbl, State.tblOf, h3, stateDemoX, Dict.get?_cons]
  · refine h2.wellFormed noBehaviour (fun n => n) ?_ ?_ ?_ ?_ ?_
    · rw [h4]; simp
    all_goals first | (rw [h4]; simp [foreignModel, Dict.vals]; done) | simp [foreignModel, Dict.vals]

end Cgpm.Props
