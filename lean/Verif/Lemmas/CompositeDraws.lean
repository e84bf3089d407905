import Verif.Lemmas.ViewComponent
import Verif.Spec.CompositeDraws
import Verif.Lemmas.StateLogpdf

/-! The components of a composite State. -/
namespace Cgpm.Props
open Cgpm Cgpm.State Cgpm.Net MeasureTheory
open scoped ENNReal

variable {P : Prim → Prop}

instance sigmaFinite_rowBase (s : State (catOf P)) (ν : Nat → Measure ℝ) [∀ c, SigmaFinite (ν c)]
    (c : Nat) : SigmaFinite (rowBase s ν c) := by
  unfold rowBase
  split
  · infer_instance
  · split <;> infer_instance

theorem clusterOwner_token (s : State (catOf P)) (i : Nat) :
    clusterOwner s (token i) = s.views.get? i := by
  unfold clusterOwner token
  rw [if_pos (Nat.le_add_right _ _), Nat.add_sub_cancel_left]

theorem valuesFrom_cells (D : Dict Nat ℝ) : valuesFrom (P := P) (cellsFrom D) = D := by
  unfold valuesFrom cellsFrom
  induction D with
  | nil => rfl
  | cons a t ih =>
    rw [List.map_cons, List.filterMap_cons]
    exact congrArg (a :: ·) ih

theorem cellsFrom_keys (D : Dict Nat ℝ) : Dict.keys (cellsFrom (P := P) D) = D.keys := by
  simp [cellsFrom, Dict.keys, Function.comp_def]

theorem any_has_none {W : Type} {T : List Nat} {E : Dict Nat W} (h : ∀ c ∈ T, c ∉ E.keys) :
    (T.any fun t => E.has t) = false := by
  rw [List.any_eq_false]
  intro t ht
  simp only [Bool.not_eq_true]
  exact (Dict.has_false_iff _ _).mpr ((Dict.get?_eq_none_iff _ _).mpr (h t ht))

section
variable {s : State (catOf P)} (h : State.Inv s) (hs : SimState s) {ν : Nat → Measure ℝ}
include h hs

theorem simView_of {i : Nat} {view : View (catOf P)} (hv : s.views.get? i = some view) :
    SimView (rowBase s ν) view (token i) := by
  have ho := h.views.view i view hv
  have hcol : ∀ c, c ∈ view.dims.keys → c ∈ s.outputs := fun c hc =>
    (h.cols c).mp (by rw [(ho.dims c).mp hc]; simp)
  have hdim : ∀ c d, view.dims.get? c = some d → s.dimFor c = .ok d := fun c d hd =>
    h.dimFor_of_view hv hd
  have htok : token i ∉ s.outputs := fun hc =>
    absurd (hs.names _ hc) (Nat.not_lt.mpr (Nat.le_add_right _ _))
  refine ⟨⟨0, (ho.rows 0).mpr h.pos⟩, fun hc => htok (hcol _ hc), fun c d hd => hs.plain c d (hdim c d hd),
    fun c d hd => hs.proper c (hcol c ?_) d (hdim c d hd), ?_, fun c d hd => ?_⟩
  · exact Dict.mem_keys_of_get? hd
  · unfold rowBase
    rw [if_neg htok, clusterOwner_token, hv]
  · unfold rowBase colBase
    rw [if_pos (hcol c (Dict.mem_keys_of_get? hd)), hdim c d hd]

omit hs in
theorem freshRow_of {rowid : Option Row} (hr : NewRowId s rowid) {i : Nat} {view : View (catOf P)}
    (hv : s.views.get? i = some view) : FreshRow view rowid := by
  intro r e
  have ho := h.views.view i view hv
  have := hr r e
  refine ⟨?_, by rw [stateInv_rows h hv]; exact this⟩
  by_contra hc
  exact absurd ((ho.rows r).mp hc) (Nat.not_lt.mpr this)

variable [∀ c, SigmaFinite (ν c)] {close : ℝ → ℝ → Bool} {ord : PyOrder}
  {hooked : List Composed} {q : Nat → (Nat → ℝ) → ℝ≥0∞} {rowid : Option Row}

theorem composite_behaves (hord : ord.Lists) (hr : NewRowId s rowid)
    (hh : ∀ l m, hooked[l]? = some m → Behaves (rowBase s ν) rowid m.cgpm m.draw (q l)) (l : Nat)
    (c : NetCgpm (Option Row) ℝ (Nat → ℝ)) (hc : (s.netCgpms close ord hooked)[l]? = some c) :
    Behaves (rowBase s ν) rowid c (s.netDraws close ord hooked l) (rowDensities s q l) := by
  unfold netCgpms at hc
  rw [List.getElem?_append] at hc
  by_cases hl : l < s.views.length
  · rw [List.length_map, if_pos hl, List.getElem?_map, List.getElem?_eq_getElem hl, Option.map_some,
      Option.some.injEq] at hc
    subst hc
    have hv : s.views.get? s.views[l].1 = some s.views[l].2 :=
      Dict.get?_of_mem h.views.wf (List.getElem_mem hl)
    have e1 : s.netDraws close ord hooked l
        = viewDraws close s.tbl ord (token s.views[l].1) s.views[l].2 := by
      unfold netDraws
      simp only [List.getElem?_eq_getElem hl]
    have e2 : rowDensities s q l = clusterRowDensity s.views[l].2 (token s.views[l].1) := by
      unfold rowDensities
      simp only [List.getElem?_eq_getElem hl]
    rw [e1, e2]
    exact view_behaves (h.views.view _ _ hv).inv (simView_of h hs hv) hord (freshRow_of h hr hv)
  · rw [List.length_map, if_neg hl, List.getElem?_map] at hc
    have hn : s.views[l]? = none := List.getElem?_eq_none (by omega)
    cases hm : hooked[l - s.views.length]? with
    | none => rw [hm] at hc; cases hc
    | some m =>
      rw [hm, Option.map_some, Option.some.injEq] at hc
      subst hc
      have e1 : s.netDraws close ord hooked l = m.draw := by
        unfold netDraws
        simp only [hn, hm]
      have e2 : rowDensities s q l = q (l - s.views.length) := by
        unfold rowDensities
        simp only [hn]
      rw [e1, e2]
      exact hh _ m hm

end

theorem composite_simKeys {s : State (catOf P)} {close : ℝ → ℝ → Bool} {ord : PyOrder}
    {hooked : List Composed} (hk : ∀ m ∈ hooked, SimKeys m.cgpm) :
    ∀ c ∈ s.netCgpms close ord hooked, SimKeys c := by
  intro c hc
  rcases List.mem_append.mp hc with hc | hc
  · obtain ⟨e, -, rfl⟩ := List.mem_map.mp hc
    exact simKeys_values fun _ _ _ _ _ => rfl
  · obtain ⟨m, hm, rfl⟩ := List.mem_map.mp hc
    exact hk m hm

/-- A query about a new row goes to the network as it is. -/
theorem sampleComposite_new {s : State (catOf P)} {close : ℝ → ℝ → Bool} {ord : PyOrder}
    {hooked : List Composed} {rowid : Option Row} (hr : NewRowId s rowid) {targets : List Nat}
    {constraints inputs : Dict Nat ℝ} {accuracy : Option Nat} (ht : targets.Nodup)
    (hd : ∀ c ∈ targets, c ∉ constraints.keys) {net : Network (Option Row) ℝ (Nat → ℝ)}
    (hb : build ord (s.netCgpms close ord hooked) (some (accuracy.getD 1)) = .ok net) :
    s.sampleComposite close ord hooked rowid targets constraints inputs accuracy
      = simulateDraws ord (s.netDraws close ord hooked) rowid net targets constraints inputs := by
  have hh := state_hyp_new hr
  have h2 : (targets.any fun t => (cellsFrom (P := P) constraints).has t) = false :=
    any_has_none (fun c hc => by rw [cellsFrom_keys]; exact hd c hc)
  have hval : s.validateQuery close rowid true targets (cellsFrom constraints) = .ok () := by
    simp only [State.validateQuery, State.validateConstraints, ht, decide_true, Bool.not_true,
      Bool.and_false, Bool.false_eq_true, if_false, hh, h2]
  have hp : s.populateConstraints rowid targets (cellsFrom constraints) = cellsFrom constraints := by
    simp only [State.populateConstraints, hh]
  unfold State.sampleComposite
  simp only [hval, hp, hb, valuesFrom_cells]

/-- A query about a new row goes to the network as it is. -/
theorem densityComposite_new {s : State (catOf P)} {close : ℝ → ℝ → Bool} {ord : PyOrder}
    {hooked : List Composed} {rowid : Option Row} (hr : NewRowId s rowid)
    {targets constraints inputs : Dict Nat ℝ} {accuracy : Option Nat}
    (hd : ∀ c ∈ targets.keys, c ∉ constraints.keys) {net : Network (Option Row) ℝ (Nat → ℝ)}
    (hb : build ord (s.netCgpms close ord hooked) (some (accuracy.getD 1)) = .ok net) :
    s.densityComposite close ord hooked rowid targets constraints inputs accuracy
      = logpdfDraws ord (s.netDraws close ord hooked) rowid net targets constraints inputs := by
  have hh := state_hyp_new hr
  have h2 : (targets.keys.any fun t => (cellsFrom (P := P) constraints).has t) = false :=
    any_has_none (fun c hc => by rw [cellsFrom_keys]; exact hd c hc)
  have hval : s.validateQuery close rowid false targets.keys (cellsFrom constraints) = .ok () := by
    simp only [State.validateQuery, State.validateConstraints, Bool.false_and,
      Bool.false_eq_true, if_false, hh, h2]
  have hp : s.populateConstraints rowid targets.keys (cellsFrom constraints)
      = cellsFrom constraints := by
    simp only [State.populateConstraints, hh]
  unfold State.densityComposite
  simp only [hval, hp, hb, valuesFrom_cells]

end Cgpm.Props
