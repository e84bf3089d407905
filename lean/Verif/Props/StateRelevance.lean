import Verif.Lemmas.StateRelevance
import Verif.Lemmas.StateDemo

/-!
C30: relevance probability of a State.
-/
namespace Cgpm.Props
open Cgpm Cgpm.State Cgpm.View

variable {C : Cat}

/-- SPEC. A hypothetical row has a value for some column of the view that holds `col`. -/
def informative (s : State C) (col : Col) (h : Dict Col C.Cell) : Prop :=
  ∃ c, s.Zv c = s.Zv col ∧ ∃ x, h.get? c = some (some x)

theorem compatible_length {s : State C} (hI : State.Inv s) {col : Col} {v : Nat} {w : View C}
    (hz : s.Zv col = some v) (hw : s.views.get? v = some w) (hyps : List (Dict Col C.Cell)) :
    (open Classical in (compatibleRows w hyps).length = hyps.countP fun h => informative s col h) := by
  classical
  unfold compatibleRows
  rw [← List.countP_eq_length_filter, List.countP_map]
  refine List.countP_congr fun h _ => ?_
  simp only [Function.comp, Bool.not_eq_true', decide_eq_true_eq]
  rw [← Bool.not_eq_true, List.all_eq_true]
  push Not
  constructor
  · rintro ⟨x, hx, hn⟩
    obtain ⟨p, hp, rfl⟩ := List.mem_map.mp hx
    have hc := ((hI.views.view v w hw).dims p.1).mp (List.mem_map.mpr ⟨p, hp, rfl⟩)
    refine ⟨p.1, by rw [hc, hz], ?_⟩
    cases hg : h.get? p.1 with
    | none => simp [hg] at hn
    | some o =>
      cases o with
      | none => simp [hg] at hn
      | some x => exact ⟨x, rfl⟩
  · rintro ⟨c, hc, x, hx⟩
    rw [hz] at hc
    obtain ⟨p, hp, rfl⟩ := List.mem_map.mp (((hI.views.view v w hw).dims c).mpr hc)
    exact ⟨_, List.mem_map.mpr ⟨p, hp, rfl⟩, by simp [hx]⟩

open Classical in
/-- C30.  Whatever clusters are sampled for the hypothetical rows, a relevance query that names
existing rows and hypothetical values admissible for the columns of the view leaves every
observable of the State as it was.  The answer is 1 if there is something to compare and all query
rows and all hypothetical rows (those with a value for a column of the view) are in the cluster of
the target, and 0 otherwise. -/
theorem C30_state (hL : C.Lawful) {cfg : Cfg C} {s : State C} (h : StateReachable cfg s)
    {col : Col} (hc : col ∈ s.outputs) {target : Row} (ht : target < s.nRows) {query : List Row}
    (hq : ∀ r ∈ query, r < s.nRows) (hyps : List (Dict Col C.Cell)) (z : Row → Tab)
    (hin : ∀ c d, s.dimFor c = .ok d → s.Zv c = s.Zv col → ∀ i ∈ d.inputs, s.Zv i = s.Zv col)
    (hadm : ∀ q ∈ hyps, ∀ c d, s.dimFor c = .ok d → s.Zv c = s.Zv col →
      admissible (fun c _ => (q.get? c).getD none) d 0) :
    ∃ b s', s.relevanceProbability target query col hyps z = .ok b s' ∧ StateSame s s' ∧
      (b = 0 ∨ b = 1) ∧ ∃ v view k, s.Zv col = some v ∧ s.views.get? v = some view ∧
        view.seat target = some k ∧
        (b = 1 ↔ (query ≠ [] ∨ hyps.countP (fun h => informative s col h) ≠ 0) ∧
          (∀ r ∈ query, view.seat r = some k) ∧
          ∀ i < hyps.countP (fun h => informative s col h), z (s.nRows + i) = k) := by
  have hI := h.inv hL
  obtain ⟨v, w, e1, e2, e3⟩ := hI.viewFor_ok hc
  have hO := hI.views.view v w e3
  have hdim : ∀ c d, w.dims.get? c = some d → s.dimFor c = .ok d ∧ s.Zv c = s.Zv col := by
    intro c d hd
    have hz := (hO.dims c).mp (Dict.mem_keys_of_get? hd)
    exact ⟨by simp only [dimFor, hz, e3, hd], by rw [hz, e2]⟩
  have hin' : ∀ c d, w.dims.get? c = some d → ∀ i ∈ d.inputs, i ∈ w.dims.keys := by
    intro c d hd i hi
    obtain ⟨g1, g2⟩ := hdim c d hd
    exact (hO.dims i).mpr (by rw [hin c d g1 g2 i hi, e2])
  have hst : Extended s.X w s.nRows 0 z s.X w := Extended.start hO.inv hO.rows (fun c hc' => by
    have hm : c ∈ s.outputs := (hI.cols c).mp (by rw [(hO.dims c).mp hc']; simp)
    obtain ⟨l, hl⟩ := (hI.data.mem c).mp hm
    exact ⟨l, hl, hI.data.len c l hl⟩) z
  have hfit : ∀ q ∈ compatibleRows w hyps, Fits w q := by
    intro q hq'
    obtain ⟨q0, hq0, rfl⟩ := List.mem_map.mp (List.mem_filter.mp hq').1
    have hg : ∀ c ∈ w.dims.keys,
        Dict.get? (w.dims.map fun p => (p.1, (q0.get? p.1).getD none)) c =
          some ((q0.get? c).getD none) := by
      intro c hc'
      have : w.dims.map (fun p => (p.1, (q0.get? p.1).getD none)) =
          w.dims.keys.map fun c => (c, (q0.get? c).getD none) := by
        simp [Dict.keys, Function.comp_def]
      rw [this, get?_mapPair, if_pos hc']
    refine ⟨fun c hc' => ⟨_, hg c hc'⟩, fun c d hd => ?_⟩
    obtain ⟨g1, g2⟩ := hdim c d hd
    have hacc := (admissible_iff _ _ _).mp (hadm q0 hq0 c d g1 g2)
    intro o ho
    refine hacc o ?_
    rw [← ho]
    have hi := (hO.inv.dim (c, d) (Dict.mem_of_get? hd)).index
    simp only at hi
    refine obsOf_congr ?_ fun i hi' => ?_
    · rw [hi]; simp only [hg c (Dict.mem_keys_of_get? hd), Option.getD_some]
    · simp only [hg i (hin' c d hd i hi'), Option.getD_some]
  obtain ⟨X1, v1, a1, a2⟩ := hst.addAll hL hfit hin'
  obtain ⟨X2, v2, b1, b2⟩ := a2.removeAll hL hin'
  rw [Nat.zero_add] at b1
  rw [Nat.add_zero] at a1
  obtain ⟨rX, rV⟩ := b2.restored hL hI.data.wf hO.inv hO.rows
  obtain ⟨k, hk⟩ := hI.seat_some e3 ht
  have hn := compatible_length hI e2 e3 hyps
  have hk1 : v1.seat target = some k := by rw [a2.seat, if_pos ht, hk]
  have hlow : ∀ r, r < s.nRows → v1.seat r = w.seat r := fun r hr => by rw [a2.seat, if_pos hr]
  have hhigh : ∀ i, i < (compatibleRows w hyps).length →
      v1.seat (s.nRows + i) = some (z (s.nRows + i)) := by
    intro i hi
    rw [a2.seat, if_neg (rowLt1 _ _), if_pos]
    exact Nat.add_lt_add_left (by omega) _
  have hall : ∀ r ∈ query ++ (List.range (compatibleRows w hyps).length).map (s.nRows + ·),
      v1.seat r ≠ none := by
    intro r hr
    rcases List.mem_append.mp hr with hr | hr
    · rw [hlow r (hq r hr)]
      obtain ⟨a, ha⟩ := hI.seat_some e3 (hq r hr)
      rw [ha]; simp
    · obtain ⟨i, hi, rfl⟩ := List.mem_map.mp hr
      rw [hhigh i (List.mem_range.mp hi)]; simp
  obtain ⟨b, c1, c2⟩ := allSame_ok hk1 hall
  obtain ⟨all, hdef⟩ : ∃ all,
      query ++ (List.range (compatibleRows w hyps).length).map (s.nRows + ·) = all := ⟨_, rfl⟩
  rw [hdef] at c1
  obtain ⟨b', d1, d2⟩ : ∃ b', (if all.isEmpty then (.ok false : Except Exn Bool)
      else allSame v1 target all) = .ok b' ∧ (b' = true ↔ all ≠ [] ∧ b = true) := by
    by_cases he : all = []
    · exact ⟨false, by simp [he], by simp [he]⟩
    · exact ⟨b, by rw [if_neg (by simpa using he)]; exact c1, by simp [he]⟩
  have hset : ∀ i, ((s.views.set v v1).set v v2).get? i =
      if i = v then some v2 else s.views.get? i := by
    intro i
    rw [Dict.set_set, Dict.get?_set]
  refine ⟨if b' then 1 else 0, { s with X := X2, views := (s.views.set v v1).set v v2 }, ?_, ?_, ?_,
    v, w, k, e2, e3, hk, ?_⟩
  · unfold relevanceProbability
    rw [if_neg (by simp [hc])]
    simp only [e1, a1, hdef, d1, b1]
  · have hkeys : ((s.views.set v v1).set v v2).keys = s.views.keys := by
      rw [Dict.set_set, Dict.keys_set, if_pos (Dict.mem_keys_of_get? e3)]
    refine ⟨rX.symm, rfl, rfl, rfl, rfl, hkeys.symm, hI.views.wf, fun i => ?_⟩
    show Option.Rel _ _ (((s.views.set v v1).set v v2).get? i)
    rw [hset]
    by_cases hi : i = v
    · subst hi
      rw [if_pos rfl, e3]
      exact .some rV
    · rw [if_neg hi]
      cases hg : s.views.get? i with
      | none => exact .none
      | some x => exact .some (equiv_of_inv hL (hI.views.view i x hg).inv
          (hI.views.view i x hg).inv rfl rfl (Same.refl _))
  · cases b' <;> simp
  · rw [← hn]
    have : (if b' = true then 1 else 0) = 1 ↔ b' = true := by cases b' <;> simp
    rw [this, d2, c2]
    refine and_congr ?_ ?_
    · simp only [← hdef, ne_eq, List.append_eq_nil_iff, not_and_or, List.map_eq_nil_iff,
        List.range_eq_nil]
    · constructor
      · intro hh
        refine ⟨fun r hr => ?_, fun i hi => ?_⟩
        · rw [← hlow r (hq r hr)]
          exact hh r (List.mem_append_left _ hr)
        · have := hh (s.nRows + i) (List.mem_append_right _ (List.mem_map.mpr
            ⟨i, List.mem_range.mpr hi, rfl⟩))
          rw [hhigh i hi] at this
          exact Option.some.inj this
      · rintro ⟨h1, h2⟩ r hr
        rcases List.mem_append.mp hr with hr | hr
        · rw [hlow r (hq r hr)]; exact h1 r hr
        · obtain ⟨i, hi, rfl⟩ := List.mem_map.mp hr
          rw [hhigh i (List.mem_range.mp hi), h2 i (List.mem_range.mp hi)]

/-- C30.  A column that the State does not have is refused, and nothing changes. -/
theorem C30_state_unknown_column (s : State C) {col : Col} (hc : col ∉ s.outputs) (target : Row)
    (query : List Row) (hyps : List (Dict Col C.Cell)) (z : Row → Tab) :
    s.relevanceProbability target query col hyps z = .err .assertion s := by
  unfold relevanceProbability
  rw [if_pos (by simpa using hc)]

/-- The hypotheses are met: two hypothetical rows, of which the second says nothing about the view
of column 0. -/
example : ∃ s : State libCat, StateReachable plainCfg s ∧ 0 ∈ s.outputs ∧ s.nRows = 2 ∧
    ∃ b s', s.relevanceProbability 0 [1] 0 [[(0, some (3 : ℝ))], [(1, some (3 : ℝ))]] (fun _ => 0) =
      .ok b s' ∧ StateSame s s' ∧ b = 1 := by
  obtain ⟨s, h1, h2, h3, h4, h5, h6, h7, h8, h9, h10, h11, h12⟩ := stateDemo_init
    (normal_remembered 0) normal_hyp (a := 0) (b := 1) (by decide) [] []
  have hL : libCat.Lawful := catOf_lawful fun _ => True
  have h0 : (0 : Col) ∈ s.outputs := by rw [h4]; simp
  obtain ⟨b, s', e1, e2, e3, v, w, k, e4, e5, e6, e7⟩ := C30_state hL h1 h0 (target := 0)
    (query := [1]) (by rw [h5]; norm_num) (by rw [h5]; simp)
    [[(0, some (3 : ℝ))], [(1, some (3 : ℝ))]] (fun _ => 0)
    (fun c d hd _ i hi => by rw [(h12 c d hd).2.1] at hi; cases hi)
    (fun q _ c d hd _ => by
      obtain ⟨g1, g2, -⟩ := h12 c d hd
      exact normal_admissible _ d _ g1 g2)
  refine ⟨s, h1, h0, h5, b, s', e1, e2, e7.mpr ⟨.inl (by simp), ?_, ?_⟩⟩
  · have : v = 0 := by rw [h6] at e4; exact (Option.some.inj e4).symm
    subst this
    rw [h11 0 w e5] at e6
    have hk : k = 0 := by simpa [stateDemoRows] using e6.symm
    subst hk
    intro r hr
    simp only [List.mem_singleton] at hr
    subst hr
    rw [h11 0 w e5]; rfl
  · have : v = 0 := by rw [h6] at e4; exact (Option.some.inj e4).symm
    subst this
    rw [h11 0 w e5] at e6
    have hk : k = 0 := by simpa [stateDemoRows] using e6.symm
    intro i _
    exact hk.symm

end Cgpm.Props
