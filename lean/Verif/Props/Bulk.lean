import Verif.Model.Bulk
import Verif.Spec.Bulk
import Verif.Props.ColGibbs
import Verif.Props.StateRefusal
import Mathlib.Data.List.Pairwise

/-! C91: bulk calls of a State. -/
namespace Cgpm.Props
open Cgpm Cgpm.View Cgpm.State

variable {C : Cat}

theorem bulk_index (hC : C.Lawful) {cfg : Cfg C} {s : State C} (h : StateReachable cfg s) {c : Col}
    {d : Dim C} (hd : s.dimFor c = .ok d) : d.index = c := by
  obtain ⟨i, v, -, h2, h3⟩ := dimFor_ok hd
  exact (((C18_consistent_partial hC h).view i v h2).column c d h3).index

theorem admissible_of {X Y : C.Tbl} {d d' : Dim C} {r : Row} (h : admissible X d r)
    (hk : d'.kind = d.kind) (hi : d'.inputs = d.inputs) (hx : Y d'.index r = X d.index r)
    (hin : ∀ i ∈ d.inputs, Y i r = X i r) : admissible Y d' r := by
  unfold admissible fileOf at *
  rw [hk, hi, hx, List.map_congr_left (g := fun i => X i r) hin]
  exact h

/-- One row of a bulk call. -/
theorem bulk_row (hC : C.Lawful) {cfg : Cfg C} {s : State C} (h : StateReachable cfg s)
    {o : Dict Col C.Cell × Dict Nat Tab} {os : List (Dict Col C.Cell × Dict Nat Tab)}
    (hf : RowsFit s (o :: os)) (z : Row → Nat → Tab) :
    ∃ s1, s.incorporate s.nRows o.1 o.2 (z s.nRows) = .ok s1 ∧ StateReachable cfg s1 ∧
      RowsFit s1 os ∧ RowsIn s s1 [o] z ∧
      rowsAdded s1 (os.map Prod.fst) = rowsAdded s ((o :: os).map Prod.fst) := by
  have hI := h.inv hC
  have h1 := hf.views o (by simp)
  have h2 := hf.columns o (by simp)
  have h3 := hf.values o (by simp)
  have hl : stateLegal cfg s (.inc s.nRows o.1 o.2 (z s.nRows)) := by
    intro _ c d hd
    refine admissible_of (hf.accepted 0 (by simp) c d hd) rfl rfl ?_ fun i _ => ?_ <;>
      simp [rowAdded, rowsAdded]
  obtain ⟨s', e1, e2, e3, e4, e5⟩ := (C18_effect hC h).1 o.1 o.2 (z s.nRows) hl h1 h2 h3
  obtain ⟨s1, g1, g2, g3, g4, g5, g6, g7, g8, g9, g10⟩ := hI.incorporate_ok hC (z s.nRows) h1 h2 h3
    (fun c d hd => (admissible_iff _ _ _).mp (hl rfl c d hd))
  rw [g1] at e1
  injection e1 with e1
  subst e1
  have hr : StateReachable cfg s1 := by
    have := StateReachable.step h hl
    simpa only [State.apply, g1, Out.state] using this
  have ht : rowsAdded s1 (os.map Prod.fst) = rowsAdded s ((o :: os).map Prod.fst) := by
    refine funext fun c => funext fun (r : ℕ) => ?_
    unfold rowsAdded
    rw [e5, g3, g4]
    by_cases hlt : r < s.nRows
    · rw [if_pos (Nat.lt_succ_of_lt hlt), if_pos hlt]
      simp [rowAdded, Nat.ne_of_lt hlt]
    · rw [if_neg hlt]
      by_cases he : r = s.nRows
      · subst he; simp [rowAdded]
      · rw [if_neg fun hn => he (Nat.le_antisymm (Nat.le_of_lt_succ hn) (not_lt.mp hlt))]
        obtain ⟨k, rfl⟩ : ∃ k, r = s.nRows + (k + 1) := ⟨r - s.nRows - 1, by omega⟩
        rw [show s.nRows + (k + 1) - (s.nRows + 1) = k by omega,
          show s.nRows + (k + 1) - s.nRows = k + 1 by omega]
        simp
  have hkeys : s1.views.keys = s.views.keys := g10.keys
  have hkeep : Keeps s s1 := by
    refine keeps_of (fun c i hz => by rw [← e4]; exact hz) fun i v' hv' => ?_
    obtain ⟨v, f1, f2⟩ := g10.get? hv'
    exact ⟨v, f1, fun c d' hd' => same_dims f2.2.2 hd'⟩
  refine ⟨s1, g1, hr, ⟨fun p hp => by rw [hkeys]; exact hf.views p (by simp [hp]),
    fun p hp => by rw [g4]; exact hf.columns p (by simp [hp]),
    fun p hp => hf.values p (by simp [hp]), fun k hk c d' hd' => ?_⟩,
    ⟨g3, g4, e4, ?_, hkeys, fun i v v' hv hv' r hr => ?_, fun i v' hv' k hk => ?_⟩, ht⟩
  · obtain ⟨d, q1, q2, q3⟩ := hkeep c d' hd'
    have := hf.accepted (k + 1) (by simpa using hk) c d q1
    rw [ht, g3, show s.nRows + 1 + k = s.nRows + (k + 1) by omega]
    exact admissible_of this q2 q3 (by rw [bulk_index hC hr hd', bulk_index hC h q1]) fun _ _ => rfl
  · rw [e5]
    refine funext fun c => funext fun (r : ℕ) => ?_
    unfold rowAdded rowsAdded
    by_cases he : r = s.nRows
    · subst he; simp
    · by_cases hlt : r < s.nRows
      · simp [he, hlt]
      · obtain ⟨k, rfl⟩ : ∃ k, r = s.nRows + (k + 1) := ⟨r - s.nRows - 1, by omega⟩
        simp [hI.tbl_ge c (show s.nRows ≤ s.nRows + (k + 1) by omega)]
  · obtain ⟨w, f1, f2, -⟩ := g10.get? hv'
    rw [hv] at f1
    cases f1
    rw [f2, upd_ne _ _ (Nat.ne_of_lt hr)]
  · obtain ⟨w, f1, f2, -⟩ := g10.get? hv'
    obtain rfl : k = 0 := by simpa using hk
    rw [f2]
    simp [upd]

/-- A bulk call after rows that fit goes on from the State with these rows. -/
theorem bulk_rows (hC : C.Lawful) {cfg : Cfg C} {s : State C} (h : StateReachable cfg s)
    {rows : List (Dict Col C.Cell × Dict Nat Tab)} (hf : RowsFit s rows) (z : Row → Nat → Tab)
    (rs : List Row) (os : List (Dict Col C.Cell × Dict Nat Tab)) :
    ∃ t, StateReachable cfg t ∧ RowsIn s t rows z ∧
      s.incorporateBulk z (List.range' s.nRows rows.length ++ rs) (rows ++ os) =
        t.incorporateBulk z rs os := by
  induction rows generalizing s with
  | nil =>
    refine ⟨s, h, ⟨rfl, rfl, rfl, ?_, rfl, fun i v v' hv hv' r _ => ?_, fun _ _ _ k hk => ?_⟩, by simp⟩
    · funext c r
      unfold rowsAdded
      by_cases hlt : r < s.nRows
      · simp [hlt]
      · simp [hlt, (h.inv hC).tbl_ge c (not_lt.mp hlt)]
    · rw [hv] at hv'; cases hv'; rfl
    · simp at hk
  | cons o rows ih =>
    obtain ⟨s1, h1, h2, h3, h4, h5⟩ := bulk_row hC h hf z
    obtain ⟨t, g1, g2, g3⟩ := ih h2 h3
    have hn : s1.nRows = s.nRows + 1 := h4.nRows
    refine ⟨t, g1, ⟨?_, g2.outputs.trans h4.outputs, g2.partition.trans h4.partition,
      g2.data.trans h5, g2.views.trans h4.views, fun i v v' hv hv' r hr => ?_,
      fun i v' hv' k hk => ?_⟩, ?_⟩
    · rw [g2.nRows, hn, List.length_cons]; omega
    · obtain ⟨w, hw⟩ := Dict.exists_of_mem_keys (d := s1.views) (k := i) (by
        rw [h4.views]; exact Dict.mem_keys_of_get? hv)
      rw [g2.old i w v' hw hv' r (by omega), h4.old i v w hv hw r hr]
    · obtain ⟨w, hw⟩ := Dict.exists_of_mem_keys (d := s1.views) (k := i) (by
        rw [← g2.views]; exact Dict.mem_keys_of_get? hv')
      cases k with
      | zero =>
        rw [g2.old i w v' hw hv' _ (by omega)]
        simpa using h4.seats i w hw 0 (by simp)
      | succ k =>
        have := g2.seats i v' hv' k (by simpa using hk)
        rw [hn, show s.nRows + 1 + k = s.nRows + (k + 1) by omega] at this
        simpa using this
    · rw [List.length_cons, List.range'_succ]
      simp only [List.cons_append, incorporateBulk, h1]
      rw [← hn]
      exact g3

/-- **C91.** Rows with the next numbers, in order, whose values fit the columns are all taken in: the
data are extended by just these rows, each in the clusters that it names or that were sampled for
it, and the result is a State that single calls reach. -/
theorem C91_incorporate (hC : C.Lawful) {cfg : Cfg C} {s : State C} (h : StateReachable cfg s)
    {rows : List (Dict Col C.Cell × Dict Nat Tab)} (hf : RowsFit s rows) (z : Row → Nat → Tab) :
    ∃ t, s.incorporateBulk z (List.range' s.nRows rows.length) rows = .ok t ∧
      StateReachable cfg t ∧ RowsIn s t rows z := by
  obtain ⟨t, h1, h2, h3⟩ := bulk_rows hC h hf z [] []
  refine ⟨t, ?_, h1, h2⟩
  simpa [incorporateBulk] using h3

/-- **C91.** A row with the wrong number, an unknown column or view, or a missing value ends the
call with ValueError.  The rows before it stay in, it and the rows after it are not taken in. -/
theorem C91_incorporate_stops (hC : C.Lawful) {cfg : Cfg C} {s : State C}
    (h : StateReachable cfg s) {rows : List (Dict Col C.Cell × Dict Nat Tab)} (hf : RowsFit s rows)
    (z : Row → Nat → Tab) (r : Row) (o : Dict Col C.Cell × Dict Nat Tab)
    (hbad : r ≠ s.nRows + rows.length ∨ (∃ v ∈ o.2.keys, v ∉ s.views.keys) ∨
      (∃ c ∈ o.1.keys, c ∉ s.outputs) ∨ ∃ q ∈ o.1, q.2 = none)
    (rs : List Row) (os : List (Dict Col C.Cell × Dict Nat Tab)) :
    ∃ t, s.incorporateBulk z (List.range' s.nRows rows.length ++ r :: rs) (rows ++ o :: os) =
        .err .valueError t ∧ StateReachable cfg t ∧ RowsIn s t rows z := by
  obtain ⟨t, h1, h2, h3⟩ := bulk_rows hC h hf z (r :: rs) (o :: os)
  refine ⟨t, ?_, h1, h2⟩
  rw [h3]
  simp only [incorporateBulk]
  rw [incorporate_err]
  rintro ⟨q1, q2, q3, q4⟩
  rw [h2.nRows] at q1
  rw [h2.views] at q2
  rw [h2.outputs] at q3
  rcases hbad with hb | ⟨v, hv, hb⟩ | ⟨c, hc, hb⟩ | ⟨q, hq, hb⟩
  · exact hb q1
  · exact hb (q2 v hv)
  · exact hb (q3 c hc)
  · exact q4 q hq hb

/-- **C91 (violated).** Lists of different length are not refused: the surplus observations, or the
surplus row numbers, are ignored without an error, whatever they are. -/
theorem C91_surplus_violated (hC : C.Lawful) {cfg : Cfg C} {s : State C} (h : StateReachable cfg s)
    {rows : List (Dict Col C.Cell × Dict Nat Tab)} (hf : RowsFit s rows) (z : Row → Nat → Tab)
    (rs : List Row) (os : List (Dict Col C.Cell × Dict Nat Tab)) (hrs : rs = [] ∨ os = []) :
    ∃ t, s.incorporateBulk z (List.range' s.nRows rows.length ++ rs) (rows ++ os) = .ok t ∧
      RowsIn s t rows z := by
  obtain ⟨t, -, h2, h3⟩ := bulk_rows hC h hf z rs os
  refine ⟨t, ?_, h2⟩
  rw [h3]
  rcases hrs with rfl | rfl
  · cases os <;> rfl
  · cases rs <;> rfl

/-- One cell list of a bulk call. -/
theorem bulk_cell (hC : C.Lawful) {cfg : Cfg C} {s : State C} (h : StateReachable cfg s)
    {p : Row × Dict Col C.Cell} {ps : List (Row × Dict Col C.Cell)} (hf : CellsFit s (p :: ps)) :
    ∃ s1, s.forceCell p.1 p.2 = .ok s1 ∧ StateReachable cfg s1 ∧ CellsFit s1 ps ∧
      s1.nRows = s.nRows ∧ s1.outputs = s.outputs ∧ s1.Zv = s.Zv ∧ s1.tbl = cellsForced s p.1 p.2 := by
  have hI := h.inv hC
  have hp := hf.rows p (by simp)
  have hl : stateLegal cfg s (.force p.1 p.2) :=
    ⟨hf.nodup p (by simp), fun _ => ⟨fun c hc d hd => hf.accepted p (by simp) c hc d hd,
      fun c d hd i hi => hf.inputs c d hd i hi p (by simp)⟩⟩
  obtain ⟨s', e1, e2, e3, e4, e5⟩ := (C18_effect hC h).2.2.1 p.1 p.2 hl hp
    (hf.missing p (by simp))
  obtain ⟨s1, g1, g2, g3, g4, g5, g6, g7, g8, g9, g10⟩ := hI.forceCell_ok hC hl.1 hp
    (allMissing_of hI hp (hf.missing p (by simp)))
    (fun c hc d hd => (admissible_iff _ _ _).mp (by
      rw [← cellsForced_eq]; exact (hl.2 hp).1 c hc d hd)) (hl.2 hp).2
  rw [g1] at e1
  injection e1 with e1
  subst e1
  have hr : StateReachable cfg s1 := by
    have := StateReachable.step h hl
    simpa only [State.apply, g1, Out.state] using this
  have hkeep : Keeps s s1 := by
    refine keeps_of (fun c i hz => by rw [← e4]; exact hz) fun i v' hv' => ?_
    obtain ⟨v, f1, -, f2⟩ := g10 i v' hv'
    exact ⟨v, f1, fun c d' hd' => same_dims f2 hd'⟩
  have honce := List.pairwise_cons.mp hf.once
  have hget : ∀ c ∉ p.2.keys, ∀ r, s1.tbl c r = s.tbl c r := by
    intro c hc r
    rw [e5]
    unfold cellsForced
    rw [(Dict.get?_eq_none_iff _ _).mpr hc]
    simp
  refine ⟨s1, g1, hr, ⟨fun q hq => by rw [g3]; exact hf.rows q (by simp [hq]),
    fun q hq => hf.nodup q (by simp [hq]), fun q hq c hc => ?_, honce.2, fun c d' hd' i hi q hq => ?_,
    fun q hq c hc d' hd' => ?_⟩, g3, g4, e4, e5⟩
  · obtain ⟨m1, m2⟩ := hf.missing q (by simp [hq]) c hc
    rw [g4]
    refine ⟨m1, ?_⟩
    rw [e5]
    unfold cellsForced
    split
    · rename_i e
      have : c ∉ p.2.keys := fun hcp => honce.1 q hq e.symm c hcp hc
      rw [(Dict.get?_eq_none_iff _ _).mpr this]
      exact m2
    · exact m2
  · obtain ⟨d, q1, -, q3⟩ := hkeep c d' hd'
    rw [q3] at hi
    exact hf.inputs c d q1 i hi q (by simp [hq])
  · obtain ⟨d, q1, q2, q3⟩ := hkeep c d' hd'
    refine admissible_of (hf.accepted q (by simp [hq]) c hc d q1) q2 q3 ?_ fun i hi => ?_
    · rw [bulk_index hC hr hd', bulk_index hC h q1]
      obtain ⟨x, hx⟩ := Dict.exists_of_mem_keys hc
      simp [cellsForced, hx]
    · have hin : i ∉ q.2.keys := hf.inputs c d q1 i hi q (by simp [hq])
      simp only [cellsForced, (Dict.get?_eq_none_iff _ _).mpr hin, Option.getD_none]
      rw [hget i (hf.inputs c d q1 i hi p (by simp))]

theorem bulk_cells (hC : C.Lawful) {cfg : Cfg C} {s : State C} (h : StateReachable cfg s)
    {cells : List (Row × Dict Col C.Cell)} (hf : CellsFit s cells) (rs : List Row)
    (qs : List (Dict Col C.Cell)) :
    ∃ t, StateReachable cfg t ∧ CellsIn s t cells ∧
      s.forceCellBulk (cells.map Prod.fst ++ rs) (cells.map Prod.snd ++ qs) =
        t.forceCellBulk rs qs := by
  induction cells generalizing s with
  | nil => exact ⟨s, h, ⟨rfl, rfl, rfl, by simp, fun _ _ _ => rfl⟩, by simp⟩
  | cons p ps ih =>
    obtain ⟨s1, h1, h2, h3, h4, h5, h6, h7⟩ := bulk_cell hC h hf
    obtain ⟨t, g1, g2, g3⟩ := ih h2 h3
    have honce := List.pairwise_cons.mp hf.once
    refine ⟨t, g1, ⟨g2.nRows.trans h4, g2.outputs.trans h5, g2.partition.trans h6,
      fun q hq c x hx => ?_, fun c r hcr => ?_⟩, ?_⟩
    · rcases List.mem_cons.mp hq with rfl | hq
      · rw [g2.others c q.1 fun p' hp' e => honce.1 p' hp' e.symm c (Dict.mem_keys_of_get? hx), h7]
        simp [cellsForced, hx]
      · exact g2.filled q hq c x hx
    · rw [g2.others c r fun p' hp' e => hcr p' (by simp [hp']) e, h7]
      unfold cellsForced
      split
      · rename_i e
        rw [(Dict.get?_eq_none_iff _ _).mpr (hcr p (by simp) e.symm)]
        rfl
      · rfl
    · simp only [List.map_cons, List.cons_append, forceCellBulk, h1]
      exact g3

/-- **C91.** Missing cells that are each named once, with acceptable values, are all filled in, and
no other cell changes. -/
theorem C91_force (hC : C.Lawful) {cfg : Cfg C} {s : State C} (h : StateReachable cfg s)
    {cells : List (Row × Dict Col C.Cell)} (hf : CellsFit s cells) :
    ∃ t, s.forceCellBulk (cells.map Prod.fst) (cells.map Prod.snd) = .ok t ∧
      StateReachable cfg t ∧ CellsIn s t cells := by
  obtain ⟨t, h1, h2, h3⟩ := bulk_cells hC h hf [] []
  exact ⟨t, by simpa [forceCellBulk] using h3, h1, h2⟩

/-- **C91.** The order in which such cells are named has no effect on the data. -/
theorem C91_force_order (hC : C.Lawful) {cfg : Cfg C} {s : State C} (h : StateReachable cfg s)
    {cells cells' : List (Row × Dict Col C.Cell)} (hf : CellsFit s cells)
    (hp : cells.Perm cells') :
    ∃ t t', s.forceCellBulk (cells.map Prod.fst) (cells.map Prod.snd) = .ok t ∧
      s.forceCellBulk (cells'.map Prod.fst) (cells'.map Prod.snd) = .ok t' ∧ t.tbl = t'.tbl := by
  have hf' : CellsFit s cells' :=
    ⟨fun p q => hf.rows p (hp.mem_iff.mpr q), fun p q => hf.nodup p (hp.mem_iff.mpr q),
      fun p q => hf.missing p (hp.mem_iff.mpr q),
      (hp.pairwise_iff fun {a b} hab e c hc hc' => hab e.symm c hc' hc).mp hf.once,
      fun c d hd i hi p q => hf.inputs c d hd i hi p (hp.mem_iff.mpr q),
      fun p q => hf.accepted p (hp.mem_iff.mpr q)⟩
  obtain ⟨t, h1, -, h2⟩ := C91_force hC h hf
  obtain ⟨t', g1, -, g2⟩ := C91_force hC h hf'
  refine ⟨t, t', h1, g1, ?_⟩
  funext c r
  by_cases hc : ∃ p ∈ cells, p.1 = r ∧ c ∈ p.2.keys
  · obtain ⟨p, hm, rfl, hk⟩ := hc
    obtain ⟨x, hx⟩ := Dict.exists_of_mem_keys hk
    rw [h2.filled p hm c x hx, g2.filled p (hp.mem_iff.mp hm) c x hx]
  · rw [h2.others c r fun p hm e hk => hc ⟨p, hm, e, hk⟩,
      g2.others c r fun p hm e hk => hc ⟨p, hp.mem_iff.mpr hm, e, hk⟩]

/-- **C91.** A row that does not exist, or a cell that has a value, also one given earlier in the same
call, ends the call with an exception.  The cells before it stay filled in, all others keep their
values. -/
theorem C91_force_stops (hC : C.Lawful) {cfg : Cfg C} {s : State C} (h : StateReachable cfg s)
    {cells : List (Row × Dict Col C.Cell)} (hf : CellsFit s cells) (r : Row) (q : Dict Col C.Cell)
    (hbad : s.nRows ≤ r ∨ (∃ c ∈ q.keys, c ∉ s.outputs ∨ s.tbl c r ≠ none) ∨
      ∃ p ∈ cells, p.1 = r ∧ ∃ c ∈ q.keys, ∃ x, p.2.get? c = some (some x))
    (rs : List Row) (qs : List (Dict Col C.Cell)) :
    ∃ e t, s.forceCellBulk (cells.map Prod.fst ++ r :: rs) (cells.map Prod.snd ++ q :: qs) =
        .err e t ∧ StateReachable cfg t ∧ CellsIn s t cells := by
  obtain ⟨t, h1, h2, h3⟩ := bulk_cells hC h hf (r :: rs) (q :: qs)
  have hno : ¬ (r < t.nRows ∧ allMissing t.X r q.keys = .ok true) := by
    rintro ⟨q1, q2⟩
    rw [h2.nRows] at q1
    have q3 := allMissing_ok q2 rfl
    rcases hbad with hb | ⟨c, hc, hb⟩ | ⟨p, hp, rfl, c, hc, x, hx⟩
    · exact absurd q1 (not_lt.mpr hb)
    · obtain ⟨m1, m2⟩ := q3 c hc
      rw [(h1.inv hC).data.keys, h2.outputs] at m1
      rcases hb with hb | hb
      · exact hb m1
      · have m3 : t.tbl c r = none := m2
        rw [h2.others c r fun p hp e hk => hb (e ▸ (hf.missing p hp c hk).2)] at m3
        exact hb m3
    · have m3 : t.tbl c p.1 = none := (q3 c hc).2
      rw [h2.filled p hp c _ hx] at m3
      cases m3
  obtain ⟨e, he⟩ := forceCell_err hno
  refine ⟨e, t, ?_, h1, h2⟩
  rw [h3]
  simp only [forceCellBulk, he]

/-- **C91 (violated).** Nor are lists of different length refused here. -/
theorem C91_force_surplus_violated (hC : C.Lawful) {cfg : Cfg C} {s : State C}
    (h : StateReachable cfg s) {cells : List (Row × Dict Col C.Cell)} (hf : CellsFit s cells)
    (rs : List Row) (qs : List (Dict Col C.Cell)) (hrs : rs = [] ∨ qs = []) :
    ∃ t, s.forceCellBulk (cells.map Prod.fst ++ rs) (cells.map Prod.snd ++ qs) = .ok t ∧
      CellsIn s t cells := by
  obtain ⟨t, -, h2, h3⟩ := bulk_cells hC h hf rs qs
  refine ⟨t, ?_, h2⟩
  rw [h3]
  rcases hrs with rfl | rfl
  · cases qs <;> rfl
  · cases rs <;> rfl

/-- Two rows, then a row with a wrong number; and a cell that is filled in twice. -/
example : ∃ s : State libCat, StateReachable plainCfg s ∧ s.nRows = 2 ∧
    RowsFit s [([(0, some (5 : ℝ))], [(0, 7)]), ([(1, some (3 : ℝ))], [])] ∧
    CellsFit s [(0, [(1, some (3 : ℝ))])] ∧
    (∃ t, s.incorporateBulk (fun _ _ => 4) [2, 3] [([(0, some (5 : ℝ))], [(0, 7)]),
        ([(1, some (3 : ℝ))], [])] = .ok t ∧ t.nRows = 4 ∧ t.tbl 0 2 = some (5 : ℝ) ∧
        t.tbl 1 2 = none ∧ t.tbl 1 3 = some (3 : ℝ) ∧ t.tbl 0 0 = some (1 : ℝ)) ∧
    (∃ t, s.incorporateBulk (fun _ _ => 4) [2, 3, 9, 4] [([(0, some (5 : ℝ))], [(0, 7)]),
        ([(1, some (3 : ℝ))], []), ([], []), ([], [])] = .err .valueError t ∧ t.nRows = 4) ∧
    (∃ t, s.incorporateBulk (fun _ _ => 4) [2, 3] [([(0, some (5 : ℝ))], [(0, 7)]),
        ([(1, some (3 : ℝ))], []), ([(0, some (8 : ℝ))], [])] = .ok t ∧ t.nRows = 4) ∧
    (∃ e t, s.forceCellBulk [0, 0] [[(1, some (3 : ℝ))], [(1, some (4 : ℝ))]] = .err e t ∧
      t.tbl 1 0 = some (3 : ℝ)) := by
  obtain ⟨s, h1, h2, h3, h4, h5, -, -, h8, h9, h10, -, h12⟩ := stateDemo_init (x := 1)
    (normal_remembered 1) normal_hyp (a := 0) (b := 1) (by norm_num) [] []
  have hadm : ∀ X c d r, s.dimFor c = .ok d → admissible X d r := fun X c d r hd =>
    normal_admissible X d r (h12 c d hd).1 (h12 c d hd).2.1
  have hf : RowsFit s [([(0, some (5 : ℝ))], [(0, 7)]), ([(1, some (3 : ℝ))], [])] := by
    refine ⟨?_, ?_, ?_, fun k _ c d hd => hadm _ c d _ hd⟩
    · rw [h8]; simp [Dict.keys]
    · rw [h4]; simp [Dict.keys]
    · simp
  have hc : CellsFit s [(0, [(1, some (3 : ℝ))])] := by
    refine ⟨by rw [h5]; simp, by simp [Dict.keys], ?_, by simp, fun c d hd i hi => ?_,
      fun p _ c _ d hd => hadm _ c d _ hd⟩
    · intro p hp c hc
      obtain rfl := List.mem_singleton.mp hp
      have hc' : c = 1 := by simpa [Dict.keys] using hc
      subst hc'
      refine ⟨by rw [h4]; simp, ?_⟩
      unfold State.tbl
      rw [h3]
      rfl
    · rw [(h12 c d hd).2.1] at hi; cases hi
  have hL : Cat.Lawful libCat := catOf_lawful fun _ => True
  refine ⟨s, h1, h5, hf, hc, ?_, ?_, ?_, ?_⟩
  · obtain ⟨t, g1, -, g2⟩ := C91_incorporate hL h1 hf fun _ _ => 4
    rw [h5] at g1
    refine ⟨t, g1, by rw [g2.nRows, h5]; rfl, ?_, ?_, ?_, ?_⟩ <;>
      · rw [g2.data]
        unfold rowsAdded State.tbl
        rw [h5, h4, h3]
        rfl
  · obtain ⟨t, g1, -, g2⟩ := C91_incorporate_stops hL h1 hf (fun _ _ => 4) 9 ([], [])
      (by rw [h5]; simp) [4] [([], [])]
    rw [h5] at g1
    exact ⟨t, g1, by rw [g2.nRows, h5]; rfl⟩
  · obtain ⟨t, g1, g2⟩ := C91_surplus_violated hL h1 hf (fun _ _ => 4) []
      [([(0, some (8 : ℝ))], [])] (Or.inl rfl)
    rw [h5] at g1
    exact ⟨t, g1, by rw [g2.nRows, h5]; rfl⟩
  · obtain ⟨e, t, g1, -, g2⟩ := C91_force_stops hL h1 hc 0 [(1, some (4 : ℝ))]
      (Or.inr (Or.inr ⟨_, List.mem_singleton.mpr rfl, rfl, 1, by simp [Dict.keys], (3 : ℝ),
        rfl⟩)) [] []
    exact ⟨e, t, g1, g2.filled _ (List.mem_singleton.mpr rfl) 1 _ rfl⟩

/-! ### Queries -/

theorem collect_zipIdx {α β : Type} (f : α × Nat → Except Exn β) (l : List α) (n : Nat) :
    (∀ r, Net.collect f (l.zipIdx n) = .ok r ↔ r.length = l.length ∧
      ∀ i (h : i < l.length) (h' : i < r.length), f (l[i], n + i) = .ok r[i]) ∧
    ∀ e, Net.collect f (l.zipIdx n) = .error e ↔ ∃ k, ∃ h : k < l.length,
      f (l[k], n + k) = .error e ∧ ∀ i (h : i < l.length), i < k → ∃ b, f (l[i], n + i) = .ok b := by
  induction l generalizing n with
  | nil =>
    refine ⟨fun r => ?_, fun e => ?_⟩
    · simp [Net.collect, eq_comm]
    · simp [Net.collect]
  | cons a l ih =>
    obtain ⟨ih1, ih2⟩ := ih (n + 1)
    rw [List.zipIdx_cons]
    simp only [Net.collect]
    cases ha : f (a, n) with
    | error e0 =>
      refine ⟨fun r => ⟨fun h => by simp at h, fun ⟨h1, h2⟩ => ?_⟩, fun e => ⟨fun h => ?_, ?_⟩⟩
      · have := h2 0 (by simp) (by rw [h1]; simp)
        simp [ha] at this
      · refine ⟨0, by simp, ?_, fun i _ hi => by omega⟩
        simpa [ha] using h
      · rintro ⟨k, hk, h1, h2⟩
        cases k with
        | zero => simpa [ha] using h1
        | succ k =>
          obtain ⟨b, hb⟩ := h2 0 (by simp) (by omega)
          simp [ha] at hb
    | ok b =>
      refine ⟨fun r => ⟨fun h => ?_, fun ⟨h1, h2⟩ => ?_⟩, fun e => ⟨fun h => ?_, ?_⟩⟩
      · cases hc : Net.collect f (l.zipIdx (n + 1)) with
        | error e => simp [hc, Except.map] at h
        | ok r' =>
          obtain ⟨i1, i2⟩ := (ih1 r').mp hc
          simp only [hc, Except.map, Except.ok.injEq] at h
          subst h
          refine ⟨by simp [i1], fun i hi hi' => ?_⟩
          cases i with
          | zero => simpa using ha
          | succ i =>
            have := i2 i (by simpa using hi) (by simpa using hi')
            rw [show n + 1 + i = n + (i + 1) by omega] at this
            simpa using this
      · cases r with
        | nil => simp at h1
        | cons b' r =>
          have h0 := h2 0 (by simp) (by simp)
          simp only [List.getElem_cons_zero, Nat.add_zero, ha, Except.ok.injEq] at h0
          subst h0
          rw [(ih1 r).mpr ⟨by simpa using h1, fun i hi hi' => ?_⟩]
          · rfl
          · have := h2 (i + 1) (by simpa using hi) (by simpa using hi')
            rw [show n + 1 + i = n + (i + 1) by omega]
            simpa using this
      · cases hc : Net.collect f (l.zipIdx (n + 1)) with
        | ok r' => simp [hc, Except.map] at h
        | error e' =>
          simp only [hc, Except.map, Except.error.injEq] at h
          subst h
          obtain ⟨k, hk, h1, h2⟩ := (ih2 e').mp hc
          refine ⟨k + 1, by simpa using hk, ?_, fun i hi hik => ?_⟩
          · rw [show n + 1 + k = n + (k + 1) by omega] at h1
            simpa using h1
          · cases i with
            | zero => exact ⟨b, by simpa using ha⟩
            | succ i =>
              obtain ⟨b', hb'⟩ := h2 i (by simpa using hi) (by omega)
              rw [show n + 1 + i = n + (i + 1) by omega] at hb'
              exact ⟨b', by simpa using hb'⟩
      · rintro ⟨k, hk, h1, h2⟩
        cases k with
        | zero => simp [ha] at h1
        | succ k =>
          rw [(ih2 e).mpr ⟨k, by simpa using hk, ?_, fun i hi hik => ?_⟩]
          · rfl
          · rw [show n + 1 + k = n + (k + 1) by omega]
            simpa using h1
          · obtain ⟨b', hb'⟩ := h2 (i + 1) (by simpa using hi) (by omega)
            refine ⟨b', ?_⟩
            rw [show n + 1 + i = n + (i + 1) by omega]
            simpa using hb'

theorem collect_queries {α β : Type} {f : α × Nat → Except Exn β} {l : List α} {n : Nat}
    (query : Nat → Except Exn β) (hl : l.length = n)
    (hq : ∀ i (h : i < l.length), f (l[i], i) = query i) :
    (∀ r, Net.collect f l.zipIdx = .ok r ↔ r.length = n ∧
      ∀ i (h : i < r.length), query i = .ok r[i]) ∧
    ∀ e, Net.collect f l.zipIdx = .error e ↔ ∃ k < n, query k = .error e ∧
      ∀ i < k, ∃ b, query i = .ok b := by
  obtain ⟨z1, z2⟩ := collect_zipIdx f l 0
  subst hl
  simp only [Nat.zero_add] at z1 z2
  refine ⟨fun r => ?_, fun er => ?_⟩
  · rw [z1 r]
    refine and_congr_right fun a => ⟨fun b i h => ?_, fun b i h h' => ?_⟩
    · rw [← hq i (by omega)]; exact b i (by omega) h
    · rw [hq i h]; exact b i h'
  · rw [z2 er]
    constructor
    · rintro ⟨k, h, a, b⟩
      rw [hq k h] at a
      refine ⟨k, h, a, fun i hik => ?_⟩
      obtain ⟨x, hx⟩ := b i (by omega) hik
      rw [hq i (by omega)] at hx
      exact ⟨x, hx⟩
    · rintro ⟨k, h, a, b⟩
      refine ⟨k, h, by rw [hq k h]; exact a, fun i hi' hik => ?_⟩
      obtain ⟨x, hx⟩ := b i hik
      exact ⟨x, by rw [hq i hi']; exact hx⟩

variable {Ω V α : Type}

/-- **C91.** A bulk simulation with lists of equal length returns the list of the answers to the
single queries, in order: `l` is returned just if it has one entry per query and entry `i` is the
answer to query `i`.  An argument that is left out stands for no constraints, no inputs and one
sample. -/
theorem C91_simulate (sim : Ω → Row → List Col → Dict Col V → Dict Col V → Nat → Except Exn α)
    (ω : Nat → Ω) (rowids : List Row) (targets : List (List Col))
    (cs is : Option (List (Dict Col V))) (Ns : Option (List Nat))
    (ht : targets.length = rowids.length) (hc : ∀ l, cs = some l → l.length = rowids.length)
    (hi : ∀ l, is = some l → l.length = rowids.length)
    (hn : ∀ l, Ns = some l → l.length = rowids.length) :
    let query := fun i => sim (ω i) (rowids.getD i 0) (targets.getD i [])
      ((cs.getD []).getD i []) ((is.getD []).getD i []) ((Ns.getD []).getD i 1)
    (∀ l, simulateBulk sim ω rowids targets cs is Ns = .ok l ↔ l.length = rowids.length ∧
      ∀ i (h : i < l.length), query i = .ok l[i]) ∧
    ∀ e, simulateBulk sim ω rowids targets cs is Ns = .error e ↔ ∃ k < rowids.length,
      query k = .error e ∧ ∀ i < k, ∃ b, query i = .ok b := by
  intro query
  set C := cs.getD (rowids.map fun _ => []) with hCd
  set I := is.getD (rowids.map fun _ => []) with hId
  set N := Ns.getD (rowids.map fun _ => 1) with hNd
  have lc : C.length = rowids.length := by
    rw [hCd]; cases cs with
    | none => simp
    | some l => exact hc l rfl
  have li : I.length = rowids.length := by
    rw [hId]; cases is with
    | none => simp
    | some l => exact hi l rfl
  have ln : N.length = rowids.length := by
    rw [hNd]; cases Ns with
    | none => simp
    | some l => exact hn l rfl
  have e : simulateBulk sim ω rowids targets cs is Ns =
      Net.collect (fun p : (Row × List Col × Dict Col V × Dict Col V × Nat) × Nat =>
        sim (ω p.2) p.1.1 p.1.2.1 p.1.2.2.1 p.1.2.2.2.1 p.1.2.2.2.2)
      (rowids.zip (targets.zip (C.zip (I.zip N)))).zipIdx := by
    unfold simulateBulk
    simp only [← hCd, ← hId, ← hNd, ht, lc, li, ln, ne_eq, not_true_eq_false, if_false]
  have lz : (rowids.zip (targets.zip (C.zip (I.zip N)))).length = rowids.length := by
    simp [ht, lc, li, ln]
  have hq : ∀ i (h : i < (rowids.zip (targets.zip (C.zip (I.zip N)))).length),
      (fun p : (Row × List Col × Dict Col V × Dict Col V × Nat) × Nat =>
        sim (ω p.2) p.1.1 p.1.2.1 p.1.2.2.1 p.1.2.2.2.1 p.1.2.2.2.2)
        ((rowids.zip (targets.zip (C.zip (I.zip N))))[i], i) = query i := by
    intro i h
    have hlt : i < rowids.length := lz ▸ h
    have c1 : C[i]'(by omega) = (cs.getD []).getD i [] := by
      cases cs with
      | none => simp [hCd]
      | some l => simp [hCd, List.getElem?_eq_getElem (show i < l.length by rw [hc l rfl]; exact hlt)]
    have c2 : I[i]'(by omega) = (is.getD []).getD i [] := by
      cases is with
      | none => simp [hId]
      | some l => simp [hId, List.getElem?_eq_getElem (show i < l.length by rw [hi l rfl]; exact hlt)]
    have c3 : N[i]'(by omega) = (Ns.getD []).getD i 1 := by
      cases Ns with
      | none => simp [hNd]
      | some l => simp [hNd, List.getElem?_eq_getElem (show i < l.length by rw [hn l rfl]; exact hlt)]
    simp only [List.getElem_zip, query, ← c1, ← c2, ← c3]
    simp [List.getElem?_eq_getElem hlt, List.getElem?_eq_getElem (show i < targets.length by omega)]
  rw [e]
  exact collect_queries query lz hq

/-- **C91.** The same for a bulk density query. -/
theorem C91_logpdf (lp : Ω → Row → Dict Col V → Dict Col V → Dict Col V → Except Exn α)
    (ω : Nat → Ω) (rowids : List Row) (targets : List (Dict Col V))
    (cs is : Option (List (Dict Col V))) (ht : targets.length = rowids.length)
    (hc : ∀ l, cs = some l → l.length = rowids.length)
    (hi : ∀ l, is = some l → l.length = rowids.length) :
    let query := fun i => lp (ω i) (rowids.getD i 0) (targets.getD i [])
      ((cs.getD []).getD i []) ((is.getD []).getD i [])
    (∀ l, logpdfQueries lp ω rowids targets cs is = .ok l ↔ l.length = rowids.length ∧
      ∀ i (h : i < l.length), query i = .ok l[i]) ∧
    ∀ e, logpdfQueries lp ω rowids targets cs is = .error e ↔ ∃ k < rowids.length,
      query k = .error e ∧ ∀ i < k, ∃ b, query i = .ok b := by
  intro query
  set C := cs.getD (rowids.map fun _ => []) with hCd
  set I := is.getD (rowids.map fun _ => []) with hId
  have lc : C.length = rowids.length := by
    rw [hCd]; cases cs with
    | none => simp
    | some l => exact hc l rfl
  have li : I.length = rowids.length := by
    rw [hId]; cases is with
    | none => simp
    | some l => exact hi l rfl
  have e : logpdfQueries lp ω rowids targets cs is =
      Net.collect (fun p : (Row × Dict Col V × Dict Col V × Dict Col V) × Nat =>
        lp (ω p.2) p.1.1 p.1.2.1 p.1.2.2.1 p.1.2.2.2)
      (rowids.zip (targets.zip (C.zip I))).zipIdx := by
    unfold logpdfQueries
    simp only [← hCd, ← hId, ht, lc, li, ne_eq, not_true_eq_false, if_false]
  have lz : (rowids.zip (targets.zip (C.zip I))).length = rowids.length := by
    simp [ht, lc, li]
  have hq : ∀ i (h : i < (rowids.zip (targets.zip (C.zip I))).length),
      (fun p : (Row × Dict Col V × Dict Col V × Dict Col V) × Nat =>
        lp (ω p.2) p.1.1 p.1.2.1 p.1.2.2.1 p.1.2.2.2)
        ((rowids.zip (targets.zip (C.zip I)))[i], i) = query i := by
    intro i h
    have hlt : i < rowids.length := lz ▸ h
    have c1 : C[i]'(by omega) = (cs.getD []).getD i [] := by
      cases cs with
      | none => simp [hCd]
      | some l => simp [hCd, List.getElem?_eq_getElem (show i < l.length by rw [hc l rfl]; exact hlt)]
    have c2 : I[i]'(by omega) = (is.getD []).getD i [] := by
      cases is with
      | none => simp [hId]
      | some l => simp [hId, List.getElem?_eq_getElem (show i < l.length by rw [hi l rfl]; exact hlt)]
    simp only [List.getElem_zip, query, ← c1, ← c2]
    simp [List.getElem?_eq_getElem hlt, List.getElem?_eq_getElem (show i < targets.length by omega)]
  rw [e]
  exact collect_queries query lz hq

/-- **C91.** A bulk query whose lists differ in length raises AssertionError. -/
theorem C91_queries_refused (rowids : List Row) (cs is : Option (List (Dict Col V))) :
    (∀ (sim : Ω → Row → List Col → Dict Col V → Dict Col V → Nat → Except Exn α) (ω : Nat → Ω)
        (targets : List (List Col)) (Ns : Option (List Nat)),
      targets.length ≠ rowids.length ∨ (∃ l, cs = some l ∧ l.length ≠ rowids.length) ∨
        (∃ l, is = some l ∧ l.length ≠ rowids.length) ∨
        (∃ l, Ns = some l ∧ l.length ≠ rowids.length) →
      simulateBulk sim ω rowids targets cs is Ns = .error .assertion) ∧
    ∀ (lp : Ω → Row → Dict Col V → Dict Col V → Dict Col V → Except Exn α) (ω : Nat → Ω)
        (targets : List (Dict Col V)),
      targets.length ≠ rowids.length ∨ (∃ l, cs = some l ∧ l.length ≠ rowids.length) ∨
        (∃ l, is = some l ∧ l.length ≠ rowids.length) →
      logpdfQueries lp ω rowids targets cs is = .error .assertion := by
  refine ⟨fun sim ω targets Ns h => ?_, fun lp ω targets h => ?_⟩
  · unfold simulateBulk
    rcases h with h | ⟨l, rfl, h⟩ | ⟨l, rfl, h⟩ | ⟨l, rfl, h⟩
    · rw [if_pos (Ne.symm h)]
    all_goals
      simp only [Option.getD_some, if_pos (Ne.symm h), ite_self]
  · unfold logpdfQueries
    rcases h with h | ⟨l, rfl, h⟩ | ⟨l, rfl, h⟩
    · rw [if_pos (Ne.symm h)]
    all_goals
      simp only [Option.getD_some, if_pos (Ne.symm h), ite_self]

/-- Two queries, the second with constraints, the sample size left out. -/
example : simulateBulk (V := Nat) (fun ω r t c _ n => if n = 1 then .ok (ω, r, t, c) else
      .error .valueError) (fun i => i) [4, 6] [[0], [1]] (some [[], [(0, 8)]]) none none =
    .ok [(0, 4, [0], []), (1, 6, [1], [(0, 8)])] :=
  ((C91_simulate _ _ _ _ _ _ _ rfl (by simp) (by simp) (by simp)).1 _).mpr ⟨rfl, fun i hi => by
    have : i = 0 ∨ i = 1 := by simp at hi; omega
    rcases this with rfl | rfl <;> simp⟩

end Cgpm.Props
