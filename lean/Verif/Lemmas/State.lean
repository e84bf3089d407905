import Verif.Model.State
import Verif.Lemmas.ViewScore

/-! The invariant of a State, and how its parts change. -/
namespace Cgpm
namespace View
variable {C : Cat}

/-- Changing the data set outside the cells of a view. -/
theorem Inv.congrX {X X' : C.Tbl} {v : View C} (h : Inv X v)
    (hX : ∀ p ∈ v.dims, ∀ r, v.seat r ≠ none → obsOf X' p.2 r = obsOf X p.2 r) : Inv X' v where
  crp := h.crp
  alpha := h.alpha
  wf := h.wf
  dim := fun p hp => (h.dim p hp).congrX (hX p hp)

theorem obsOf_congr {X X' : C.Tbl} {d : Dim C} {r : Row} (h0 : X' d.index r = X d.index r)
    (h : ∀ i ∈ d.inputs, X' i r = X i r) : obsOf X' d r = obsOf X d r := by
  unfold obsOf inputsOf
  rw [h0, List.map_congr_left h]

end View

namespace State
variable {C : Cat}
open View

/-! ### The data set -/

/-- The data set is rectangular: one column of length `n` per output, in the same order. -/
structure Rect (X : Dict Col (List C.Cell)) (outputs : List Col) (n : Nat) : Prop where
  keys : X.keys = outputs
  nodup : outputs.Nodup
  ne : outputs ≠ []
  len : ∀ c l, X.get? c = some l → l.length = n

theorem Rect.wf {X : Dict Col (List C.Cell)} {o : List Col} {n : Nat} (h : Rect X o n) : X.WF := by
  unfold Dict.WF; rw [h.keys]; exact h.nodup

theorem Rect.mem {X : Dict Col (List C.Cell)} {o : List Col} {n : Nat} (h : Rect X o n) (c : Col) :
    c ∈ o ↔ ∃ l, X.get? c = some l := by
  rw [← h.keys, ← Dict.get?_isSome_iff, Option.isSome_iff_exists]

theorem Rect.nRows {X : Dict Col (List C.Cell)} {o : List Col} {n : Nat} (h : Rect X o n) :
    nRowsOf X o = n := by
  obtain ⟨c, t, rfl⟩ := List.exists_cons_of_ne_nil h.ne
  obtain ⟨l, hl⟩ := (h.mem c).mp (by simp)
  simp [nRowsOf, hl, h.len c l hl]

theorem tblOf_some {X : Dict Col (List C.Cell)} {c : Col} {l : List C.Cell}
    (h : X.get? c = some l) (r : Row) : tblOf X c r = (l[r]?).getD none := by
  simp [tblOf, h]

theorem tblOf_none {X : Dict Col (List C.Cell)} {c : Col} (h : X.get? c = none) (r : Row) :
    tblOf X c r = none := by simp [tblOf, h]

theorem pushRow_ok (obs : Dict Col C.Cell) {outs : List Col} (hnd : outs.Nodup)
    {X : Dict Col (List C.Cell)} (h : ∀ c ∈ outs, c ∈ X.keys) :
    ∃ X', pushRow obs outs X = .ok X' ∧ X'.keys = X.keys ∧
      ∀ c, X'.get? c = if c ∈ outs then (X.get? c).map (· ++ [(obs.get? c).getD none])
        else X.get? c := by
  induction outs generalizing X with
  | nil => exact ⟨X, rfl, rfl, by simp⟩
  | cons c cs ih =>
    obtain ⟨l, hl⟩ := Dict.exists_of_mem_keys (h c (by simp))
    have hk : (X.set c (l ++ [(obs.get? c).getD none])).keys = X.keys := by
      rw [Dict.keys_set, if_pos (Dict.mem_keys_of_get? hl)]
    have hnd' := List.nodup_cons.mp hnd
    obtain ⟨X', h1, h2, h3⟩ := ih hnd'.2 (X := X.set c (l ++ [(obs.get? c).getD none]))
      (fun c' hc' => by rw [hk]; exact h c' (by simp [hc']))
    refine ⟨X', by simp only [pushRow, hl, h1], h2.trans hk, fun c' => ?_⟩
    rw [h3, Dict.get?_set]
    by_cases e : c' = c
    · subst e; simp [hnd'.1, hl]
    · simp [e]

theorem popRow_ok {n : Nat} {outs : List Col} (hnd : outs.Nodup) {X : Dict Col (List C.Cell)}
    (h : ∀ c ∈ outs, ∃ l, X.get? c = some l ∧ l.length = n + 1) :
    ∃ X', popRow outs X = .ok X' ∧ X'.keys = X.keys ∧
      ∀ c, X'.get? c = if c ∈ outs then (X.get? c).map List.dropLast else X.get? c := by
  induction outs generalizing X with
  | nil => exact ⟨X, rfl, rfl, by simp⟩
  | cons c cs ih =>
    obtain ⟨l, hl, hn⟩ := h c (by simp)
    have hk : (X.set c l.dropLast).keys = X.keys := by
      rw [Dict.keys_set, if_pos (Dict.mem_keys_of_get? hl)]
    have hnd' := List.nodup_cons.mp hnd
    obtain ⟨X', h1, h2, h3⟩ := ih hnd'.2 (X := X.set c l.dropLast) (fun c' hc' => by
      rw [Dict.get?_set, if_neg (by rintro rfl; exact hnd'.1 hc')]; exact h c' (by simp [hc']))
    obtain ⟨a, t, rfl⟩ := List.exists_cons_of_length_pos (l := l) (by omega)
    refine ⟨X', by simp only [popRow, hl, h1], h2.trans hk, fun c' => ?_⟩
    rw [h3, Dict.get?_set]
    by_cases e : c' = c
    · subst e; simp [hnd'.1, hl]
    · simp [e]

theorem Rect.push {X X' : Dict Col (List C.Cell)} {o : List Col} {n : Nat} (h : Rect X o n)
    {obs : Dict Col C.Cell} (hk : X'.keys = X.keys)
    (hX : ∀ c, X'.get? c = if c ∈ o then (X.get? c).map (· ++ [(obs.get? c).getD none])
        else X.get? c) :
    Rect X' o (n + 1) ∧ (∀ c ∈ o, tblOf X' c n = (obs.get? c).getD none) ∧
      ∀ c r, r < n → tblOf X' c r = tblOf X c r := by
  refine ⟨⟨hk.trans h.keys, h.nodup, h.ne, ?_⟩, ?_, ?_⟩
  · intro c l hl
    have hc : c ∈ o := by
      rw [← h.keys, ← hk]; exact Dict.mem_keys_of_get? hl
    obtain ⟨l0, h0⟩ := (h.mem c).mp hc
    rw [hX, if_pos hc, h0] at hl
    cases hl; simp [h.len c l0 h0]
  · intro c hc
    obtain ⟨l0, h0⟩ := (h.mem c).mp hc
    rw [tblOf_some (l := l0 ++ [(obs.get? c).getD none]) (by rw [hX, if_pos hc, h0]; rfl)]
    simp [← h.len c l0 h0]
  · intro c r hr
    by_cases hc : c ∈ o
    · obtain ⟨l0, h0⟩ := (h.mem c).mp hc
      rw [tblOf_some (l := l0 ++ [(obs.get? c).getD none]) (by rw [hX, if_pos hc, h0]; rfl),
        tblOf_some h0, List.getElem?_append_left (by rw [h.len c l0 h0]; exact hr)]
    · have : X.get? c = none := by
        rw [Dict.get?_eq_none_iff, h.keys]; exact hc
      rw [tblOf_none (by rw [hX, if_neg hc, this]), tblOf_none this]

theorem Rect.pop {X X' : Dict Col (List C.Cell)} {o : List Col} {n : Nat} (h : Rect X o (n + 1))
    (hk : X'.keys = X.keys)
    (hX : ∀ c, X'.get? c = if c ∈ o then (X.get? c).map List.dropLast else X.get? c) :
    Rect X' o n ∧ ∀ c r, r < n → tblOf X' c r = tblOf X c r := by
  refine ⟨⟨hk.trans h.keys, h.nodup, h.ne, ?_⟩, ?_⟩
  · intro c l hl
    have hc : c ∈ o := by
      rw [← h.keys, ← hk]; exact Dict.mem_keys_of_get? hl
    obtain ⟨l0, h0⟩ := (h.mem c).mp hc
    rw [hX, if_pos hc, h0] at hl
    cases hl; simp [h.len c l0 h0]
  · intro c r hr
    by_cases hc : c ∈ o
    · obtain ⟨l0, h0⟩ := (h.mem c).mp hc
      rw [tblOf_some (l := l0.dropLast) (by rw [hX, if_pos hc, h0]; rfl),
        tblOf_some h0, List.getElem?_dropLast, if_pos (by rw [h.len c l0 h0]; omega)]
    · have : X.get? c = none := by
        rw [Dict.get?_eq_none_iff, h.keys]; exact hc
      rw [tblOf_none (by rw [hX, if_neg hc, this]), tblOf_none this]

/-! ### The views -/

/-- View `i` models the columns that `Z` assigns to it, over the rows `0, …, n-1` of `X`; the
inputs of its columns satisfy `cols`. -/
structure VOk (X : C.Tbl) (n : Nat) (Z : Col → Option Nat) (cols : Col → Prop) (i : Nat)
    (v : View C) : Prop where
  inv : View.Inv X v
  rows : ∀ r, v.seat r ≠ none ↔ r < n
  dims : ∀ c, c ∈ v.dims.keys ↔ Z c = some i
  ins : ∀ q ∈ v.dims, ∀ j ∈ q.2.inputs, cols j

/-- The views. -/
structure VInv (X : C.Tbl) (n : Nat) (Z : Col → Option Nat) (cols : Col → Prop)
    (vs : Dict Nat (View C)) : Prop where
  wf : vs.WF
  view : ∀ i v, vs.get? i = some v → VOk X n Z cols i v

theorem VInv.set {X : C.Tbl} {n : Nat} {Z : Col → Option Nat} {cols : Col → Prop}
    {vs : Dict Nat (View C)} (h : VInv X n Z cols vs) {i : Nat} {v : View C}
    (hv : VOk X n Z cols i v) : VInv X n Z cols (vs.set i v) where
  wf := Dict.wf_set h.wf _ _
  view := fun j w hw => by
    rw [Dict.get?_set] at hw
    split at hw
    · rename_i e; subst e; cases hw; exact hv
    · exact h.view j w hw

theorem VInv.erase {X : C.Tbl} {n : Nat} {Z : Col → Option Nat} {cols : Col → Prop}
    {vs : Dict Nat (View C)} (h : VInv X n Z cols vs) (i : Nat) :
    VInv X n Z cols (vs.erase i) where
  wf := Dict.wf_erase h.wf _
  view := fun j w hw => by
    rw [Dict.get?_erase] at hw
    split at hw
    · cases hw
    · exact h.view j w hw

theorem VInv.mono {X X' : C.Tbl} {n n' : Nat} {Z Z' : Col → Option Nat} {cols cols' : Col → Prop}
    {vs : Dict Nat (View C)} (h : VInv X n Z cols vs)
    (hm : ∀ i v, vs.get? i = some v → VOk X n Z cols i v → VOk X' n' Z' cols' i v) :
    VInv X' n' Z' cols' vs where
  wf := h.wf
  view := fun i v hv => hm i v hv (h.view i v hv)

/-- Changing the data set outside the rows and columns in use. -/
theorem VOk.congrX {X X' : C.Tbl} {n : Nat} {Z : Col → Option Nat} {cols : Col → Prop} {i : Nat}
    {v : View C} (h : VOk X n Z cols i v) (hZ : ∀ c, Z c = some i → cols c)
    (hX : ∀ c, cols c → ∀ r, r < n → X' c r = X c r) : VOk X' n Z cols i v where
  inv := h.inv.congrX fun p hp r hr => by
    have hr' := (h.rows r).mp hr
    refine obsOf_congr ?_ fun j hj => hX j (h.ins p hp j hj) r hr'
    rw [(h.inv.dim p hp).index]
    exact hX _ (hZ _ ((h.dims _).mp (List.mem_map_of_mem hp))) r hr'
  rows := h.rows
  dims := h.dims
  ins := h.ins

theorem mem_keys_same {a b : View C} (h : Same a b) (c : Col) :
    c ∈ b.dims.keys ↔ c ∈ a.dims.keys := by
  have := h c
  rw [← Dict.get?_isSome_iff, ← Dict.get?_isSome_iff]
  cases ha : a.dims.get? c <;> cases hb : b.dims.get? c <;> rw [ha, hb] at this <;>
    simp_all

/-- A view with the same schema. -/
theorem VOk.same {X X' : C.Tbl} {n n' : Nat} {Z : Col → Option Nat} {cols : Col → Prop} {i : Nat}
    {v v' : View C} (h : VOk X n Z cols i v) (hS : Same v v') (hI : View.Inv X' v')
    (hr : ∀ r, v'.seat r ≠ none ↔ r < n') : VOk X' n' Z cols i v' where
  inv := hI
  rows := hr
  dims := fun c => (mem_keys_same hS c).trans (h.dims c)
  ins := fun q hq j hj => by
    have := hS q.1
    rw [Dict.get?_of_mem hI.wf hq] at this
    cases ha : v.dims.get? q.1 with
    | none => rw [ha] at this; cases this
    | some d =>
      rw [ha] at this
      cases this with
      | some hf => exact h.ins (q.1, d) (Dict.mem_of_get? ha) j (by rw [← hf.inputs]; exact hj)

/-! ### The state -/

/-- Invariant of a state. -/
structure Inv (s : State C) : Prop where
  data : Rect s.X s.outputs s.nRows
  pos : 0 < s.nRows
  crp : Crp.Inv s.crp
  alpha : 0 < s.crp.alpha
  cols : ∀ c, s.Zv c ≠ none ↔ c ∈ s.outputs
  views : VInv s.tbl s.nRows s.Zv (· ∈ s.outputs) s.views
  occ : ∀ v, v ∈ s.views.keys ↔ ∃ c, s.Zv c = some v

theorem Inv.of {s : State C} {n : Nat} (hd : Rect s.X s.outputs n) (hn : 0 < n)
    (hc : Crp.Inv s.crp) (ha : 0 < s.crp.alpha) (hcols : ∀ c, s.Zv c ≠ none ↔ c ∈ s.outputs)
    (hv : VInv s.tbl n s.Zv (· ∈ s.outputs) s.views)
    (ho : ∀ v, v ∈ s.views.keys ↔ ∃ c, s.Zv c = some v) : Inv s := by
  have e : s.nRows = n := hd.nRows
  exact ⟨e ▸ hd, e ▸ hn, hc, ha, hcols, e ▸ hv, ho⟩

/-- Where a column is stored. -/
theorem Inv.dim {s : State C} (h : Inv s) {c : Col} (hc : c ∈ s.outputs) :
    ∃ v view d, s.Zv c = some v ∧ s.views.get? v = some view ∧ view.dims.get? c = some d ∧
      s.dimFor c = .ok d ∧ VOk s.tbl s.nRows s.Zv (· ∈ s.outputs) v view ∧
      DimOk s.tbl view.seat c d := by
  obtain ⟨v, hv⟩ := Option.ne_none_iff_exists'.mp ((h.cols c).mpr hc)
  obtain ⟨view, hw⟩ := Dict.exists_of_mem_keys ((h.occ v).mpr ⟨c, hv⟩)
  have ho := h.views.view v view hw
  obtain ⟨d, hd⟩ := Dict.exists_of_mem_keys ((ho.dims c).mpr hv)
  exact ⟨v, view, d, hv, hw, hd, by simp only [dimFor, hv, hw, hd], ho,
    ho.inv.dim (c, d) (Dict.mem_of_get? hd)⟩

theorem dimFor_ok {s : State C} {c : Col} {d : Dim C} (h : s.dimFor c = .ok d) :
    ∃ v view, s.Zv c = some v ∧ s.views.get? v = some view ∧ view.dims.get? c = some d := by
  unfold dimFor at h
  split at h
  · cases h
  · rename_i v hv
    split at h
    · cases h
    · rename_i view hw
      split at h
      · cases h
      · rename_i d' hd
        cases h
        exact ⟨v, view, hv, hw, hd⟩

theorem Inv.dimFor_mem {s : State C} (h : Inv s) {c : Col} {d : Dim C} (hd : s.dimFor c = .ok d) :
    c ∈ s.outputs := by
  obtain ⟨v, -, hv, -⟩ := dimFor_ok hd
  exact (h.cols c).mp (by simp [hv])

theorem Inv.dimFor_of_view {s : State C} (h : Inv s) {i : Nat} {v : View C}
    (hv : s.views.get? i = some v) {c : Col} {d : Dim C} (hd : v.dims.get? c = some d) :
    s.dimFor c = .ok d := by
  have hz := ((h.views.view i v hv).dims c).mp (Dict.mem_keys_of_get? hd)
  simp only [dimFor, hz, hv, hd]

end State
end Cgpm
