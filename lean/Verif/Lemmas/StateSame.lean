import Verif.Lemmas.StateFrame
import Verif.Props.View

/-! Small facts used by the theorems about States. -/
namespace Cgpm.State
open Cgpm Cgpm.View
variable {C : Cat}

theorem tbl_none {s : State C} {c : Col} (h : c ∉ s.X.keys) (r : Row) : s.tbl c r = none := by
  unfold tbl tblOf
  rw [(Dict.get?_eq_none_iff _ _).mpr h]; rfl

theorem Inv.tbl_ge {s : State C} (h : Inv s) (c : Col) {r : Row} (hr : s.nRows ≤ r) :
    s.tbl c r = none := by
  unfold tbl tblOf
  cases hl : s.X.get? c with
  | none => rfl
  | some l =>
    have := h.data.len c l hl
    simp only [Option.bind_some]
    rw [List.getElem?_eq_none (by rw [this]; exact hr)]; rfl

theorem dict_ext {K V : Type} [DecidableEq K] {a b : Dict K V} (ha : a.WF) (hk : a.keys = b.keys)
    (h : ∀ k ∈ a.keys, a.get? k = b.get? k) : a = b := by
  induction a generalizing b with
  | nil =>
    cases b with
    | nil => rfl
    | cons q t => simp [Dict.keys] at hk
  | cons p t ih =>
    cases b with
    | nil => simp [Dict.keys] at hk
    | cons q u =>
      obtain ⟨k, x⟩ := p
      obtain ⟨k', y⟩ := q
      have hk' : k = k' ∧ Dict.keys t = Dict.keys u := by simpa [Dict.keys] using hk
      obtain ⟨rfl, hk'⟩ := hk'
      obtain ⟨h1, h2⟩ := Dict.wf_cons.mp ha
      have hxy : x = y := by
        have := h k (by simp [Dict.keys])
        rw [Dict.get?_cons, Dict.get?_cons, if_pos rfl, if_pos rfl] at this
        exact Option.some.inj this
      subst hxy
      rw [ih h2 hk' fun j hj => ?_]
      have hne : k ≠ j := by
        rintro rfl
        exact (Dict.get?_eq_none_iff _ _).mp h1 hj
      have := h j (by simp only [Dict.keys, List.map_cons, List.mem_cons]; exact Or.inr hj)
      rw [Dict.get?_cons, Dict.get?_cons, if_neg hne, if_neg hne] at this
      exact this

theorem Inv.X_ext {a b : State C} (ha : Inv a) (hb : Inv b) (ho : b.outputs = a.outputs)
    (hn : a.nRows = b.nRows) (h : ∀ c r, r < a.nRows → b.tbl c r = a.tbl c r) : a.X = b.X := by
  refine dict_ext ha.data.wf (by rw [ha.data.keys, hb.data.keys, ho]) fun c hc => ?_
  rw [ha.data.keys] at hc
  obtain ⟨l, hl⟩ := (ha.data.mem c).mp hc
  obtain ⟨l', hl'⟩ := (hb.data.mem c).mp (by rw [ho]; exact hc)
  have h1 := ha.data.len c l hl
  have h2 := hb.data.len c l' hl'
  rw [hl, hl']
  congr 1
  refine List.ext_getElem (by rw [h1, h2, hn]) fun r hr hr' => ?_
  have := h c r (by rw [← h1]; exact hr)
  unfold tbl tblOf at this
  rw [hl, hl'] at this
  simpa [List.getElem?_eq_getElem, hr, hr'] using this.symm

theorem vals_congr {K V W : Type} [DecidableEq K] {R : V → V → Prop} {f : V → W} {a b : Dict K V}
    (hk : a.keys = b.keys) (ha : a.WF) (h : ∀ k, Option.Rel R (a.get? k) (b.get? k))
    (hf : ∀ x y, R x y → f x = f y) : a.vals.map f = b.vals.map f := by
  induction a generalizing b with
  | nil =>
    cases b with
    | nil => rfl
    | cons q t => simp [Dict.keys] at hk
  | cons p t ih =>
    cases b with
    | nil => simp [Dict.keys] at hk
    | cons q u =>
      obtain ⟨k, x⟩ := p
      obtain ⟨k', y⟩ := q
      have hk' : k = k' ∧ Dict.keys t = Dict.keys u := by simpa [Dict.keys] using hk
      obtain ⟨rfl, hk'⟩ := hk'
      obtain ⟨h1, h2⟩ := Dict.wf_cons.mp ha
      have hxy : R x y := by
        have := h k
        rw [Dict.get?_cons, Dict.get?_cons, if_pos rfl, if_pos rfl] at this
        cases this; assumption
      have := ih (b := u) hk' h2 fun j => ?_
      · simp only [Dict.vals, List.map_cons, List.map_map] at this ⊢
        rw [this, hf x y hxy]
      · by_cases hne : k = j
        · subst hne
          rw [h1, (Dict.get?_eq_none_iff u k).mpr (by
            rw [← hk']; exact (Dict.get?_eq_none_iff _ _).mp h1)]
          exact Option.Rel.none
        · have := h j
          rw [Dict.get?_cons, Dict.get?_cons, if_neg hne, if_neg hne] at this
          exact this

theorem anyConditional_false {cfg : Cfg C} {s : State C}
    (h : ∀ c d, s.dimFor c = .ok d → cfg.conditional d.kind = false) :
    s.anyConditional cfg = false := by
  rw [Bool.eq_false_iff]
  intro hc
  obtain ⟨c, -, d, hd, he⟩ := anyConditional_iff.mp hc
  rw [h c d hd] at he; cases he

theorem allMissing_of {s : State C} (h : Inv s) {r : Row} (hr : r < s.nRows) {cs : List Col}
    (hm : ∀ c ∈ cs, c ∈ s.outputs ∧ s.tbl c r = none) : allMissing s.X r cs = .ok true := by
  induction cs with
  | nil => rfl
  | cons c cs ih =>
    obtain ⟨h1, h2⟩ := hm c (by simp)
    obtain ⟨l, hl⟩ := (h.data.mem c).mp h1
    have hlen := h.data.len c l hl
    have hlt : r < l.length := by rw [hlen]; exact hr
    unfold tbl tblOf at h2
    rw [hl] at h2
    simp only [Option.bind_some, List.getElem?_eq_getElem hlt, Option.getD_some] at h2
    unfold allMissing
    simp only [hl, List.getElem?_eq_getElem hlt, h2]
    exact ih fun c' hc' => hm c' (by simp [hc'])

end Cgpm.State
