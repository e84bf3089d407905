import Verif.Lemmas.ViewScore
import Verif.Spec.View
import Verif.Props.Dim

/-! The invariant of a view in terms of the specification. -/
namespace Cgpm.Props
open Cgpm Cgpm.View

variable {C : Cat}

theorem fileOf_eq (X : C.Tbl) (d : Dim C) (r : Row) (k : Tab) :
    fileOf X d r k = match obsOf X d r with
      | none => some (k, none)
      | some o => match (C.F d.kind).prep o with
        | .ok o' => some (k, some o')
        | .error _ => none := by
  unfold fileOf file obsOf inputsOf
  rw [validObs_eq]
  cases X d.index r with
  | none => rfl
  | some v => cases (d.inputs.map fun i => X i r).any Option.isNone <;> rfl

theorem admissible_iff (X : C.Tbl) (d : Dim C) (r : Row) :
    admissible X d r ↔ Accepts X d r := by
  unfold admissible Accepts
  rw [fileOf_eq]
  cases obsOf X d r with
  | none => simp
  | some o =>
    simp only [Option.some.injEq, forall_eq']
    unfold Dim.fam
    cases (C.F d.kind).prep o with
    | ok o' => simp
    | error e => simp

theorem fileOf_filing {X : C.Tbl} {d : Dim C} {r : Row} (h : Accepts X d r) (k : Tab) :
    fileOf X d r k = some (k, stored X d r) := by
  rw [fileOf_eq]
  unfold stored
  cases ho : obsOf X d r with
  | none => rfl
  | some o =>
    obtain ⟨o', ho'⟩ := h o ho
    have : (C.F d.kind).prep o = .ok o' := ho'
    simp only [this]

theorem columnConsistent_of {X : C.Tbl} {s : Row → Option Tab} {c : Col} {d : Dim C}
    (h : DimOk X s c d) : ColumnConsistent X s c d where
  index := h.index
  rows := by
    intro r k
    rw [h.core.zr, h.core.zi]
    unfold filing
    cases s r with
    | none => simp
    | some k' =>
      cases stored X d r <;> simp
  missing := by
    intro r k hk
    rw [h.core.zi, fileOf_filing (h.acc r k hk)]
    unfold filing
    rw [hk]
    cases stored X d r <;> simp
  clusters := h.keys
  values := by
    intro k cl hc r o
    rw [(h.core.cl k cl hc).data]
    unfold filing
    cases hs : s r with
    | none => simp
    | some k' =>
      by_cases e : k' = k
      · subst e
        rw [fileOf_filing (h.acc r _ hs)]
        cases stored X d r <;> simp
      · cases stored X d r <;> simp [e]
  once := fun k cl hc => (h.core.cl k cl hc).wf
  stats := fun k cl hc => (h.core.cl k cl hc).stat
  hypers := h.shared.cl
  template := ⟨(Dim.holds_empty_stat h.core.aux).1, (Dim.holds_empty_stat h.core.aux).2, h.shared.aux⟩

theorem consistent_of {X : C.Tbl} {v : View C} (h : Inv X v) : Consistent X v where
  counts := by
    intro t n
    have e : {r | v.seat r = some t}.ncard = nSeated v.crp.data t := ncard_get? h.crp.wfData t
    rw [e, h.crp.hCounts, countOf]
    split
    · rename_i h0; rw [h0]; simp
    · rename_i h0
      simp only [Option.some.injEq]
      constructor
      · rintro rfl; exact ⟨rfl, by exact_mod_cast h0⟩
      · rintro ⟨rfl, _⟩; rfl
  total := by
    rw [h.crp.hN]
    have := ncard_get?_total h.crp.wfData
    exact_mod_cast this.symm
  columns := h.wf
  column := fun c d hd => columnConsistent_of (h.dim (c, d) (Dict.mem_of_get? hd))

theorem legal_of {s : C.Tbl × View C} (h : Inv s.1 s.2) {op : View.Op C} (hl : legal s op) :
    Legal s op := by
  cases op with
  | inc r obs k z =>
    intro hr
    have := hl hr
    exact ⟨fun p hp => (this p.1 p.2 (Dict.get?_of_mem h.wf hp)).1,
      fun p hp => (admissible_iff _ _ _).mp (this p.1 p.2 (Dict.get?_of_mem h.wf hp)).2⟩
  | force r c x =>
    obtain ⟨h1, ⟨d, hd, h2⟩, h3⟩ := hl
    exact ⟨⟨d, hd, (admissible_iff _ _ _).mp h2⟩, h1,
      fun p hp => h3 p.1 p.2 (Dict.get?_of_mem h.wf hp)⟩
  | incDim c ins i hy => exact hl
  | cctype c i ins hy => exact hl
  | hypers c hy => exact hl
  | unc r => trivial
  | gibbs r z => trivial
  | uncDim c => trivial
  | alpha a => trivial

theorem inv_legalRun (hC : C.Lawful) {s : C.Tbl × View C} (h : Inv s.1 s.2)
    (ops : List (View.Op C)) (hl : legalRun s ops) : Inv (View.run s ops).1 (View.run s ops).2 := by
  induction ops generalizing s with
  | nil => exact h
  | cons op ops ih =>
    exact ih (s := ((View.apply s op).1, (View.apply s op).2.state))
      (h.apply hC op (legal_of h hl.1)) hl.2

theorem Reachable.inv (hC : C.Lawful) {X : C.Tbl} {v : View C} (h : Reachable X v) : Inv X v := by
  obtain ⟨X, a, ha, ops, hl⟩ := h
  exact inv_legalRun hC (s := (X, View.empty a)) (inv_empty X ha) ops hl

end Cgpm.Props
