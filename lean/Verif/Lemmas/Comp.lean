import Verif.Model.Comp
import Verif.Lemmas.Dict
import Verif.Lemmas.Math

/-! Generic facts about components. -/
namespace Cgpm

variable {O S H : Type}

/-- `sub` undoes `add`, and additions commute. -/
structure Family.Lawful (F : Family O S H) : Prop where
  sub_add : ∀ s o, F.sub (F.add s o) o = s
  add_comm : ∀ s a b, F.add (F.add s a) b = F.add (F.add s b) a

/-- The statistics of a list of values. -/
def Family.statOf (F : Family O S H) (l : List O) : S := l.foldl F.add F.zero

theorem Family.Lawful.foldl_perm {F : Family O S H} (hF : F.Lawful) {l m : List O}
    (h : l.Perm m) (s : S) : l.foldl F.add s = m.foldl F.add s := by
  induction h generalizing s with
  | nil => rfl
  | cons x _ ih => exact ih _
  | swap x y l => simp [hF.add_comm]
  | trans _ _ ih1 ih2 => rw [ih1, ih2]

theorem Family.Lawful.statOf_perm {F : Family O S H} (hF : F.Lawful) {l m : List O}
    (h : l.Perm m) : F.statOf l = F.statOf m := hF.foldl_perm h _

theorem Family.Lawful.foldl_add {F : Family O S H} (hF : F.Lawful) (l : List O) (s : S) (o : O) :
    l.foldl F.add (F.add s o) = F.add (l.foldl F.add s) o := by
  induction l generalizing s with
  | nil => rfl
  | cons x l ih => simp only [List.foldl_cons]; rw [hF.add_comm, ih]

@[simp] theorem Family.statOf_append (F : Family O S H) (l : List O) (o : O) :
    F.statOf (l ++ [o]) = F.add (F.statOf l) o := by simp [Family.statOf]

theorem Family.Lawful.statOf_cons {F : Family O S H} (hF : F.Lawful) (o : O) (l : List O) :
    F.statOf (o :: l) = F.add (F.statOf l) o := hF.foldl_add _ _ _

namespace Comp

/-- Invariant of a component. -/
structure Inv (F : Family O S H) (c : Comp O S H) : Prop where
  wf : c.data.WF
  hstat : c.stat = F.statOf c.data.vals
  stored : ∀ v ∈ c.data.vals, ∃ o, F.prep o = .ok v

theorem inv_init (F : Family O S H) (h : H) : Inv F (init F h) :=
  ⟨Dict.wf_nil, rfl, by simp [init, Dict.vals]⟩

theorem vals_set_of_not_mem {d : Dict Row O} {r : Row} (o : O) (h : d.get? r = none) :
    (d.set r o).vals = d.vals ++ [o] := by
  rw [Dict.set_of_not_mem o h]; simp [Dict.vals]

theorem incorporate_ok {F : Family O S H} {c : Comp O S H} {r : Row} {o x : O}
    (hr : c.data.get? r = none) (hp : F.prep o = .ok x) :
    c.incorporate F r o = .ok { c with data := c.data.set r x, stat := F.add c.stat x } := by
  simp [incorporate, (Dict.has_false_iff _ _).mpr hr, hp]

theorem incorporate_dup {F : Family O S H} {c : Comp O S H} {r : Row} {o : O}
    (hr : c.data.get? r ≠ none) : c.incorporate F r o = .err .assertion c := by
  have : c.data.has r = true := by
    rw [Dict.has_iff]; by_contra h; exact hr ((Dict.get?_eq_none_iff _ _).mpr h)
  simp [incorporate, this]

theorem incorporate_refused {F : Family O S H} {c : Comp O S H} {r : Row} {o : O} {e : Exn}
    (hr : c.data.get? r = none) (hp : F.prep o = .error e) : c.incorporate F r o = .err e c := by
  simp [incorporate, (Dict.has_false_iff _ _).mpr hr, hp]

theorem unincorporate_ok {F : Family O S H} {c : Comp O S H} {r : Row} {x : O}
    (hr : c.data.get? r = some x) :
    c.unincorporate F r = .ok { c with data := c.data.erase r, stat := F.sub c.stat x } := by
  simp [unincorporate, hr]

theorem unincorporate_missing {F : Family O S H} {c : Comp O S H} {r : Row}
    (hr : c.data.get? r = none) : c.unincorporate F r = .err .keyError c := by
  simp [unincorporate, hr]

theorem Inv.statOf_erase {F : Family O S H} (hF : F.Lawful) {c : Comp O S H} (h : Inv F c)
    {r : Row} {x : O} (hr : c.data.get? r = some x) :
    F.sub c.stat x = F.statOf (c.data.erase r).vals := by
  have hp := (Dict.perm_cons_erase h.wf hr).map Prod.snd
  have e : F.statOf c.data.vals = _ := hF.statOf_perm hp
  rw [h.hstat, e, List.map_cons, hF.statOf_cons, hF.sub_add]; rfl

theorem Inv.incorporate {F : Family O S H} {c : Comp O S H} (h : Inv F c) (r : Row) (o : O) :
    Inv F (c.incorporate F r o).state := by
  by_cases hr : c.data.get? r = none
  · cases hp : F.prep o with
    | error e => rw [incorporate_refused hr hp]; exact h
    | ok x =>
      rw [incorporate_ok hr hp]
      refine ⟨Dict.wf_set h.wf _ _, ?_, ?_⟩
      · simp only [Out.state_ok, vals_set_of_not_mem x hr, Family.statOf_append, h.hstat]
      · intro v hv
        simp only [Out.state_ok, vals_set_of_not_mem x hr, List.mem_append,
          List.mem_singleton] at hv
        rcases hv with hv | rfl
        · exact h.stored v hv
        · exact ⟨o, hp⟩
  · rw [incorporate_dup hr]; exact h

theorem Inv.unincorporate {F : Family O S H} (hF : F.Lawful) {c : Comp O S H} (h : Inv F c)
    (r : Row) : Inv F (c.unincorporate F r).state := by
  cases hr : c.data.get? r with
  | none => rw [unincorporate_missing hr]; exact h
  | some x =>
    rw [unincorporate_ok hr]
    refine ⟨Dict.wf_erase h.wf _, h.statOf_erase hF hr, ?_⟩
    intro v hv
    have hp := (Dict.perm_cons_erase h.wf hr).map Prod.snd
    exact h.stored v (hp.mem_iff.mpr (List.mem_cons_of_mem _ hv))

theorem Inv.setHypers {F : Family O S H} {c : Comp O S H} (h : Inv F c) (k : H) :
    Inv F (c.setHypers F k).state := by
  unfold Comp.setHypers; split
  · exact ⟨h.wf, h.hstat, h.stored⟩
  · exact h

theorem Inv.apply {F : Family O S H} (hF : F.Lawful) {c : Comp O S H} (h : Inv F c)
    (op : Op O H) : Inv F (c.apply F op).state := by
  cases op with
  | inc r o => exact h.incorporate r o
  | unc r => exact h.unincorporate hF r
  | hyp k => exact h.setHypers k

theorem Inv.run {F : Family O S H} (hF : F.Lawful) {c : Comp O S H} (h : Inv F c)
    (ops : List (Op O H)) : Inv F (c.run F ops) := by
  induction ops generalizing c with
  | nil => exact h
  | cons op ops ih => exact ih (h.apply hF op)

theorem hypOk_run {F : Family O S H} {c : Comp O S H} (h : F.hypOk c.hyp)
    (ops : List (Op O H)) : F.hypOk (c.run F ops).hyp := by
  induction ops generalizing c with
  | nil => exact h
  | cons op ops ih =>
    refine ih (c := (c.apply F op).state) ?_
    cases op with
    | inc r o =>
      simp only [apply, incorporate]; split
      · exact h
      · split <;> exact h
    | unc r => simp only [apply, Comp.unincorporate]; split <;> exact h
    | hyp k =>
      simp only [apply, Comp.setHypers]; split
      · assumption
      · exact h

end Comp
end Cgpm
