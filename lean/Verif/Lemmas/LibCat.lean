import Verif.Model.LibCat
import Verif.Lemmas.PrimChain
import Verif.Lemmas.ViewGibbs

/-! The library's catalogue satisfies the laws used by the theorems on columns and views. -/
namespace Cgpm
open Cgpm.Props

namespace Prim

@[simp] theorem lift_add_mk (p : Prim) (s : p.S) (o : ℝ × List ℝ) :
    p.lift.add ⟨p, s⟩ o = ⟨p, p.fam.add s o.1⟩ := by simp [lift]

@[simp] theorem lift_sub_mk (p : Prim) (s : p.S) (o : ℝ × List ℝ) :
    p.lift.sub ⟨p, s⟩ o = ⟨p, p.fam.sub s o.1⟩ := by simp [lift]

theorem lift_add_ne (p : Prim) {s : Σ q : Prim, q.S} (h : s.1 ≠ p) (o : ℝ × List ℝ) :
    p.lift.add s o = s := by simp [lift, h]

theorem lift_sub_ne (p : Prim) {s : Σ q : Prim, q.S} (h : s.1 ≠ p) (o : ℝ × List ℝ) :
    p.lift.sub s o = s := by simp [lift, h]

@[simp] theorem lift_score_mk (p : Prim) (h : p.H) (s : p.S) :
    p.lift.score ⟨p, h⟩ ⟨p, s⟩ = p.fam.score h s := by simp [lift]

@[simp] theorem lift_logpdf_mk (p : Prim) (h : p.H) (s : p.S) (o : ℝ × List ℝ) :
    p.lift.logpdf ⟨p, h⟩ ⟨p, s⟩ o = p.fam.logpdf h s o.1 := by simp [lift]

@[simp] theorem lift_hypOk_mk (p : Prim) (h : p.H) :
    p.lift.hypOk ⟨p, h⟩ ↔ p.fam.hypOk h := by simp [lift]

theorem lift_lawful (p : Prim) : p.lift.Lawful := by
  constructor
  · intro s o
    by_cases e : s.1 = p
    · obtain ⟨q, s⟩ := s
      cases e
      rw [lift_add_mk, lift_sub_mk, q.lawful.sub_add]
    · rw [lift_add_ne p e, lift_sub_ne p e]
  · intro s o o'
    by_cases e : s.1 = p
    · obtain ⟨q, s⟩ := s
      cases e
      rw [lift_add_mk, lift_add_mk, lift_add_mk, lift_add_mk, q.lawful.add_comm]
    · simp [lift_add_ne p e]

theorem lift_statOf (p : Prim) (l : List (ℝ × List ℝ)) :
    p.lift.statOf l = ⟨p, p.fam.statOf (l.map Prod.fst)⟩ := by
  unfold Family.statOf
  change List.foldl p.lift.add ⟨p, p.fam.zero⟩ l = _
  generalize p.fam.zero = z
  induction l generalizing z with
  | nil => rfl
  | cons o t ih => simp only [List.foldl_cons, List.map_cons, lift_add_mk, ih]

theorem lift_prep {p : Prim} {o o' : ℝ × List ℝ} (h : p.lift.prep o = .ok o') :
    o.2 = [] ∧ o'.2 = [] ∧ p.fam.prep o.1 = .ok o'.1 := by
  simp only [lift] at h
  split at h
  · rename_i h1
    split at h
    · rename_i x hx
      cases h
      exact ⟨h1, rfl, hx⟩
    · cases h
  · cases h

theorem lift_prep_ok {p : Prim} {x y : ℝ} (h : p.fam.prep x = .ok y) :
    p.lift.prep (x, []) = .ok (y, []) := by simp [lift, h]

theorem notBeta_of_collapsed {p : Prim} (h : p.collapsed) : notBeta p := by
  cases p <;> first | exact h.elim | trivial

theorem lift_chain {p : Prim} (hp : p.collapsed) : p.lift.Chain := by
  constructor
  · rintro ⟨q, h⟩ ⟨e, hk⟩
    cases e
    exact (lift_score_mk q h _).trans (q.score_zero hp hk)
  · rintro ⟨q, h⟩ ⟨e, hk⟩ l hl o o' ho
    cases e
    obtain ⟨-, -, ho⟩ := lift_prep ho
    have hnb := notBeta_of_collapsed hp
    have hs' := Prim.stored_support ho
    have hs : support q o.1 := by
      by_contra hc
      obtain ⟨e, he⟩ := Prim.prep_err hnb hc
      rw [he] at ho; cases ho
    have heq : o'.1 = o.1 := by
      rw [Prim.prep_ok hnb hs] at ho; exact (Except.ok.inj ho).symm
    rw [lift_statOf, lift_add_mk, lift_logpdf_mk, lift_score_mk, lift_score_mk, heq]
    refine q.chain hk ?_ hs
    intro v hv
    obtain ⟨w, hw, rfl⟩ := List.mem_map.mp hv
    obtain ⟨w0, hw0⟩ := hl w hw
    exact Prim.stored_support (lift_prep hw0).2.2

end Prim

theorem catOf_lawful (P : Prim → Prop) : (catOf P).Lawful := fun i => i.1.lift_lawful

theorem collapsedCat_chain : (catOf Prim.collapsed).Chain := fun i => Prim.lift_chain i.2

end Cgpm
