import Verif.Lemmas.ViewEnum
import Verif.Lemmas.LibCat

/-! Supports that do not depend on the cluster, and the factor of one column. -/
namespace Cgpm.Props
open Cgpm Cgpm.View Cgpm.Net

variable {C : Cat}

theorem mass_ofLogP_eq_zero {w : LogP} : mass (Fl.ofLogP w) = 0 ↔ w = ⊥ := by
  cases w with
  | none => change mass (Fl.ofLogP (⊥ : LogP)) = 0 ↔ (⊥ : LogP) = ⊥; simp [Fl.ofLogP_bot', mass]
  | some x =>
    change ENNReal.ofReal (Real.exp x) = 0 ↔ ((x : ℝ) : LogP) = ⊥
    simp [Real.exp_pos]

theorem prim_fixed (p : Prim) (h h' : p.H) (s s' : p.S) (x : ℝ)
    (hb : p.fam.logpdf h s x = ⊥) : p.fam.logpdf h' s' x = ⊥ := by
  cases p <;>
    simp only [Prim.fam, bernoulli, categorical, exponential, geometric, poisson, normal,
      lognormal, vonmises, normalTrunc, beta] at hb ⊢ <;>
    first
      | (split at hb <;> first | (exact absurd hb WithBot.coe_ne_bot) | simp_all)
      | exact absurd hb WithBot.coe_ne_bot

theorem catOf_fixedSupport (P : Prim → Prop) : FixedSupport (catOf P) := by
  rintro ⟨p, hp⟩ ⟨q, h⟩ ⟨q', h'⟩ l l' o ⟨e, hk⟩ ⟨e', hk'⟩ hb
  simp only at e e'
  subst e
  subst e'
  have h1 := Prim.lift_statOf q' l
  have h2 := Prim.lift_statOf q' l'
  unfold Family.statOf at h1 h2
  change q'.lift.logpdf ⟨q', h⟩ (List.foldl q'.lift.add q'.lift.zero l) o = ⊥ at hb
  change q'.lift.logpdf ⟨q', h'⟩ (List.foldl q'.lift.add q'.lift.zero l') o = ⊥
  rw [h1] at hb
  rw [h2]
  exact (Prim.lift_logpdf_mk q' h' _ o).trans
    (prim_fixed q' _ _ _ _ _ ((Prim.lift_logpdf_mk q' h _ o).symm.trans hb))

theorem cellDensity_zero {X : C.Tbl} {v : View C} (hS : FixedSupport C) (hI : Inv X v)
    {p : Col × Dim C} (hp : p ∈ v.dims) (k k' : Tab) (x : C.Cell) (ins : List C.Cell)
    (h : cellDensity p.2 k x ins = 0) : cellDensity p.2 k' x ins = 0 := by
  have hd := hI.dim p hp
  have key : ∀ k, ∃ (h : C.H) (l : List C.O), (C.F p.2.kind).hypOk h ∧
      ∀ o, (match p.2.clusters.get? k with
        | some c => (C.F p.2.kind).logpdf c.hyp c.stat o
        | none => (C.F p.2.kind).logpdf p.2.hyp (C.F p.2.kind).zero o) =
      (C.F p.2.kind).logpdf h (l.foldl (C.F p.2.kind).add (C.F p.2.kind).zero) o := by
    intro k
    cases hk : p.2.clusters.get? k with
    | none => exact ⟨p.2.hyp, [], hd.hyp, fun o => rfl⟩
    | some c =>
      refine ⟨c.hyp, c.data.vals, (hd.shared.cl k c hk).symm ▸ hd.hyp, fun o => ?_⟩
      have : c.stat = (C.F p.2.kind).statOf c.data.vals := (hd.core.cl k c hk).stat
      simp only [this, Family.statOf]
  unfold cellDensity at h ⊢
  split at h
  · obtain ⟨h1, l1, g1, e1⟩ := key k
    obtain ⟨h2, l2, g2, e2⟩ := key k'
    rw [mass_ofLogP_eq_zero] at h ⊢
    exact (e2 _).trans (hS _ _ _ _ _ _ g1 g2 ((e1 _).symm.trans h))
  · exact absurd h one_ne_zero

theorem rowDensity_zero {X : C.Tbl} {v : View C} (hS : FixedSupport C) (hI : Inv X v)
    (D : Col → Option C.Cell) (k k' : Tab) (h : rowDensity v k D = 0) : rowDensity v k' D = 0 := by
  unfold rowDensity at h ⊢
  rw [List.prod_eq_zero_iff] at h ⊢
  obtain ⟨p, hp, e⟩ := List.mem_map.mp h
  refine List.mem_map.mpr ⟨p, hp, ?_⟩
  split at e
  · exact absurd e one_ne_zero
  · rename_i x hx
    exact cellDensity_zero hS hI hp k k' _ _ e

theorem mixture_eq_zero {X : C.Tbl} {v : View C} (hI : Inv X v) (f : Tab → ENNReal) :
    mixture v f = 0 ↔ (∀ k ∈ occupied v, f k = 0) ∧ f (freshTab v) = 0 := by
  unfold mixture
  rw [add_eq_zero, Finset.sum_eq_zero_iff]
  constructor
  · rintro ⟨h1, h2⟩
    exact ⟨fun k hk => (mul_eq_zero.mp (h1 k hk)).resolve_left (prior_pos hI k),
      (mul_eq_zero.mp h2).resolve_left (prior_pos hI _)⟩
  · rintro ⟨h1, h2⟩
    exact ⟨fun k hk => by rw [h1 k hk, mul_zero], by rw [h2, mul_zero]⟩

theorem mixture_zero_iff {X : C.Tbl} {v : View C} (hS : FixedSupport C) (hI : Inv X v)
    (D : Col → Option C.Cell) :
    (mixture v (fun k => rowDensity v k D) ≠ 0 → ∀ k, rowDensity v k D ≠ 0) ∧
    (mixture v (fun k => rowDensity v k D) = 0 → ∃ k, rowDensity v k D = 0) := by
  constructor
  · intro h k h0
    refine h ((mixture_eq_zero hI _).mpr ⟨fun k' _ => rowDensity_zero hS hI D k k' h0,
      rowDensity_zero hS hI D k _ h0⟩)
  · intro h
    exact ⟨_, ((mixture_eq_zero hI _).mp h).2⟩

end Cgpm.Props
