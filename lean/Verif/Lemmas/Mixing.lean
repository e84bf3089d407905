import Mathlib.Algebra.Order.BigOperators.Group.Finset
import Mathlib.Algebra.BigOperators.Ring.Finset
import Mathlib.Data.Real.Basic
import Mathlib.Tactic.Linarith
import Mathlib.Tactic.FieldSimp
import Mathlib.Tactic.Ring

/-! Convergence of chains on a finite set in which every point of positive weight can be reached from
everywhere. -/
namespace Cgpm.Mix

variable {ι : Type} {S : Finset ι} {W : ι → ℝ}

/-- The expected value of `f` for the weights `W` on `S`. -/
noncomputable def mean (S : Finset ι) (W f : ι → ℝ) : ℝ := (∑ x ∈ S, W x * f x) / ∑ x ∈ S, W x

/-- `P f x` is the expected value of `f` one step after `x`, and `W` is invariant. -/
structure IsStep (S : Finset ι) (W : ι → ℝ) (P : (ι → ℝ) → ι → ℝ) : Prop where
  lin : ∀ f g a b x, P (fun y => a * f y + b * g y) x = a * P f x + b * P g x
  const : ∀ c, ∀ x ∈ S, P (fun _ => c) x = c
  nonneg : ∀ f, (∀ x ∈ S, 0 ≤ f x) → ∀ x ∈ S, 0 ≤ P f x
  inv : ∀ f, ∑ x ∈ S, W x * P f x = ∑ x ∈ S, W x * f x

theorem mean_le (hW : ∀ x ∈ S, 0 ≤ W x) (hT : 0 < ∑ x ∈ S, W x) {f : ι → ℝ} {c : ℝ}
    (h : ∀ x ∈ S, 0 < W x → f x ≤ c) : mean S W f ≤ c := by
  rw [mean, div_le_iff₀ hT, Finset.mul_sum]
  refine Finset.sum_le_sum fun x hx => ?_
  rcases (hW x hx).lt_or_eq with h0 | h0
  · rw [mul_comm c]; exact mul_le_mul_of_nonneg_left (h x hx h0) h0.le
  · rw [← h0]; simp

theorem mean_lin (f g : ι → ℝ) (a b : ℝ) :
    mean S W (fun y => a * f y + b * g y) = a * mean S W f + b * mean S W g := by
  unfold mean
  rw [← mul_div_assoc, ← mul_div_assoc, ← add_div, Finset.mul_sum, Finset.mul_sum,
    ← Finset.sum_add_distrib]
  congr 1
  exact Finset.sum_congr rfl fun x _ => by ring

theorem mean_const (hT : 0 < ∑ x ∈ S, W x) (c : ℝ) : mean S W (fun _ => c) = c := by
  rw [mean, ← Finset.sum_mul, mul_comm, mul_div_assoc, div_self hT.ne', mul_one]

variable {P : (ι → ℝ) → ι → ℝ}

theorem IsStep.mean_eq (h : IsStep S W P) (f : ι → ℝ) : mean S W (P f) = mean S W f := by
  unfold mean; rw [h.inv]

theorem IsStep.mono (h : IsStep S W P) {f g : ι → ℝ} (hfg : ∀ x ∈ S, f x ≤ g x) {x : ι}
    (hx : x ∈ S) : P f x ≤ P g x := by
  have h1 := h.nonneg (fun y => 1 * g y + (-1) * f y)
    (fun y hy => by have := hfg y hy; linarith) x hx
  rw [h.lin] at h1
  linarith

/-- A step does not increase the distance to a constant. -/
theorem IsStep.bound (h : IsStep S W P) {f : ι → ℝ} {c D : ℝ} (hf : ∀ x ∈ S, |f x - c| ≤ D) :
    ∀ x ∈ S, |P f x - c| ≤ D := fun x hx => by
  have h1 := h.mono (f := f) (g := fun _ => c + D) (fun y hy => by
    have := (abs_le.mp (hf y hy)).2; linarith) hx
  have h2 := h.mono (f := fun _ => c - D) (g := f) (fun y hy => by
    have := (abs_le.mp (hf y hy)).1; linarith) hx
  rw [h.const _ x hx] at h1 h2
  exact abs_le.mpr ⟨by linarith, by linarith⟩

/-- A step that reaches each point of positive weight with probability at least `ε` contracts the
distance to the mean. -/
theorem IsStep.contract (h : IsStep S W P) (hW : ∀ x ∈ S, 0 ≤ W x) (hT : 0 < ∑ x ∈ S, W x)
    {ε : ℝ} (hε : 0 < ε) (hlow : ∀ x ∈ S, ∀ y ∈ S, 0 < W y → ∀ f, (∀ z ∈ S, 0 ≤ f z) →
      ε * f y ≤ P f x) {f : ι → ℝ} {D : ℝ} (hD : ∀ x ∈ S, |f x - mean S W f| ≤ D) :
    ∀ x ∈ S, |P f x - mean S W f| ≤ (1 - ε) * D := by
  have low : ∀ g : ι → ℝ, (∀ x ∈ S, - D ≤ g x - mean S W g) → ∀ x ∈ S,
      - ((1 - ε) * D) ≤ P g x - mean S W g := by
    intro g hg x hx
    set c := D - mean S W g with hc
    have hpos : ∀ y ∈ S, 0 ≤ 1 * g y + c * 1 := fun y hy => by have := hg y hy; linarith
    have h3 : mean S W (fun y => 1 * g y + c * 1) ≤ P (fun y => 1 * g y + c * 1) x / ε := by
      refine mean_le hW hT fun y hy hy0 => ?_
      rw [le_div_iff₀ hε, mul_comm]
      exact hlow x hx y hy hy0 (fun y => 1 * g y + c * 1) hpos
    rw [mean_lin g (fun _ => 1), h.lin g (fun _ => 1), mean_const hT, h.const _ x hx,
      le_div_iff₀ hε] at h3
    simp only [hc] at h3
    linarith
  intro x hx
  rw [abs_le]
  constructor
  · exact low f (fun y hy => (abs_le.mp (hD y hy)).1) x hx
  · have hneg : mean S W (fun y => (-1) * f y + 0 * f y) = - mean S W f := by
      rw [mean_lin]; ring
    have := low (fun y => (-1) * f y + 0 * f y) (fun y hy => by
      rw [hneg]; have := (abs_le.mp (hD y hy)).2; linarith) x hx
    rw [h.lin, hneg] at this
    linarith

/-- Finitely many positive bounds have a positive lower bound. -/
theorem exists_lower {α : Type} (T : Finset α) (Q : α → ℝ → Prop)
    (hmono : ∀ a ε ε', 0 < ε' → ε' ≤ ε → Q a ε → Q a ε') (h : ∀ a ∈ T, ∃ ε, 0 < ε ∧ Q a ε) :
    ∃ ε, 0 < ε ∧ ε ≤ 1 ∧ ∀ a ∈ T, Q a ε := by
  classical
  induction T using Finset.induction_on with
  | empty => exact ⟨1, one_pos, le_rfl, by simp⟩
  | insert a T _ ih =>
    obtain ⟨ε, h0, h1, h2⟩ := ih fun b hb => h b (by simp [hb])
    obtain ⟨δ, d0, d1⟩ := h a (by simp)
    refine ⟨min ε δ, lt_min h0 d0, (min_le_left _ _).trans h1, fun b hb => ?_⟩
    rcases Finset.mem_insert.mp hb with e | e
    · subst e; exact hmono _ _ _ (lt_min h0 d0) (min_le_right _ _) d1
    · exact hmono _ _ _ (lt_min h0 d0) (min_le_left _ _) (h2 b e)

end Cgpm.Mix
