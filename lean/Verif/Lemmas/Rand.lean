import Verif.Spec.Rand
import Mathlib.Probability.Distributions.Gaussian.Real

/-!
Expected values of programs that draw random numbers.
-/
namespace Cgpm.Rand
open Cgpm MeasureTheory

variable {α β : Type}

theorem expect_bind (g : β → ℝ) (f : α → Rand β) (m : Rand α) :
    expect g (m.bind f) = expect (fun a => expect g (f a)) m := by
  induction m with
  | pure a => rfl
  | raise e => rfl
  | choice p k ih =>
    unfold bind expect
    exact Finset.sum_congr rfl fun i _ => by rw [ih i]
  | normal a b k ih =>
    unfold bind expect
    congr 1
    funext x
    rw [ih x]

theorem expect_mul_const (g : α → ℝ) (c : ℝ) (m : Rand α) :
    expect (fun a => g a * c) m = expect g m * c := by
  induction m with
  | pure a => rfl
  | raise e => unfold expect; ring
  | choice p k ih =>
    unfold expect
    rw [Finset.sum_mul]
    exact Finset.sum_congr rfl fun i _ => by rw [ih i, mul_assoc]
  | normal a b k ih =>
    unfold expect
    rw [← integral_mul_const]
    congr 1
    funext x
    rw [ih x, mul_assoc]

theorem expect_congr {g h : α → ℝ} (e : ∀ a, g a = h a) (m : Rand α) :
    expect g m = expect h m := by rw [funext e]

theorem expect_draw {p : List ℝ} (h0 : ∀ x ∈ p, 0 ≤ x) (h1 : p.sum = 1) (g : Nat → ℝ) :
    expect g (draw p) = ∑ i ∈ Finset.range p.length, p.getD i 0 * g i := by
  unfold draw
  rw [if_pos ⟨h0, h1⟩]
  rfl

/-- A product of functions of the elements of a list, zero if the length is another one. -/
noncomputable def prodFn : List (β → ℝ) → List β → ℝ
  | [], [] => 1
  | g :: gs, b :: bs => g b * prodFn gs bs
  | _, _ => 0

theorem prodFn_cons (g : β → ℝ) (gs : List (β → ℝ)) (b : β) (bs : List β) :
    prodFn (g :: gs) (b :: bs) = g b * prodFn gs bs := rfl

/-- Draws for the elements of a list are independent. -/
theorem expect_traverse (f : α → Rand β) (gs : List (β → ℝ)) (l : List α) :
    expect (prodFn gs) (traverse f l) = prodFn (gs.map fun g a => expect g (f a)) l := by
  induction l generalizing gs with
  | nil =>
    cases gs <;> rfl
  | cons a t ih =>
    unfold traverse
    rw [expect_bind]
    cases gs with
    | nil =>
      have : ∀ b, expect (prodFn ([] : List (β → ℝ))) ((traverse f t).bind fun bs => pure (b :: bs))
          = (fun _ => (0 : ℝ) * 0) b := fun b => by
        rw [expect_bind]
        rw [expect_congr (h := fun _ => 0 * 0) (fun bs => by simp [expect, prodFn])]
        rw [expect_mul_const, mul_zero, mul_zero]
      rw [expect_congr this, expect_mul_const, mul_zero]
      rfl
    | cons g gs =>
      have : ∀ b, expect (prodFn (g :: gs)) ((traverse f t).bind fun bs => pure (b :: bs))
          = g b * prodFn (gs.map fun g a => expect g (f a)) t := fun b => by
        rw [expect_bind, ← ih gs]
        rw [expect_congr (h := fun bs => prodFn gs bs * g b) (fun bs => by
          change prodFn (g :: gs) (b :: bs) = _
          rw [prodFn_cons, mul_comm])]
        rw [expect_mul_const, mul_comm]
      rw [expect_congr this, expect_mul_const]
      rfl

theorem prodFn_map {γ : Type} (gs : List (β → ℝ)) (h : γ → β) (l : List γ) :
    prodFn gs (l.map h) = prodFn (gs.map fun g c => g (h c)) l := by
  induction l generalizing gs with
  | nil => cases gs <;> rfl
  | cons a t ih =>
    cases gs with
    | nil => rfl
    | cons g gs => simp only [List.map_cons, prodFn_cons, ih]

theorem prodFn_const (gs : List (β → ℝ)) {l : List β} {c : β} (hl : l.length = gs.length)
    (h : ∀ b ∈ l, b = c) : prodFn gs l = (gs.map fun g => g c).prod := by
  induction l generalizing gs with
  | nil =>
    cases gs with
    | nil => rfl
    | cons g gs => simp at hl
  | cons a t ih =>
    cases gs with
    | nil => simp at hl
    | cons g gs =>
      rw [prodFn_cons, ih gs (by simpa using hl) fun b hb => h b (List.mem_cons_of_mem _ hb),
        h a List.mem_cons_self]
      simp

theorem normalDensity_eq (m : ℝ) {s : ℝ} (hs : 0 < s) (x : ℝ) :
    normalDensity m s x = ProbabilityTheory.gaussianPDFReal m (NNReal.mk (s ^ 2) (sq_nonneg s)) x := by
  unfold normalDensity ProbabilityTheory.gaussianPDFReal
  rw [NNReal.coe_mk, show 2 * Real.pi * s ^ 2 = s ^ 2 * (2 * Real.pi) by ring,
    Real.sqrt_mul (sq_nonneg s), Real.sqrt_sq hs.le, div_eq_mul_inv, mul_comm]

theorem integral_normalDensity (m : ℝ) {s : ℝ} (hs : 0 < s) : ∫ x, normalDensity m s x = 1 := by
  rw [show normalDensity m s = ProbabilityTheory.gaussianPDFReal m (NNReal.mk (s ^ 2) (sq_nonneg s)) from
    funext (normalDensity_eq m hs)]
  exact ProbabilityTheory.integral_gaussianPDFReal_eq_one m (by
    intro h
    have := congrArg NNReal.toReal h
    simp at this
    exact hs.ne' this)

theorem integrable_normalDensity (m : ℝ) {s : ℝ} (hs : 0 < s) :
    Integrable (normalDensity m s) := by
  rw [show normalDensity m s = ProbabilityTheory.gaussianPDFReal m (NNReal.mk (s ^ 2) (sq_nonneg s)) from
    funext (normalDensity_eq m hs)]
  exact ProbabilityTheory.integrable_gaussianPDFReal _ _

theorem normalDensity_pos (m : ℝ) {s : ℝ} (hs : 0 < s) (x : ℝ) : 0 < normalDensity m s x := by
  unfold normalDensity
  have : 0 < Real.sqrt (2 * Real.pi) := Real.sqrt_pos.mpr (by positivity)
  positivity

end Cgpm.Rand
