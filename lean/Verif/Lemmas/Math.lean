import Verif.Model.Math
import Mathlib.Tactic.Linarith
import Mathlib.Tactic.Ring

/-! Facts about `pr`, `gammaln`. -/
namespace Cgpm

@[simp] theorem pr_coe (x : ℝ) : pr (x : LogP) = Real.exp x := rfl
@[simp] theorem pr_bot : pr ⊥ = 0 := rfl

theorem pr_nonneg (x : LogP) : 0 ≤ pr x := by
  induction x using WithBot.recBotCoe with
  | bot => simp
  | coe x => exact (Real.exp_pos x).le

@[simp] theorem pr_zero : pr 0 = 1 := by
  rw [← WithBot.coe_zero, pr_coe, Real.exp_zero]

theorem pr_add (x y : LogP) : pr (x + y) = pr x * pr y := by
  induction x using WithBot.recBotCoe with
  | bot => simp
  | coe x =>
    induction y using WithBot.recBotCoe with
    | bot => simp
    | coe y => rw [← WithBot.coe_add, pr_coe, pr_coe, pr_coe, Real.exp_add]

theorem pr_eq_zero_iff (x : LogP) : pr x = 0 ↔ x = ⊥ := by
  induction x using WithBot.recBotCoe with
  | bot => simp
  | coe x => simp

theorem pr_pos_iff (x : LogP) : 0 < pr x ↔ x ≠ ⊥ := by
  rw [ne_eq, ← pr_eq_zero_iff]
  exact ⟨fun h => h.ne', fun h => lt_of_le_of_ne (pr_nonneg x) (Ne.symm h)⟩

theorem pr_injective : Function.Injective pr := by
  intro x y h
  induction x using WithBot.recBotCoe with
  | bot => exact ((pr_eq_zero_iff y).mp (by simpa using h.symm)).symm
  | coe x =>
    induction y using WithBot.recBotCoe with
    | bot => exact (pr_eq_zero_iff _).mp (by simp at h)
    | coe y => simpa using h

theorem pr_sum (l : List LogP) : pr l.sum = (l.map pr).prod := by
  induction l with
  | nil => simp
  | cons a l ih => simp [pr_add, ih]

theorem exp_log_sub {a b : ℝ} (ha : 0 < a) (hb : 0 < b) :
    Real.exp (Real.log a - Real.log b) = a / b := by
  rw [Real.exp_sub, Real.exp_log ha, Real.exp_log hb]

theorem gammaln_add_one {x : ℝ} (hx : 0 < x) : gammaln (x + 1) = Real.log x + gammaln x := by
  unfold gammaln
  rw [Real.Gamma_add_one hx.ne', Real.log_mul hx.ne' (Real.Gamma_pos_of_pos hx).ne']

@[simp] theorem gammaln_one : gammaln 1 = 0 := by simp [gammaln]

theorem exp_gammaln {x : ℝ} (hx : 0 < x) : Real.exp (gammaln x) = Real.Gamma x := by
  rw [gammaln, Real.exp_log (Real.Gamma_pos_of_pos hx)]

end Cgpm
