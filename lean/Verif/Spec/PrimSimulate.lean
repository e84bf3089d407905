import Verif.Model.PrimSimulate
import Mathlib.MeasureTheory.Integral.Lebesgue.Basic

/-!
Specification vocabulary for C69: the law of what a program returns.
-/
namespace Cgpm
open Cgpm MeasureTheory
open scoped ENNReal

/-- SPEC. The expected value of `g` of the answer; a program that raises contributes 0.  With `g` the
indicator of a set this is the probability that the program returns an answer in the set. -/
noncomputable def Draws.E {α : Type} (g : α → ℝ≥0∞) : Draws α → ℝ≥0∞
  | .pure a => g a
  | .raise _ => 0
  | .draw law k => ∫⁻ x, E g (k x) ∂law

open Classical in
/-- SPEC. The probability that the program raises `e`. -/
noncomputable def Draws.fails {α : Type} (e : Exn) : Draws α → ℝ≥0∞
  | .pure _ => 0
  | .raise e' => if e' = e then 1 else 0
  | .draw law k => ∫⁻ x, fails e (k x) ∂law

/-- SPEC. What a density of the component is a density of: counting measure on the natural numbers
for the types with whole values, length for the others. -/
noncomputable def Prim.base : Prim → Measure ℝ
  | .bernoulli | .categorical _ | .geometric | .poisson =>
      Measure.sum fun n : ℕ => Measure.dirac (n : ℝ)
  | _ => volume

/-- SPEC. The modified Bessel function of order zero, by its integral. -/
noncomputable def besselI0 (z : ℝ) : ℝ :=
  (∫ t in (-Real.pi)..Real.pi, Real.exp (z * Real.cos t)) / (2 * Real.pi)

/-- SPEC. Parameters that `set_hypers` leaves unchecked: a categorical has a value; the concentration
of a von Mises is positive, and what the code takes for the logarithm of the Bessel function is that;
the parameters of a beta are in range.  (For the truncated normal see `C69_trunc`.) -/
def Prim.Proper : (p : Prim) → p.H → Prop
  | .categorical k, _ => 0 < k
  | .vonmises logI0, h => (∀ z, logI0 z = Real.log (besselI0 z)) ∧ 0 < VonmisesH.k h
  | .beta _, h => 0 < BetaP.strength h ∧ 0 < BetaP.balance h ∧ BetaP.balance h < 1
  | .normalTrunc .., _ => False
  | _, _ => True

end Cgpm
