import Verif.Model.Rand
import Mathlib.MeasureTheory.Integral.Bochner.Basic
import Mathlib.MeasureTheory.Measure.Lebesgue.Basic
import Mathlib.Analysis.SpecialFunctions.Exp
import Mathlib.Analysis.SpecialFunctions.Trigonometric.Basic

/-!
Specification vocabulary for C65, C66: what a program that draws random numbers does on average.
-/
namespace Cgpm.Rand
open Cgpm MeasureTheory

/-- SPEC. The density of the normal distribution with mean `m` and standard deviation `s`. -/
noncomputable def normalDensity (m s x : ℝ) : ℝ :=
  Real.exp (-(x - m) ^ 2 / (2 * s ^ 2)) / (s * Real.sqrt (2 * Real.pi))

/-- SPEC. The expected value of `g` of the answer (0 if the program raises): draws of
`rng.choice(len(p), p=p)` have probabilities `p`, those of `rng.normal` have the normal density, and all
draws are independent. -/
noncomputable def expect {α : Type} (g : α → ℝ) : Rand α → ℝ
  | pure a => g a
  | raise _ => 0
  | choice p k => ∑ i ∈ Finset.range p.length, p.getD i 0 * expect g (k i)
  | normal m s k => ∫ x, normalDensity m s x * expect g (k x)

/-- SPEC. The program ends with an answer that satisfies `P`, whatever it draws. -/
def Surely {α : Type} (P : α → Prop) : Rand α → Prop
  | pure a => P a
  | raise _ => False
  | choice p k => ∀ i < p.length, Surely P (k i)
  | normal _ _ k => ∀ x, Surely P (k x)

open Classical in
/-- SPEC. The probability that the program returns an answer in `E`. -/
noncomputable def prob {α : Type} (E : α → Prop) (p : Rand α) : ℝ :=
  expect (fun a => if E a then 1 else 0) p

end Cgpm.Rand
