import Verif.Model.MutualDraws
import Verif.Spec.BatchDraws

/-!
Specification vocabulary for C80: estimates by the mean of independent draws.
-/
namespace Cgpm.Props
open Cgpm MeasureTheory
open scoped ENNReal

/-- SPEC. `g` of an answer that is a finite number, and 0 otherwise. -/
def onNumber (g : ℝ → ℝ≥0∞) : Fl → ℝ≥0∞
  | .fin a => g a
  | _ => 0

/-- SPEC. The answer of the program is distributed as the mean of `h` over `N` independent draws from
`ν`.  (With `g = 1`: the answer is a finite number with probability one.) -/
def Estimates {X : Type} [MeasurableSpace X] (ν : Measure X) (h : X → ℝ) (N : Nat) (m : Draws Fl) :
    Prop :=
  ∀ g : ℝ → ℝ≥0∞, Measurable g →
    m.E (onNumber g) = ∫⁻ x : Fin N → X, g ((∑ i, h (x i)) / N) ∂Measure.pi fun _ => ν

/-- SPEC. The probability that the program returns a number that is `ε` or more away from `a`. -/
noncomputable def farFrom (a ε : ℝ) (m : Draws Fl) : ℝ≥0∞ :=
  m.E (onNumber ({y | ε ≤ |y - a|}.indicator 1))

end Cgpm.Props
