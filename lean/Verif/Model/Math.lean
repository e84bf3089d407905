import Mathlib.Analysis.SpecialFunctions.Gamma.Basic
import Mathlib.Analysis.SpecialFunctions.Log.Basic
import Mathlib.Order.WithBot

/-
Numerical primitives.  Python floats are modelled by real numbers; the float
`-inf`, which the code uses as "log of zero probability", is the extra bottom
element of `WithBot ℝ`.
-/
namespace Cgpm

/-- A log probability / log density: a real, or `-inf` (written `⊥`). -/
abbrev LogP := WithBot ℝ

/-- `exp` of a log density: `exp(-inf) = 0`. -/
noncomputable def pr : LogP → ℝ
  | ⊥ => 0
  | (x : ℝ) => Real.exp x

/-- `scipy.special.gammaln` / `math.lgamma`. -/
noncomputable def gammaln (x : ℝ) : ℝ := Real.log (Real.Gamma x)

/-- `scipy.special.betaln`. -/
noncomputable def betaln (a b : ℝ) : ℝ := gammaln a + gammaln b - gammaln (a + b)

end Cgpm
