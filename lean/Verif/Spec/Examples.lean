import Verif.Model.Examples
import Verif.Spec.NetDraws
import Verif.Spec.LogSpace
import Verif.Spec.MhDraws

/-! Specification vocabulary for C76. -/
namespace Cgpm.Examples
open Cgpm MeasureTheory ProbabilityTheory Classical Cgpm.Props
open scoped ENNReal

/-- SPEC. The density of the uniform law on an interval. -/
noncomputable def uniformDensity (low high x : ℝ) : ℝ≥0∞ :=
  if low ≤ x ∧ x ≤ high then (ENNReal.ofReal (high - low))⁻¹ else 0

/-- SPEC. The density of the normal law with mean `m` and deviation `s`. -/
noncomputable def normalDensity (m s x : ℝ) : ℝ≥0∞ := gaussianPDF m (Real.toNNReal (s ^ 2)) x

/-- SPEC. `TrollNormal`: a normal number whose mean and deviation are told by the inputs. -/
noncomputable def trollDensity (out i0 i1 : Nat) (x : Nat → ℝ) : ℝ≥0∞ :=
  normalDensity (x i0) (|x i1| + 1) (x out)

/-- SPEC. `ParabolaY`: the square of the input with either sign, and uniform noise. -/
noncomputable def parabolaDensity (out inp : Nat) (noise : ℝ) (x : Nat → ℝ) : ℝ≥0∞ :=
  (uniformDensity (x inp ^ 2 - noise) (x inp ^ 2 + noise) (x out)
    + uniformDensity (-(x inp ^ 2) - noise) (-(x inp ^ 2) + noise) (x out)) / 2

/-- SPEC. `SinY`: the cosine of the input, and uniform noise towards zero. -/
noncomputable def sinDensity (out inp : Nat) (noise : ℝ) (x : Nat → ℝ) : ℝ≥0∞ :=
  if Real.cos (x inp) < 0 then
    uniformDensity (Real.cos (x inp)) (Real.cos (x inp) + noise) (x out)
  else uniformDensity (Real.cos (x inp) - noise) (Real.cos (x inp)) (x out)

/-- SPEC. What an answer of `logpdf` is worth; an error is worth nothing. -/
noncomputable def worth : Except Exn Fl → ℝ≥0∞
  | .ok r => mass r
  | .error _ => 0

/-- SPEC. The law of the pair `x`, `z` of a `PieceWise` model given `y`: `z` is 0 with probability
`flip` and 1 otherwise, and `x` is normal around `y - 1` or `y + 1`. -/
noncomputable def pieceLaw (flip sigma y : ℝ) (g : ℝ → ℝ → ℝ≥0∞) : ℝ≥0∞ :=
  ENNReal.ofReal flip * (∫⁻ x, normalDensity (y - 1) sigma x * g x 0)
    + ENNReal.ofReal (1 - flip) * (∫⁻ x, normalDensity (y + 1) sigma x * g x 1)

/-- SPEC. The density of two standard normal numbers with correlation `c`. -/
noncomputable def normalPairDensity (c x y : ℝ) : ℝ≥0∞ :=
  ENNReal.ofReal (Real.exp (-(x ^ 2 - 2 * c * x * y + y ^ 2) / (2 * (1 - c ^ 2)))
    / (2 * Real.pi * Real.sqrt (1 - c ^ 2)))

/-- SPEC. The density of one coordinate of four dots: normal around -1 or around 1. -/
noncomputable def dotDensity (noise x : ℝ) : ℝ≥0∞ :=
  (normalDensity (-1) noise x + normalDensity 1 noise x) / 2

end Cgpm.Examples
