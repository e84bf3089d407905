import Verif.Model.RejectDraws
import Verif.Spec.BatchDraws

/-!
Specification vocabulary for C82: the samples of `rejection_sample`.
-/
namespace Cgpm.Sampler
open Cgpm MeasureTheory Props
open scoped ENNReal

/-- SPEC. `F` of the list of samples, if there is one. -/
def atSamples (F : List ℝ → ℝ≥0∞) : Option (List ℝ) → ℝ≥0∞
  | some l => F l
  | none => 0

/-- SPEC. The expected value of `F` at the samples that `rejection_sample` returns; runs that raise or
never end count 0. -/
noncomputable def rejected (target proposal : ℝ → ℝ) (draw : Draws ℝ) (N : Nat)
    (F : List ℝ → ℝ≥0∞) : ℝ≥0∞ :=
  ⨆ n, (rejectionSampleDraws target proposal draw N n).E (atSamples F)

/-- SPEC. The law with the density `p` with respect to `base`, up to a constant. -/
noncomputable def lawWith (base : Measure ℝ) (p : ℝ → ℝ) : Measure ℝ :=
  (∫⁻ x, ENNReal.ofReal (p x) ∂base)⁻¹ • base.withDensity fun x => ENNReal.ofReal (p x)

end Cgpm.Sampler
