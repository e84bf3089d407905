import Verif.Model.MhDraws

/-
`rejection_sample` as a program that draws numbers, src/utils/sampling.py:236-280.

Simplifications: as in Model/Samplers (the loop runs with a bound on the number of its iterations and
returns `none` when it is too small; a list of samples is returned; the densities are numbers).
-/
namespace Cgpm.Sampler
open Cgpm Classical MeasureTheory

/-- src/utils/sampling.py:262-275: the loop of `rejection_sample`. -/
noncomputable def rejLoopDraws (target proposal : ℝ → ℝ) (draw : Draws ℝ) (N : Nat) :
    Nat → List ℝ → Draws (Option (List ℝ))
  | n, samples =>
    if N ≤ samples.length then .pure (some samples)
    else
      match n with
      | 0 => .pure none
      | n + 1 => draw.bind fun x => .draw (npUniform 0 1) fun u =>
          if proposal x < target x then .raise .assertion
          else if u * proposal x < target x then
            rejLoopDraws target proposal draw N n (samples ++ [x])
          else rejLoopDraws target proposal draw N n samples

/-- src/utils/sampling.py:236-280 `rejection_sample`; `draw` is `proposal_draw_fn`. -/
noncomputable def rejectionSampleDraws (target proposal : ℝ → ℝ) (draw : Draws ℝ) (N n : Nat) :
    Draws (Option (List ℝ)) :=
  rejLoopDraws target proposal draw N n []

end Cgpm.Sampler
