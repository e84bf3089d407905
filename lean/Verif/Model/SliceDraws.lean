import Verif.Model.MhDraws

/-
`slice_sample` as a program that draws numbers, src/utils/sampling.py:146-234.

Simplifications: as in Model/Samplers (loops run with a bound on the number of their iterations and
return `none` when it is too small; a list of samples is returned). The interval from which a point is
drawn is not empty.
-/
namespace Cgpm.Sampler
open Cgpm Classical MeasureTheory

/-- src/utils/sampling.py:191-200: the loop that shrinks the interval, with `n + 1` trials to go. -/
noncomputable def shrinkDraws (f : ℝ → Except Exn Fl) (u : Fl) (x : ℝ) :
    Nat → ℝ → ℝ → Draws (Option ℝ)
  | n, a, b => .draw (npUniform a b) fun y =>
      match f y with
      | .error e => .raise e
      | .ok q =>
        if u.lt q then .pure (some y)
        else
          match n with
          | 0 => .pure none
          | n + 1 => if x < y then shrinkDraws f u x n a y else shrinkDraws f u x n y b

/-- src/utils/sampling.py:187-200: one move. -/
noncomputable def sliceMoveDraws (A : SliceArgs) (n : Nat) (x : ℝ) : Draws (Option ℝ) :=
  .draw (npUniform 0 1) fun v =>
    match Fl.log (.fin v) with
    | .error e => .raise e
    | .ok lu =>
      match A.f x with
      | .error e => .raise e
      | .ok y => .draw (npUniform 0 1) fun r =>
          match findSliceInterval A.f r x (lu.add y) A.D A.w n with
          | none => .pure none
          | some (.error e) => .raise e
          | some (.ok (a, b)) => shrinkDraws A.f (lu.add y) x n a b

/-- src/utils/sampling.py:185-203: the loop; `i` is `num_iters`, `m` bounds the inner loops. -/
noncomputable def sliceLoopDraws (A : SliceArgs) (m : Nat) :
    Nat → Nat → ℝ → List ℝ → Draws (Option (List ℝ))
  | n, i, x, samples =>
    if A.num ≤ samples.length then .pure (some samples)
    else
      match n with
      | 0 => .pure none
      | n + 1 => (sliceMoveDraws A m x).bind fun o =>
        match o with
        | none => .pure none
        | some x' =>
          if A.burn ≤ i + 1 then
            if A.lag = 0 then .raise .zeroDivision
            else if (i + 1) % A.lag = 0 then sliceLoopDraws A m n (i + 1) x' (samples ++ [x'])
            else sliceLoopDraws A m n (i + 1) x' samples
          else sliceLoopDraws A m n (i + 1) x' samples

/-- src/utils/sampling.py:146-208 `slice_sample`. -/
noncomputable def sliceSampleDraws (A : SliceArgs) (proposal : Draws ℝ) (m n : Nat) :
    Draws (Option (List ℝ)) :=
  proposal.bind fun x => sliceLoopDraws A m n 0 x []

end Cgpm.Sampler
