import Verif.Model.SliceDraws
import Verif.Spec.MhDraws
import Verif.Spec.LogSpace

/-!
Specification vocabulary for C81: the moves of the slice sampler.
-/
namespace Cgpm.Sampler
open Cgpm MeasureTheory
open scoped ENNReal

/-- SPEC. The density whose logarithm the function returns; where it raises there is no mass. -/
noncomputable def densityOf (f : ℝ → Except Exn Fl) (y : ℝ) : ℝ≥0∞ :=
  match f y with
  | .ok q => Props.mass q
  | .error _ => 0

/-- SPEC. What is asked of the log density: measurable, and not `+inf` inside the domain. (It may be
`-inf`, and it may raise.) -/
structure SliceTarget (A : SliceArgs) : Prop where
  density : Measurable (densityOf A.f)
  returns : MeasurableSet {y | ∃ q, A.f y = .ok q}
  finite : ∀ y, A.D.inside y → densityOf A.f y ≠ ⊤

/-- SPEC. `g` at the next point, if there is one. -/
def atNext (g : ℝ → ℝ≥0∞) : Option ℝ → ℝ≥0∞
  | some y => g y
  | none => 0

/-- SPEC. The expected value of `g` at the point to which one iteration of `slice_sample` takes `x`;
runs that raise or never end count 0. -/
noncomputable def sliceNext (A : SliceArgs) (x : ℝ) (g : ℝ → ℝ≥0∞) : ℝ≥0∞ :=
  ⨆ n, (sliceMoveDraws A n x).E (atNext g)

/-- SPEC. The expected value of `g` at the sample that a whole run of `slice_sample` from `x` returns,
if one was asked for; runs that raise or never end count 0. -/
noncomputable def sliceResult (A : SliceArgs) (x : ℝ) (g : ℝ → ℝ≥0∞) : ℝ≥0∞ :=
  ⨆ m, ⨆ n, (sliceSampleDraws A (.pure x) m n).E (oneSample g)

/-- SPEC. The product of the functions at the samples, one function for each sample. -/
noncomputable def prodOf : List (ℝ → ℝ≥0∞) → List ℝ → ℝ≥0∞
  | [], [] => 1
  | g :: gs, y :: ys => g y * prodOf gs ys
  | _, _ => 0

/-- SPEC. The product at the list of samples, if one is returned. -/
noncomputable def atRun (gs : List (ℝ → ℝ≥0∞)) : Option (List ℝ) → ℝ≥0∞
  | some ys => prodOf gs ys
  | none => 0

/-- SPEC. The expected value of the product of the functions `gs` at the samples that a whole run of
`slice_sample` from `x` returns; runs that raise or never end count 0. -/
noncomputable def sliceRun (A : SliceArgs) (x : ℝ) (gs : List (ℝ → ℝ≥0∞)) : ℝ≥0∞ :=
  ⨆ m, ⨆ n, (sliceSampleDraws A (.pure x) m n).E (atRun gs)

/-- SPEC. `g` at the sample number `i` (from 0), if there is one. -/
noncomputable def atNth (i : Nat) (g : ℝ → ℝ≥0∞) : Option (List ℝ) → ℝ≥0∞
  | some ys => match ys[i]? with
    | some y => g y
    | none => 0
  | none => 0

/-- SPEC. The expected value of `g` at the sample number `i` that a whole run of `slice_sample` from `x`
returns; runs that raise or never end count 0. -/
noncomputable def sliceNth (A : SliceArgs) (i : Nat) (x : ℝ) (g : ℝ → ℝ≥0∞) : ℝ≥0∞ :=
  ⨆ m, ⨆ n, (sliceSampleDraws A (.pure x) m n).E (atNth i g)

/-- SPEC. The expected value of `g` after `lag` iterations. -/
noncomputable def lagNext (A : SliceArgs) (g : ℝ → ℝ≥0∞) : ℝ → ℝ≥0∞ :=
  (fun h x => sliceNext A x h)^[A.lag] g

/-- SPEC. The expected value of the product of the functions at the points to which `lag`, twice `lag`,
… iterations take `x`. -/
noncomputable def chainMean (A : SliceArgs) : List (ℝ → ℝ≥0∞) → ℝ → ℝ≥0∞
  | [] => fun _ => 1
  | g :: gs => lagNext A fun y => g y * chainMean A gs y

end Cgpm.Sampler
