import Verif.Model.MhDraws
import Verif.Spec.PrimSimulate

/-!
Specification vocabulary for C75: a random move that leaves a density invariant.
-/
namespace Cgpm.Sampler
open Cgpm MeasureTheory
open scoped ENNReal

/-- SPEC. `move x g` is the expected value of `g` at the point to which a random move takes `x`. The
move leaves the density `p` on `D` invariant: if `x` is drawn with density `p`, then so is the point
to which it moves. -/
def Invariant (D : Domain) (p : ℝ → ℝ≥0∞) (move : ℝ → (ℝ → ℝ≥0∞) → ℝ≥0∞) : Prop :=
  ∀ g : ℝ → ℝ≥0∞, Measurable g →
    ∫⁻ x in {x | D.inside x}, p x * move x g = ∫⁻ x in {x | D.inside x}, p x * g x

/-- SPEC. The density whose logarithm is `l`. -/
noncomputable def density (l : ℝ → ℝ) (x : ℝ) : ℝ≥0∞ := ENNReal.ofReal (Real.exp (l x))

/-- SPEC. One iteration of `mh_sample` at the point `x` of log density `l x`, the other variables of
the loop being those of `s`: the expected value of `g` at the next point. -/
noncomputable def iteration (A : MhArgs) (l : ℝ → ℝ) (s : MhState) (x : ℝ) (g : ℝ → ℝ≥0∞) : ℝ≥0∞ :=
  (mhStepDraws A { s with x := x, logp := .fin (l x) }).E fun s' => g s'.x

/-- SPEC. The log density that `mh_sample` was given is the function `l` on the domain. -/
def Targets (A : MhArgs) (l : ℝ → ℝ) : Prop :=
  Measurable l ∧ ∀ x, A.D.inside x → A.f x = .ok (.fin (l x))

/-- SPEC. The chance that a normal draw around `x` of deviation `j` falls inside the domain. -/
noncomputable def hit (D : Domain) (x j : ℝ) : ℝ≥0∞ := npNormal x j {y | D.inside y}

/-- SPEC. The expected number of trials, of at most `n`, that are made. -/
noncomputable def tries (D : Domain) (j : ℝ) (n : ℕ) (x : ℝ) : ℝ≥0∞ :=
  ∑ k ∈ Finset.range n, (1 - hit D x j) ^ k

/-- SPEC. The expected value of `g` at the one sample of a run that asked for one. -/
noncomputable def oneSample (g : ℝ → ℝ≥0∞) : Option (List ℝ) → ℝ≥0∞
  | some [y] => g y
  | _ => 0

/-- SPEC. With probability one the program returns a value of which `P` holds, or raises an error of
which `R` holds. -/
def Surely {α : Type} (R : Exn → Prop) (P : α → Prop) : Draws α → Prop
  | .pure a => P a
  | .raise e => R e
  | .draw law k => ∀ᵐ x ∂law, Surely R P (k x)

end Cgpm.Sampler
