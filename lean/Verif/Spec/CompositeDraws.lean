import Verif.Model.CompositeDraws
import Verif.Spec.ViewDraws
import Verif.Spec.StateLogpdf

/-!
Specification vocabulary for C73: the joint law of a new row of a composite State.
-/
namespace Cgpm.Props
open Cgpm MeasureTheory
open scoped ENNReal
variable {P : Prim → Prop}

/-- SPEC. Variable `c` is the cluster variable of a view of the State. -/
def clusterOwner (s : State (catOf P)) (c : Nat) : Option (View (catOf P)) :=
  if 10 ^ 7 ≤ c then s.views.get? (c - 10 ^ 7) else none

/-- SPEC. What the density of a variable is a density of: for the columns of the State as in C70, for
the cluster variables counting the clusters, and `ν` for the variables of composed models. -/
noncomputable def rowBase (s : State (catOf P)) (ν : Nat → Measure ℝ) (c : Nat) : Measure ℝ :=
  if c ∈ s.outputs then colBase s c
  else match clusterOwner s c with
    | some v => clusterBase v
    | none => ν c

/-- SPEC. A State whose rows can be simulated: the numbers of its columns are below those of the
cluster variables, its columns have no inputs, and hyperparameters for which their types are defined. -/
structure SimState (s : State (catOf P)) : Prop where
  names : ∀ c ∈ s.outputs, c < 10 ^ 7
  plain : ∀ c d, s.dimFor c = .ok d → d.inputs = []
  proper : ProperCols s s.outputs

/-- SPEC. The densities of the components: those of the views, then those of the composed models. -/
noncomputable def rowDensities (s : State (catOf P)) (q : Nat → (Nat → ℝ) → ℝ≥0∞) (l : Nat) :
    (Nat → ℝ) → ℝ≥0∞ :=
  match s.views[l]? with
  | some e => clusterRowDensity e.2 (State.token e.1)
  | none => q (l - s.views.length)

/-- SPEC. A query about columns of the State. -/
structure OwnQuery (s : State (catOf P)) (targets : List Nat) (constraints : Dict Nat ℝ) : Prop where
  targets_nodup : targets.Nodup
  constraints_wf : constraints.keys.Nodup
  targets_own : ∀ c ∈ targets, c ∈ s.outputs
  constraints_own : ∀ c ∈ constraints.keys, c ∈ s.outputs
  disjoint : ∀ c ∈ targets, c ∉ constraints.keys

end Cgpm.Props
