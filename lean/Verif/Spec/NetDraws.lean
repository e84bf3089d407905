import Verif.Model.NetDraws
import Verif.Spec.Network
import Verif.Spec.PrimSimulate
import Mathlib.MeasureTheory.Integral.Marginal

/-!
Specification vocabulary for C71: the joint density of a network and the laws of its components.
A point `x : Nat → ℝ` gives a value to every variable; `μ v` is what densities of variable `v` are
densities of (length, or a counting measure).
-/
namespace Cgpm.Net
open Cgpm MeasureTheory
open scoped ENNReal
variable {R Ω : Type}

/-- SPEC. The values `x` of all variables, with those of the dict in their place. -/
def fillWith (x : Nat → ℝ) (d : Dict Nat ℝ) : Nat → ℝ := fun v => (d.get? v).getD (x v)

/-- SPEC. The values `x` of the variables `S`, as a component sees them. -/
def lookAt (S : Finset Nat) (x : Nat → ℝ) : Look ℝ := fun v => if v ∈ S then some (x v) else none

/-- SPEC. The density of the outputs in `S` of a component whose outputs are `outs` and whose joint
density, given its inputs, is `p`: the other outputs are integrated out. -/
noncomputable def outDensity (μ : Nat → Measure ℝ) (outs : List Nat) (p : (Nat → ℝ) → ℝ≥0∞)
    (S : Finset Nat) : (Nat → ℝ) → ℝ≥0∞ := ∫⋯∫⁻_(outs.toFinset \ S), p ∂μ

/-- SPEC. The component `c`, whose `simulate` makes the draws `draw`, has the density `p`: `p` is a
density of its outputs given its inputs (and nothing else), `logpdf` reports the density of any of its
outputs, and `simulate` draws any of them from its conditional density given any others (if that is
defined). -/
structure Behaves (μ : Nat → Measure ℝ) (rowid : R) (c : NetCgpm R ℝ Ω)
    (draw : R → List Nat → Look ℝ → Look ℝ → Draws Ω) (p : (Nat → ℝ) → ℝ≥0∞) : Prop where
  measurable : Measurable p
  scope : ∀ x y : Nat → ℝ, (∀ v, v ∈ c.outputs ∨ v ∈ c.inputs → x v = y v) → p x = p y
  total : ∀ x, (∫⋯∫⁻_c.outputs.toFinset, p ∂μ) x = 1
  logpdf : ∀ S : Finset Nat, S ⊆ c.outputs.toFinset → S.Nonempty → ∀ x, ∃ w,
    c.logpdf rowid (lookAt S x) (lookAt c.inputs.toFinset x) = .ok w ∧
      ENNReal.ofReal (pr w) = outDensity μ c.outputs p S x
  simulate : ∀ (S : Finset Nat) (ts : List Nat), S ⊆ c.outputs.toFinset → ts.Nodup → ts ≠ [] →
    (∀ t ∈ ts, t ∈ c.outputs ∧ t ∉ S) → ∀ x, outDensity μ c.outputs p S x ≠ 0 →
    ∀ g : (Nat → ℝ) → ℝ≥0∞, Measurable g →
      ((draw rowid ts (lookAt S x) (lookAt c.inputs.toFinset x)).bind fun ω => Draws.ofExcept
          (c.simulate ω rowid ts (lookAt S x) (lookAt c.inputs.toFinset x))).E
            (fun d => g (fillWith x d)) * outDensity μ c.outputs p S x
        = (∫⋯∫⁻_ts.toFinset, (fun y => g y * outDensity μ c.outputs p (S ∪ ts.toFinset) y) ∂μ) x

/-- SPEC. All the variables that components produce. -/
def allOutputs (cgpms : List (NetCgpm R ℝ Ω)) : Finset Nat :=
  (cgpms.flatMap NetCgpm.outputs).toFinset

/-- SPEC. The joint density of the variables of a network: the product of the densities of its
components, `p l` being that of component number `l`. -/
noncomputable def jointDensity (cgpms : List (NetCgpm R ℝ Ω)) (p : Nat → (Nat → ℝ) → ℝ≥0∞)
    (x : Nat → ℝ) : ℝ≥0∞ := ∏ l ∈ Finset.range cgpms.length, p l x

/-- SPEC. What the values of the variables `S` are worth, given those of the others: the product, over
the components, of the density of its outputs in `S` given its inputs. -/
noncomputable def evidenceWeight (μ : Nat → Measure ℝ) (cgpms : List (NetCgpm R ℝ Ω))
    (p : Nat → (Nat → ℝ) → ℝ≥0∞) (S : Finset Nat) (x : Nat → ℝ) : ℝ≥0∞ :=
  (cgpms.zipIdx.map fun q => outDensity μ q.1.outputs (p q.2) S x).prod

/-- SPEC. The components that take part in the query get a value for each of their inputs. -/
def Supplied (cgpms : List (NetCgpm R ℝ Ω)) (targets : List Nat) (constraints inputs : Dict Nat ℝ) :
    Prop :=
  ∀ c ∈ cgpms, Active cgpms (· ∈ targets) (· ∈ constraints.keys) c → ∀ v ∈ c.inputs,
    Produced cgpms v ∨ v ∈ constraints.keys ∨ v ∈ inputs.keys

/-- SPEC. The function `g` looks only at variables the query needs, at constrained ones, and at those
no component produces. -/
def Concerns (cgpms : List (NetCgpm R ℝ Ω)) (targets : List Nat) (constraints : Dict Nat ℝ)
    (g : (Nat → ℝ) → ℝ≥0∞) : Prop :=
  ∀ y z : Nat → ℝ, (∀ v, (Produced cgpms v → v ∈ constraints.keys ∨
    Needed cgpms (· ∈ targets) (· ∈ constraints.keys) v) → y v = z v) → g y = g z

/-- SPEC. Whatever the values of the other variables, the constraints have positive density. -/
def Possible (μ : Nat → Measure ℝ) (cgpms : List (NetCgpm R ℝ Ω)) (p : Nat → (Nat → ℝ) → ℝ≥0∞)
    (constraints : Dict Nat ℝ) : Prop :=
  ∀ x : Nat → ℝ, evidenceWeight μ cgpms p constraints.keys.toFinset (fillWith x constraints) ≠ 0

/-- SPEC. Components with constrained outputs have no random inputs: each of their inputs that some
component produces is constrained as well. -/
def Settled (cgpms : List (NetCgpm R ℝ Ω)) (constraints : Dict Nat ℝ) : Prop :=
  ∀ c ∈ cgpms, (∃ o ∈ c.outputs, o ∈ constraints.keys) →
    ∀ i ∈ c.inputs, Produced cgpms i → i ∈ constraints.keys

/-- SPEC. The integral of `g` times the joint density over the variables that are not constrained,
those that are constrained being held at their values. -/
noncomputable def heldIntegral (μ : Nat → Measure ℝ) (cgpms : List (NetCgpm R ℝ Ω))
    (p : Nat → (Nat → ℝ) → ℝ≥0∞) (constraints : Dict Nat ℝ) (x : Nat → ℝ) (g : (Nat → ℝ) → ℝ≥0∞) :
    ℝ≥0∞ :=
  (∫⋯∫⁻_(allOutputs cgpms \ constraints.keys.toFinset), (fun y => g y * jointDensity cgpms p y) ∂μ)
    (fillWith x constraints)

/-- SPEC. The marginal density of the constraints. -/
noncomputable def evidenceDensity (μ : Nat → Measure ℝ) (cgpms : List (NetCgpm R ℝ Ω))
    (p : Nat → (Nat → ℝ) → ℝ≥0∞) (constraints : Dict Nat ℝ) (x : Nat → ℝ) : ℝ≥0∞ :=
  heldIntegral μ cgpms p constraints x fun _ => 1

/-- SPEC. The expected value of `g` under the conditional density given the constraints. -/
noncomputable def conditionalMean (μ : Nat → Measure ℝ) (cgpms : List (NetCgpm R ℝ Ω))
    (p : Nat → (Nat → ℝ) → ℝ≥0∞) (constraints : Dict Nat ℝ) (x : Nat → ℝ) (g : (Nat → ℝ) → ℝ≥0∞) :
    ℝ≥0∞ :=
  heldIntegral μ cgpms p constraints x g / evidenceDensity μ cgpms p constraints x

/-- SPEC. The second moment of the importance weight. -/
noncomputable def weightMoment (μ : Nat → Measure ℝ) (cgpms : List (NetCgpm R ℝ Ω))
    (p : Nat → (Nat → ℝ) → ℝ≥0∞) (constraints : Dict Nat ℝ) (x : Nat → ℝ) : ℝ≥0∞ :=
  heldIntegral μ cgpms p constraints x (evidenceWeight μ cgpms p constraints.keys.toFinset)

end Cgpm.Net
