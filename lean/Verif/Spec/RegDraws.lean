import Verif.Model.RegDraws
import Verif.Spec.NetDraws
import Verif.Spec.LinReg
import Verif.Spec.Forest

/-! Specification vocabulary for C74. -/
namespace Cgpm
open Matrix MeasureTheory
open scoped ENNReal

/-- SPEC. The generator takes a square root of a covariance matrix. -/
def Root.Good (factor : Root) : Prop :=
  ∀ (n : Nat) (S : Matrix (Fin n) (Fin n) ℝ), S.PosSemidef → factor n S * (factor n S)ᵀ = S

namespace Spec

/-- SPEC. The covariates of a row with numerical inputs: the constant 1, and the values of the inputs. -/
def LinReg.covariates {p : Nat} (inputs : List Col) (x : Nat → ℝ) : Fin p → ℝ :=
  fun j => (1 :: inputs.map x).getD j 0

/-- SPEC. The density of the output of a linear regression given its inputs, after the rows `R`: the
ratio of the marginal densities with and without the new row. -/
noncomputable def LinReg.outputDensity {p : Nat} (h : LinReg.Hyp p) (R : List (ℝ × (Fin p → ℝ)))
    (out : Col) (inputs : List Col) (x : Nat → ℝ) : ℝ≥0∞ :=
  ENNReal.ofReal (LinReg.evidence h ((x out, LinReg.covariates inputs x) :: R) / LinReg.evidence h R)

/-- SPEC. The joint density of the variables of a factor analysis. -/
noncomputable def Factor.outputDensity (f : Factor) (x : Nat → ℝ) : ℝ≥0∞ :=
  ENNReal.ofReal (Factor.density f (f.outputs.map fun v => (v, x v)))

/-- SPEC. The counting measure of the categories `0, .., k - 1`. -/
noncomputable def categoryBase (k : Nat) : Measure ℝ := ∑ j ∈ Finset.range k, Measure.dirac (j : ℝ)

/-- SPEC. The probability of the category of a random forest given its inputs; what is not a category
has probability zero.  The inputs are taken by increasing column. -/
noncomputable def Forest.outputDensity (o : RForest) (x : Nat → ℝ) : ℝ≥0∞ :=
  ∑ j ∈ Finset.range o.g.k, if x o.g.output = j then
    ENNReal.ofReal (Forest.density o ((o.g.inputs.mergeSort (· ≤ ·)).map x) j) else 0

/-- SPEC. The probabilities that the forest gives are measurable functions of the inputs. -/
def Forest.Regular (o : RForest) : Prop :=
  ∀ c, o.clf = some c → ∀ i, Measurable fun y : Fin o.g.p → ℝ => (c.proba (List.ofFn y)).getD i 0

/-- SPEC. A linear regression with numerical inputs, a factor analysis or a random forest, and the
density of its outputs (in terms of `ν`), for a row that it has not observed. -/
inductive LibraryModel (factor : Root) (ν : Nat → Measure ℝ) (rowid : Option Row) :
    Composed → ((Nat → ℝ) → ℝ≥0∞) → Prop
  | linreg {out : Col} {inputs : List Col} {types : List InputType}
      {ops : List (Cgpm.RowOp (Vals × Option Vals))} {o : LinReg.Obj}
      {R : List (ℝ × (Fin o.g.p → ℝ))} :
      LinReg.Reached out inputs types ops o → (∀ t ∈ types, t = .numeric) →
      LinReg.Lists (LinReg.table out inputs types ops) R → (∀ r ∈ rowid, LinReg.table out inputs types ops r = none) →
      ν out = volume →
      LibraryModel factor ν rowid ⟨Net.linregNet o, Net.linregDraws factor o⟩
        (LinReg.outputDensity o.hyp R out inputs)
  | factor {f : Factor} (loser : (n : Nat) → (Fin n → ℝ) → Matrix (Fin n) (Fin n) ℝ → Fl) :
      Factor.Valid f → Factor.FullRows f → (∀ r ∈ rowid, f.data.get? r = none) →
      (∀ v ∈ f.outputs, ν v = volume) →
      LibraryModel factor ν rowid ⟨Net.factorNet loser f, Net.factorDraws factor f⟩ (Factor.outputDensity f)
  | forest {o : RForest} : Forest.Valid o → Forest.Regular o →
      (∀ s, rowid = some s → s ∉ Forest.rows o) → ν o.g.output = categoryBase o.g.k →
      LibraryModel factor ν rowid ⟨Net.forestNet o, Net.forestDraws o⟩ (Forest.outputDensity o)

/-- SPEC. The constraints ask no random forest for a value that it may rule out, whatever its inputs. -/
def Feasible (hooked : List Composed) (d : Nat → (Nat → ℝ) → ℝ≥0∞) (constraints : Dict Nat ℝ) : Prop :=
  ∀ l (o : RForest), hooked[l]? = some ⟨Net.forestNet o, Net.forestDraws o⟩ →
    d l = Forest.outputDensity o → o.g.output ∈ constraints.keys →
    ∀ x, Forest.outputDensity o (Net.fillWith x constraints) ≠ 0

end Spec
end Cgpm
