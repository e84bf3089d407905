import Verif.Model.Ols
import Verif.Spec.Forest

/-!
Specification for C68: the distribution that an ordinary least squares regression stands for.

The value of a row is normal; its mean is an affine function of the code of the inputs, its standard
deviation the same for all rows.  These parameters are the ones that make the rows most likely.
-/
namespace Cgpm.Spec.Ols
open Cgpm Cgpm.Props

/-- The number of categories of each input that is nominal. -/
def levels (o : OlsReg) : Nat → Option Nat := o.g.discretes.get?

/-- The inputs of a query: all declared ones and no other one, without missing values, with valid
categories. -/
structure Given (o : OlsReg) (ins : Vals) : Prop where
  same : ∀ c, c ∈ ins.keys ↔ c ∈ o.g.inputs
  valid : ValidRow (levels o) (inputRow o.g.inputs ins)
  value : none ∉ inputRow o.g.inputs ins

/-- The code of the inputs. -/
noncomputable def covariates (o : OlsReg) (ins : Vals) : List ℝ :=
  (rowCode (levels o) (inputRow o.g.inputs ins)).map fun v => v.getD 0

/-- The number of covariates. -/
def width (o : OlsReg) : Nat := rowWidth (levels o) o.g.inputs.length

/-- The rows. -/
def rows (o : OlsReg) : List Row := o.rows.x.keys

/-- The value of a row. -/
noncomputable def value (o : OlsReg) (r : Row) : ℝ := (o.rows.x.get? r).getD 0

/-- The covariates of a row. -/
noncomputable def inputsOf (o : OlsReg) (r : Row) : List ℝ :=
  ((o.rows.Y.get? r).getD []).map fun v => v.getD 0

/-- An affine function of `p` covariates. -/
def Affine (p : Nat) (f : List ℝ → ℝ) : Prop :=
  ∃ (b : ℝ) (w : List ℝ), w.length = p ∧ ∀ y, y.length = p → f y = b + (List.zipWith (· * ·) w y).sum

/-- The sum of the squared errors of a function. -/
noncomputable def loss (f : List ℝ → ℝ) (Y : List (List ℝ)) (X : List ℝ) : ℝ :=
  (List.zipWith (fun y x => (x - f y) ^ 2) Y X).sum

/-- What is assumed of `fit(Y, X)`: an affine function with the least squared errors. -/
def LeastSquares (fit : List (List ℝ) → List ℝ → (List ℝ → ℝ)) : Prop :=
  ∀ (p : Nat) (Y : List (List ℝ)) (X : List ℝ), X ≠ [] → Y.length = X.length → (∀ y ∈ Y, y.length = p) →
    Affine p (fit Y X) ∧ ∀ f, Affine p f → loss (fit Y X) Y X ≤ loss f Y X

/-- The log likelihood of the rows if their means are given by `f` and their standard deviation is `s`. -/
noncomputable def logLikelihood (o : OlsReg) (f : List ℝ → ℝ) (s : ℝ) : ℝ :=
  ((rows o).map fun r => Real.log (Rand.normalDensity (f (inputsOf o r)) s (value o r))).sum

/-- A regression that a history of calls leads to. -/
structure Valid (o : OlsReg) : Prop where
  apart : o.g.output ∉ o.g.inputs
  p : o.g.p = width o + 1
  noise : 0 ≤ o.noise
  rows : o.rows.x.keys.Nodup
  keys : o.rows.Y.keys = o.rows.x.keys
  count : o.rows.N = o.rows.x.length
  width : ∀ r y, o.rows.Y.get? r = some y → y.length = width o

end Cgpm.Spec.Ols
