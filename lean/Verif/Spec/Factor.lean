import Mathlib.Analysis.Real.Sqrt
import Mathlib.Analysis.SpecialFunctions.Exp
import Mathlib.Analysis.SpecialFunctions.Trigonometric.Basic
import Verif.Model.Factor

/-
Specification for C48: the generative model of factor analysis.

A vector of `L` independent standard normal factors `z` is drawn; every observable is
`x_i = mux_i + Σ_k W_ik z_k + e_i` with Gaussian noise `e` of covariance `Psi`.  The variable at
position `p` of the list of outputs is the observable `p` if `p < D`, and the factor `p - D`
otherwise.  Nothing here uses the coordinates in which the code arranges the joint vector.
-/
namespace Cgpm.Spec.Factor
open Cgpm

/-- The number of observables. -/
def numObs (f : Factor) : Nat := f.outputs.length - f.L

/-- The position of a variable in the list of outputs. -/
def pos (f : Factor) (v : Col) : Nat := f.outputs.idxOf v

/-- Is the variable observable? -/
def IsObs (f : Factor) (v : Col) : Prop := pos f v < numObs f

instance (f : Factor) (v : Col) : Decidable (IsObs f v) := by unfold IsObs; infer_instance

/-- The mean of a variable. -/
noncomputable def mean (f : Factor) (v : Col) : ℝ := if IsObs f v then f.mux (pos f v) else 0

/-- The coefficient of the `k`-th factor in a variable. -/
noncomputable def load (f : Factor) (v : Col) (k : Nat) : ℝ :=
  if IsObs f v then f.W (pos f v) k else if pos f v = numObs f + k then 1 else 0

/-- The covariance of the noises of two variables; a factor has no noise. -/
noncomputable def noise (f : Factor) (u v : Col) : ℝ :=
  if IsObs f u ∧ IsObs f v then f.Psi (pos f u) (pos f v) else 0

/-- The covariance of two variables. -/
noncomputable def covar (f : Factor) (u v : Col) : ℝ :=
  (∑ k ∈ Finset.range f.L, load f u k * load f v k) + noise f u v

/-- The multivariate normal density. -/
noncomputable def gauss {ι : Type} [Fintype ι] [DecidableEq ι] (x m : ι → ℝ) (S : Matrix ι ι ℝ) :
    ℝ :=
  Real.exp (-(1 / 2) * ((x - m) ⬝ᵥ S⁻¹.mulVec (x - m)))
    / Real.sqrt ((2 * Real.pi) ^ Fintype.card ι * S.det)

/-- The joint density of the variables of `d` at their values. -/
noncomputable def density (f : Factor) (d : Dict Col ℝ) : ℝ :=
  gauss (fun i : Fin d.length => d[i].2) (fun i => mean f d[i].1)
    (Matrix.of fun i j => covar f d[i].1 d[j].1)

/-- A factor analysis as the constructor accepts it, with a positive definite noise covariance. -/
structure Valid (f : Factor) : Prop where
  nodup : f.outputs.Nodup
  le : f.L ≤ f.outputs.length
  noise : (Matrix.of fun i j : Fin (numObs f) => f.Psi i j).PosDef

/-- A partial assignment of values to outputs. -/
structure Assigns (f : Factor) (d : Dict Col ℝ) : Prop where
  nodup : d.keys.Nodup
  known : ∀ q ∈ d.keys, q ∈ f.outputs

/-- The rows have a cell for every observable. -/
def FullRows (f : Factor) : Prop :=
  ∀ r vs, f.data.get? r = some vs → vs.length = numObs f

/-- The value of a variable in a row, if it is observable and observed. -/
def cell (f : Factor) (r : Option Row) (q : Col) : Option ℝ :=
  if IsObs f q then ((r.bind f.data.get?).bind fun vs => vs[pos f q]?).join else none

/-- What a query about the targets `T` under the constraints `C` at the row `r` is conditioned on:
the constraints, and the observed cells of the row other than the targets and the constraints. -/
structure Evidence (f : Factor) (r : Option Row) (T : List Col) (C Ev : Dict Col ℝ) : Prop where
  nodup : Ev.keys.Nodup
  get : ∀ q, Ev.get? q = (C.get? q).or (if q ∈ T then none else cell f r q)

/-- All the observables at `xs`. -/
def allObs (f : Factor) (xs : Fin (numObs f) → ℝ) : Dict Col ℝ :=
  (f.outputs.take (numObs f)).zip (List.ofFn xs)

/-- All the factors at `zs`. -/
def allLat (f : Factor) (zs : Fin f.L → ℝ) : Dict Col ℝ :=
  (f.outputs.drop (numObs f)).zip (List.ofFn zs)

end Cgpm.Spec.Factor
