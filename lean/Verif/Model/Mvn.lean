import Mathlib.Analysis.SpecialFunctions.Log.Basic
import Mathlib.Analysis.SpecialFunctions.Trigonometric.Basic
import Mathlib.LinearAlgebra.Matrix.NonsingularInverse

/-
The multivariate normal log density and its gradient, src/utils/mvnormal.py:29-245, with the
factorisation of the covariance they use.

Simplifications: numbers are exact reals and the arrays have the shapes the assertions ask for (the
assertions about shapes and finiteness hold by typing).  The answers of the least-squares fallback
`Covariance_Loser` are reals, about which nothing is assumed.
-/
namespace Cgpm.Mvn
open Matrix

/-- `scipy.linalg.cho_factor`: the triangular factor, or `none` for `LinAlgError`.
`Spec.Mvn.IsChoFactor` is what is assumed of it. -/
abbrev ChoFactor := (n : Nat) → Matrix (Fin n) (Fin n) ℝ → Option (Matrix (Fin n) (Fin n) ℝ)

/-- The methods of `Covariance_Cholesky` and `Covariance_Loser`, src/utils/mvnormal.py:46-74. -/
structure Cov (n : Nat) where
  solve : (Fin n → ℝ) → Fin n → ℝ
  inverse : Matrix (Fin n) (Fin n) ℝ
  logsqrtdet : ℝ

/-- src/utils/mvnormal.py:49-50: `la.cho_solve`, which solves `Uᵀ U x = y` by solving `Uᵀ z = y` and
`U x = z`. -/
noncomputable def choSolve {n : Nat} (U : Matrix (Fin n) (Fin n) ℝ) (y : Fin n → ℝ) : Fin n → ℝ :=
  U⁻¹.mulVec (Uᵀ⁻¹.mulVec y)

/-- src/utils/mvnormal.py:46-64 `Covariance_Cholesky`.  `inverse` solves for the columns of the unit
matrix; `logsqrtdet` sums the logarithms of the diagonal. -/
noncomputable def covCholesky {n : Nat} (U : Matrix (Fin n) (Fin n) ℝ) : Cov n where
  solve := choSolve U
  inverse := Matrix.of fun i j => choSolve U (fun k => (1 : Matrix (Fin n) (Fin n) ℝ) k j) i
  logsqrtdet := ∑ i, Real.log (U i i)

/-- src/utils/mvnormal.py:29-44 `_covariance_factor`. -/
noncomputable def covarianceFactor (cho : ChoFactor) (loser : (n : Nat) → Matrix (Fin n) (Fin n) ℝ → Cov n)
    {n : Nat} (Sigma : Matrix (Fin n) (Fin n) ℝ) : Cov n :=
  match cho n Sigma with
  | some U => covCholesky U
  | none => loser n Sigma

/-- src/utils/mvnormal.py:76-109 `logpdf`. -/
noncomputable def logpdf (cho : ChoFactor) (loser : (n : Nat) → Matrix (Fin n) (Fin n) ℝ → Cov n)
    {n : Nat} (X Mu : Fin n → ℝ) (Sigma : Matrix (Fin n) (Fin n) ℝ) : ℝ :=
  let X' := X - Mu
  let covf := covarianceFactor cho loser Sigma
  let logp := -(X' ⬝ᵥ fun i => covf.solve X' i / 2)
  let logp := logp - (n : ℝ) / 2 * Real.log (2 * Real.pi)
  logp - covf.logsqrtdet

/-- src/utils/mvnormal.py:111-245 `dlogpdf`. -/
noncomputable def dlogpdf (cho : ChoFactor) (loser : (n : Nat) → Matrix (Fin n) (Fin n) ℝ → Cov n)
    {n : Nat} (X : Fin n → ℝ) (dX : List (Fin n → ℝ)) (Mu : Fin n → ℝ) (dMu : List (Fin n → ℝ))
    (Sigma : Matrix (Fin n) (Fin n) ℝ) (dSigma : List (Matrix (Fin n) (Fin n) ℝ)) :
    List ℝ × List ℝ × List ℝ :=
  let X' := X - Mu
  let covf := covarianceFactor cho loser Sigma
  let alpha := covf.solve X'
  let Q := Matrix.of (fun i j => alpha i * alpha j) - covf.inverse
  (dX.map fun d => -(alpha ⬝ᵥ d), dMu.map fun d => alpha ⬝ᵥ d,
    dSigma.map fun d => (∑ i, ∑ j, Q i j * d i j) / 2)

end Cgpm.Mvn
