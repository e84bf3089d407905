import Verif.Model.Mvn
import Mathlib.Analysis.Calculus.FDeriv.Basic
import Mathlib.LinearAlgebra.Matrix.PosDef

/-
Specification for C83: what `scipy.linalg.cho_factor` returns, and what it means for numbers to be the
partial derivatives of a function.
-/
namespace Cgpm.Spec.Mvn
open Matrix

/-- `cho_factor` finds the upper triangular factor with a positive diagonal of every positive definite
matrix. -/
def IsChoFactor (cho : Cgpm.Mvn.ChoFactor) : Prop :=
  ∀ (n : Nat) (S : Matrix (Fin n) (Fin n) ℝ), S.PosDef → ∃ U, cho n S = some U ∧
    (∀ i j, j < i → U i j = 0) ∧ (∀ i, 0 < U i i) ∧ Uᵀ * U = S

/-- The function is differentiable at the point, with these partial derivatives. -/
def HasPartials {k : Nat} (f : (Fin k → ℝ) → ℝ) (d : List ℝ) (x : Fin k → ℝ) : Prop :=
  ∃ f' : (Fin k → ℝ) →L[ℝ] ℝ, HasFDerivAt f f' x ∧ d = List.ofFn fun i => f' (Pi.single i 1)

end Cgpm.Spec.Mvn
