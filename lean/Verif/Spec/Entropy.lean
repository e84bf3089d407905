import Mathlib.Analysis.SpecialFunctions.Log.Basic
import Mathlib.Data.Finset.Dedup
import Mathlib.Algebra.BigOperators.Group.Finset.Basic

/-! What the discrete estimators should compute: the information measures of the empirical
distribution of a sample. -/
namespace Cgpm
namespace Spec
variable {K : Type} [DecidableEq K]

/-- The relative frequency of `a` in the sample. -/
noncomputable def freq (sx : List K) (a : K) : ℝ := sx.count a / sx.length

/-- Shannon's entropy (in nats) of the empirical distribution. -/
noncomputable def shannon (sx : List K) : ℝ :=
  ∑ a ∈ sx.toFinset, -(freq sx a * Real.log (freq sx a))

/-- The two coordinates of the sample are independent under the empirical distribution. -/
def EmpiricallyIndependent {L : Type} [DecidableEq L] (x : List K) (y : List L) : Prop :=
  ∀ a b, freq (x.zip y) (a, b) = freq x a * freq y b

/-- The first two coordinates of the sample are independent given the third. -/
def EmpiricallyIndependentGiven {L M : Type} [DecidableEq L] [DecidableEq M]
    (x : List K) (y : List L) (z : List M) : Prop :=
  ∀ a b c, freq (x.zip (y.zip z)) (a, b, c) * freq z c = freq (x.zip z) (a, c) * freq (y.zip z) (b, c)

end Spec
end Cgpm
