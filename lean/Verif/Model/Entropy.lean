import Verif.Model.Py
import Mathlib.Analysis.SpecialFunctions.Log.Basic

/-
Model of the discrete estimators of src/utils/entropy_estimators.py.

Simplifications: reals for floats. A dict lists its values in the order of insertion, Python 2 in an
order of its own; the values are only summed. The estimators for continuous samples are in
Model/Neighbours.
-/
namespace Cgpm
namespace Entropy
variable {K L M : Type} [DecidableEq K] [DecidableEq L] [DecidableEq M]

/-- src/utils/entropy_estimators.py:115-116: one step of the loop. -/
def tally (d : Dict K Nat) (s : K) : Dict K Nat := d.set s ((d.get? s).getD 0 + 1)

/-- src/utils/entropy_estimators.py:112-117 `hist`. -/
noncomputable def hist (sx : List K) : List ℝ :=
  let d : Dict K Nat := sx.foldl tally []
  d.vals.map fun z : Nat => (z : ℝ) / sx.length

/-- src/utils/entropy_estimators.py:123-128 `elog`. -/
noncomputable def elog (x : ℝ) : ℝ := if x ≤ 0 ∨ 1 ≤ x then 0 else x * Real.log x

/-- src/utils/entropy_estimators.py:119-121 `entropyfromprobs`. -/
noncomputable def entropyFromProbs (probs : List ℝ) (base : ℝ) : ℝ :=
  -(probs.map elog).sum / Real.log base

/-- src/utils/entropy_estimators.py:92-96 `entropyd`. -/
noncomputable def entropyd (sx : List K) (base : ℝ) : ℝ := entropyFromProbs (hist sx) base

/-- src/utils/entropy_estimators.py:98-103 `midd`. -/
noncomputable def midd (x : List K) (y : List L) (base : ℝ) : ℝ :=
  -entropyd (x.zip y) base + entropyd x base + entropyd y base

/-- src/utils/entropy_estimators.py:105-110 `cmidd`; triples are nested pairs. -/
noncomputable def cmidd (x : List K) (y : List L) (z : List M) (base : ℝ) : ℝ :=
  entropyd (y.zip z) base + entropyd (x.zip z) base - entropyd (x.zip (y.zip z)) base
    - entropyd z base

end Entropy
end Cgpm
