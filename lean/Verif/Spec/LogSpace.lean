import Verif.Model.LogSpace
import Mathlib.Data.ENNReal.Real

/-!
Specification vocabulary for C35, C36: the non-negative extended number whose logarithm
a float is.
-/
namespace Cgpm.Props
open Cgpm

/-- SPEC. The number of which `a` is the logarithm: `-inf` is the logarithm of 0 and
`+inf` that of infinity.  (NaN is the logarithm of nothing; the theorems exclude it.) -/
noncomputable def mass : Fl → ENNReal
  | .nan => 0
  | .ninf => 0
  | .fin x => ENNReal.ofReal (Real.exp x)
  | .pinf => ⊤

/-- SPEC. The sum of the numbers of which the entries are the logarithms. -/
noncomputable def total (l : List Fl) : ENNReal := (l.map mass).sum

end Cgpm.Props
