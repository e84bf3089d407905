import Verif.Model.StateDraws
import Verif.Spec.PrimSimulate
import Verif.Spec.StateSimulate
import Mathlib.MeasureTheory.Integral.Marginal

/-!
Specification vocabulary for C70: the joint law of a simulated row.
-/
namespace Cgpm.Props
open Cgpm MeasureTheory
open scoped ENNReal

/-- SPEC. Whatever is drawn, an answer of the program has the property `Q` (it may raise). -/
def _root_.Cgpm.Draws.Always {α : Type} (Q : α → Prop) : Draws α → Prop
  | .pure a => Q a
  | .raise _ => True
  | .draw _ k => ∀ x, Always Q (k x)

variable {P : Prim → Prop}

/-- SPEC. The values `x` of all columns, with those of the row in their place. -/
noncomputable def fillIn (x : Col → ℝ) (row : Dict Col (catOf P).Cell) : Col → ℝ :=
  fun c => match row.get? c with
    | some (some y) => y
    | _ => x c

/-- SPEC. The values `x` for the columns `T`, as `logpdf` takes them. -/
def valuesAt (T : List Col) (x : Col → ℝ) : Dict Col (catOf P).Cell := T.map fun c => (c, some (x c))

/-- SPEC. What the density of column `c` is a density of: counting measure on the natural numbers if
the type of the column has whole values, length otherwise. -/
noncomputable def colBase (s : State (catOf P)) (c : Col) : Measure ℝ :=
  match s.dimFor c with
  | .ok d => d.kind.1.base
  | .error _ => volume

/-- SPEC. The columns have hyperparameters for which their types are defined (see `Prim.Proper`); no
column is a truncated normal, whose `simulate` may give up. -/
def ProperCols (s : State (catOf P)) (T : List Col) : Prop :=
  ∀ c ∈ T, ∀ d, s.dimFor c = .ok d → d.hyp.1.Proper d.hyp.2

end Cgpm.Props
