import Verif.Model.StateSimulate
import Verif.Spec.StateLogpdf
import Mathlib.MeasureTheory.Measure.Lebesgue.Basic

/-!
Specification vocabulary for the simulation of rows of a State (C54).
-/
namespace Cgpm.Props
open Cgpm MeasureTheory

variable {C : Cat}

/-- SPEC. Some column of `T` belongs to view `v`. -/
def AskedCols (s : State C) (T : List Col) (v : Nat) : Prop := ∃ c ∈ T, s.Zv c = some v

/-- SPEC. Values are asked for some columns (at least one), and given for others; these columns
exist and have no inputs. -/
structure StateSimOn (s : State C) (T : List Col) (E : Dict Col C.Cell) : Prop where
  nonempty : T ≠ []
  targets : T.Nodup
  evidence : E.keys.Nodup
  columns : ∀ c ∈ T ++ E.keys, c ∈ s.outputs ∧ ∀ d, s.dimFor c = .ok d → d.inputs = []
  disjoint : ∀ c ∈ T, c ∉ E.keys

/-- SPEC. `pick` draws the cluster of a new row with the values `E` from its conditional
distribution: for a uniform draw `u` in `[0, 1)`, the cluster `k` is in use or the new one, and has
probability `prior k * density of E in k / density of E`. -/
structure ClusterDraw (v : View C) (E : Col → Option C.Cell) (fresh : Tab) (pick : ℝ → Tab) :
    Prop where
  new : fresh ∉ occupied v
  range : ∀ u, 0 ≤ u → u < 1 → pick u ∈ occupied v ∨ pick u = fresh
  law : ∀ k, k ∈ occupied v ∨ k = fresh → volume {u : ℝ | 0 ≤ u ∧ u < 1 ∧ pick u = k} =
    prior v k * rowDensity v k E / viewDensity v E

end Cgpm.Props
