import Verif.Model.BatchDraws
import Verif.Spec.StateDraws
import Mathlib.MeasureTheory.Constructions.Pi

/-!
Specification vocabulary for C77, C78: batches of independent draws.
-/
namespace Cgpm.Props
open Cgpm MeasureTheory
open scoped ENNReal

/-- SPEC. The answer of the program, seen through `φ`, has the law `ν`. -/
def LawOf {α X : Type} [MeasurableSpace X] (ν : Measure X) (φ : α → X) (m : Draws α) : Prop :=
  ∀ g : X → ℝ≥0∞, Measurable g → m.E (fun a => g (φ a)) = ∫⁻ x, g x ∂ν

/-- SPEC. The answers of the program are, in their order, `N` independent draws from the law `ν`, each
seen through `φ`: every function of the list has the expected value that it has for `N` independent
draws. -/
def Iid {α X : Type} [MeasurableSpace X] (N : Nat) (ν : Measure X) (φ : α → X)
    (m : Draws (List α)) : Prop :=
  ∀ F : List X → ℝ≥0∞, (Measurable fun x : Fin N → X => F (List.ofFn x)) →
    m.E (fun l => F (l.map φ)) = ∫⁻ x : Fin N → X, F (List.ofFn x) ∂Measure.pi fun _ => ν

/-- SPEC. Up to their order, the answers of the program are `N` independent draws from the law `ν`,
each seen through `φ`: every function of the list that does not depend on the order of the list has
the expected value that it has for `N` independent draws.  (In particular the program returns with
probability one, and the list has `N` elements with probability one.) -/
def IidUpToOrder {α X : Type} [MeasurableSpace X] (N : Nat) (ν : Measure X) (φ : α → X)
    (m : Draws (List α)) : Prop :=
  ∀ F : List X → ℝ≥0∞, (∀ l l', l.Perm l' → F l = F l') →
    (Measurable fun x : Fin N → X => F (List.ofFn x)) →
    m.E (fun l => F (l.map φ)) = ∫⁻ x : Fin N → X, F (List.ofFn x) ∂Measure.pi fun _ => ν

/-- SPEC. The part of a row in the columns of one view. -/
def partIn {C : Cat} (s : State C) (v : Nat) (row : Dict Col C.Cell) : Dict Col C.Cell :=
  row.filter fun p => s.Zv p.1 = some v

/-- SPEC. The columns of a list that are in one view. -/
def colsIn {C : Cat} (s : State C) (v : Nat) (T : List Col) : List Col :=
  T.filter fun c => s.Zv c = some v

end Cgpm.Props
