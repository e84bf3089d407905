import Verif.Model.Dim
import Mathlib.Data.List.ReduceOption

/-!
Specification vocabulary for C10 and C46: where each row is filed, obtained by replaying
the history of calls on a column.
-/
namespace Cgpm.Props
open Cgpm

variable {C : Cat}

/-- SPEC. How a column files a row: its cluster and, unless the cell or one of its inputs
is missing, the value its component holds. -/
abbrev Filed (C : Cat) := Option (Tab × Option C.O)

/-- SPEC. The effect of adding a row that is not filed yet: a row with a missing value or
input is filed as missing; otherwise the component type `i` decides what it stores, and
if it refuses the value the row stays unfiled. -/
def file (i : C.ι) (k : Tab) (x : C.Cell) (ins : List C.Cell) : Filed C :=
  match x, ins.any Option.isNone with
  | some v, false =>
    match (C.F i).prep (v, ins.reduceOption) with
    | .ok o => some (k, some o)
    | .error _ => none
  | _, _ => some (k, none)

/-- SPEC. Effect of one call on the filing: rows already filed cannot be added again,
and hyperparameters play no role. -/
def filingStep (i : C.ι) (m : Row → Filed C) : Dim.Op C → (Row → Filed C)
  | .inc r k x ins => fun r' => if r' = r ∧ m r = none then file i k x ins else m r'
  | .unc r => fun r' => if r' = r then none else m r'
  | .hypers _ => m
  | .trans _ => m

/-- SPEC. The filing after a history. -/
def filings (i : C.ι) (ops : List (Dim.Op C)) : Row → Filed C :=
  ops.foldl (filingStep i) (fun _ => none)

/-- SPEC. Calls that do not go through `set_hypers`. -/
def noSetHypers : Dim.Op C → Prop
  | .hypers _ => False
  | _ => True

/-- SPEC. The hyperparameters in force after a history of transitions. -/
def lastHyp (h : C.H) : List (Dim.Op C) → C.H
  | [] => h
  | .trans h' :: ops => lastHyp h' ops
  | _ :: ops => lastHyp h ops

end Cgpm.Props
