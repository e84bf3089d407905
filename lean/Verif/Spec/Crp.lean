import Verif.Model.Crp
import Mathlib.Data.Set.Card

/-!
Specification vocabulary for C01-C04: `seats ops` is the customer -> table map
obtained by replaying a history, with no counts; it does not mention the model's
state or its helpers.
-/
namespace Cgpm.Props
open Cgpm Crp

/-- SPEC. Effect of one call on the abstract customer -> table map: a customer
already seated is not seated again, removing an unknown customer does nothing. -/
def seatStep (m : Row → Option Tab) : Crp.Op → (Row → Option Tab)
  | .inc r x => fun r' => if r' = r ∧ m r = none then some x else m r'
  | .unc r => fun r' => if r' = r then none else m r'
  | .hyp _ => m

/-- SPEC. The abstract seating after a history, starting from an empty room. -/
def seats (ops : List Crp.Op) : Row → Option Tab := ops.foldl seatStep (fun _ => none)

/-- SPEC. How many customers sit at table `t`. -/
noncomputable def seatedAt (m : Row → Option Tab) (t : Tab) : Nat :=
  Set.ncard {r | m r = some t}

/-- SPEC. How many customers are seated. -/
noncomputable def seatedTotal (m : Row → Option Tab) : Nat := Set.ncard {r | m r ≠ none}

/-- SPEC. The seating of a list of customers, one after the other. -/
def seatAll (l : List (Row × Tab)) : List Op := l.map (fun p => Op.inc p.1 p.2)

/-- SPEC. The one-step-ahead log predictives met while seating the customers of `l`. -/
noncomputable def predictives (s : Crp) : List (Row × Tab) → ℝ
  | [] => 0
  | (r, x) :: l =>
    calcPredictiveLogp x s.N s.counts s.alpha + predictives (s.incorporate r x).state l

end Cgpm.Props
