import Verif.Model.State
import Verif.Model.Network

/-! Model of the bulk operations of a State, src/crosscat/state.py:478-534. -/
namespace Cgpm.State
open Cgpm

variable {C : Cat}

/-- src/crosscat/state.py:525-528 `incorporate_bulk`: `zip` stops at the shorter list.  An
observation is given by its values and by the clusters it names; `z r v` is the cluster sampled for
row `r` in view `v` when none is named.  Simplified: `inputs` is not used by `incorporate`
(src/crosscat/state.py:262-289) and left out. -/
noncomputable def incorporateBulk (s : State C) (z : Row → Nat → Tab) :
    List Row → List (Dict Col C.Cell × Dict Nat Tab) → Out (State C)
  | r :: rs, o :: os =>
    match s.incorporate r o.1 o.2 (z r) with
    | .err e s' => .err e s'
    | .ok s' => incorporateBulk s' z rs os
  | _, _ => .ok s

/-- src/crosscat/state.py:530-533 `force_cell_bulk`. -/
def forceCellBulk (s : State C) : List Row → List (Dict Col C.Cell) → Out (State C)
  | r :: rs, q :: qs =>
    match s.forceCell r q with
    | .err e s' => .err e s'
    | .ok s' => forceCellBulk s' rs qs
  | _, _ => .ok s

/-- src/crosscat/state.py:481-503 `simulate_bulk`.  `sim`: the method `simulate` of the State, given
its random draws; `ω i`: the draws of the `i`-th query. -/
def simulateBulk {Ω V α : Type} (sim : Ω → Row → List Col → Dict Col V → Dict Col V → Nat →
    Except Exn α) (ω : Nat → Ω) (rowids : List Row) (targets : List (List Col))
    (constraints inputs : Option (List (Dict Col V))) (Ns : Option (List Nat)) :
    Except Exn (List α) :=
  let constraints := constraints.getD (rowids.map fun _ => [])
  let inputs := inputs.getD (rowids.map fun _ => [])
  let Ns := Ns.getD (rowids.map fun _ => 1)
  if rowids.length ≠ targets.length then .error .assertion
  else if rowids.length ≠ constraints.length then .error .assertion
  else if rowids.length ≠ inputs.length then .error .assertion
  else if rowids.length ≠ Ns.length then .error .assertion
  else
    Net.collect (fun p : (Row × List Col × Dict Col V × Dict Col V × Nat) × Nat =>
        sim (ω p.2) p.1.1 p.1.2.1 p.1.2.2.1 p.1.2.2.2.1 p.1.2.2.2.2)
      (rowids.zip (targets.zip (constraints.zip (inputs.zip Ns)))).zipIdx

/-- src/crosscat/state.py:505-523 `logpdf_bulk`. -/
def logpdfQueries {Ω V α : Type} (logpdf : Ω → Row → Dict Col V → Dict Col V → Dict Col V →
    Except Exn α) (ω : Nat → Ω) (rowids : List Row) (targets : List (Dict Col V))
    (constraints inputs : Option (List (Dict Col V))) : Except Exn (List α) :=
  let constraints := constraints.getD (rowids.map fun _ => [])
  let inputs := inputs.getD (rowids.map fun _ => [])
  if rowids.length ≠ targets.length then .error .assertion
  else if rowids.length ≠ constraints.length then .error .assertion
  else if rowids.length ≠ inputs.length then .error .assertion
  else
    Net.collect (fun p : (Row × Dict Col V × Dict Col V × Dict Col V) × Nat =>
        logpdf (ω p.2) p.1.1 p.1.2.1 p.1.2.2.1 p.1.2.2.2)
      (rowids.zip (targets.zip (constraints.zip inputs))).zipIdx

end Cgpm.State
