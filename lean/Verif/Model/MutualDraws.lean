import Verif.Model.BatchDraws
import Verif.Model.Mutual

/-
The estimators of mutual information and entropy as programs that draw: src/crosscat/state.py:653-706.

Simplifications, global to this file (see also Mutual.lean and BatchDraws.lean):
* The State is not composite, and no column has inputs that are asked; then `logpdf` draws nothing.
* The row -1 is a new row, as is None.
* `progress` is dropped.
-/
namespace Cgpm
variable {P : Prim → Prop} {Ω : Type}

/-- A list comprehension whose items draw. -/
def Draws.each {α β : Type} (f : α → Draws β) : List α → Draws (List β)
  | [] => .pure []
  | a :: t => (f a).bind fun y => (Draws.each f t).bind fun ys => .pure (y :: ys)

/-- The value that is given to a column.  (A constraint on a cluster is not part of a query of a
State.) -/
def Val.toCell {C : Cat} : Val C → C.Cell
  | .cell x => x
  | .tab _ => none

namespace State

/-- What the State answers once the rows have been drawn: src/crosscat/state.py:680, 700 (`simulate`) and
681-695, 701-705 (`logpdf` of new rows). -/
noncomputable def answering (close : ℝ → ℝ → Bool) (ord : PyOrder) (beh : ViewBehaviour (catOf P) Ω)
    (ωj ωm : Nat → Nat → Ω) (s : State (catOf P))
    (hooked : Dict Nat (NetCgpm (Option Row) (Val (catOf P)) Ω)) (acc : Option Nat)
    (rows : List (Dict Col (catOf P).Cell)) : Mutual.MiModel (catOf P).Cell where
  simulate _ _ _ _ := .ok rows
  logpdf _ _ _ T E := s.logpdf close ord beh ωj ωm false hooked none T E [] acc

/-- src/crosscat/state.py:679-696 `_compute_mi`. -/
noncomputable def miDraws (close : ℝ → ℝ → Bool) (ord : PyOrder) (beh : ViewBehaviour (catOf P) Ω)
    (ωj ωm : Nat → Nat → Ω) (s : State (catOf P))
    (hooked : Dict Nat (NetCgpm (Option Row) (Val (catOf P)) Ω)) (acc : Option Nat)
    (col0 col1 : List Col) (E : Dict Col (catOf P).Cell) (N : Nat) : Draws Fl :=
  (s.sampleMany close ord none (col0 ++ col1) E N).bind fun rows => Draws.ofExcept
    (Mutual.computeMi (s.answering close ord beh ωj ωm hooked acc rows) ⟨0, none⟩ col0 col1 E N)

/-- src/crosscat/state.py:698-706 `_compute_entropy`. -/
noncomputable def entropyDraws (close : ℝ → ℝ → Bool) (ord : PyOrder)
    (beh : ViewBehaviour (catOf P) Ω) (ωj ωm : Nat → Nat → Ω) (s : State (catOf P))
    (hooked : Dict Nat (NetCgpm (Option Row) (Val (catOf P)) Ω)) (acc : Option Nat)
    (col0 col1 : List Col) (E : Dict Col (catOf P).Cell) (N : Nat) : Draws Fl :=
  if ¬ Mutual.sameSet col0 col1 then .raise .assertion
  else (s.sampleMany close ord none col0 E N).bind fun rows => Draws.ofExcept
    (Mutual.computeEntropy (s.answering close ord beh ωj ωm hooked acc rows) ⟨0, none⟩ col0 col1 E N)

/-- src/crosscat/state.py:661-662: the estimator. -/
noncomputable def estimatorDraws (close : ℝ → ℝ → Bool) (ord : PyOrder)
    (beh : ViewBehaviour (catOf P) Ω) (ωj ωm : Nat → Nat → Ω) (s : State (catOf P))
    (hooked : Dict Nat (NetCgpm (Option Row) (Val (catOf P)) Ω)) (acc : Option Nat)
    (col0 col1 : List Col) (E : Dict Col (catOf P).Cell) (N : Nat) : Draws Fl :=
  if ¬ Mutual.sameSet col0 col1 then s.miDraws close ord beh ωj ωm hooked acc col0 col1 E N
  else s.entropyDraws close ord beh ωj ωm hooked acc col0 col1 E N

/-- src/crosscat/state.py:653-677 `_compute_mutual_information`. -/
noncomputable def computeDraws (close : ℝ → ℝ → Bool) (ord : PyOrder)
    (beh : ViewBehaviour (catOf P) Ω) (ωj ωm : Nat → Nat → Ω) (s : State (catOf P))
    (hooked : Dict Nat (NetCgpm (Option Row) (Val (catOf P)) Ω)) (acc : Option Nat)
    (b : Mutual.Block (Val (catOf P))) (T N : Option Nat) : Draws Fl :=
  let E := (Mutual.equalities b.constraints).map fun p => (p.1, p.2.toCell)
  if (Mutual.marginals b.constraints).isEmpty then
    s.estimatorDraws close ord beh ωj ωm hooked acc b.col0 b.col1 E (Mutual.orHundred N)
  else
    (s.sampleMany close ord none (Mutual.marginals b.constraints) [] (Mutual.orHundred T)).bind
      fun samples => (Draws.each (fun w => s.estimatorDraws close ord beh ωj ωm hooked acc b.col0
        b.col1 (Dict.update E w) (Mutual.orHundred N)) samples).bind
      fun l => .pure (Mutual.divBy (flSum l) (Mutual.orHundred T))

/-- src/crosscat/state.py:634-651 `mutual_information`, for a State without composed models. -/
noncomputable def mutualDraws (scipy : Nat → (Nat → Nat → Bool) → List Nat) (close : ℝ → ℝ → Bool)
    (ord : PyOrder) (beh : ViewBehaviour (catOf P) Ω) (ωj ωm : Nat → Nat → Ω) (s : State (catOf P))
    (acc : Option Nat) (col0 col1 : List Col) (constraints : Dict Col (Option (Val (catOf P))))
    (T N : Option Nat) : Draws Fl :=
  if (col0 ++ col1).any fun c => constraints.has c then .raise .valueError
  else if (col0.any fun c => col1.contains c) && !Mutual.sameSet col0 col1 then .raise .valueError
  else
    match Mutual.partitionQuery scipy (s.buildCgpms beh []) col0 col1 constraints with
    | .error e => .raise e
    | .ok blocks =>
      (Draws.each (fun p : Nat × Mutual.Block (Val (catOf P)) =>
        s.computeDraws close ord beh ωj ωm [] acc p.2 T N)
        (blocks.filter fun p => !p.2.col0.isEmpty && !p.2.col1.isEmpty)).bind
      fun l => .pure (flSum l)

end State
end Cgpm
