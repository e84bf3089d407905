import Verif.Model.ViewQuery
import Verif.Spec.LogSpace
import Mathlib.Data.List.ReduceOption
import Mathlib.Algebra.BigOperators.Group.Finset.Basic

/-!
Specification vocabulary for C15-C17 and C45: the mixture density of a row of a view.
-/
namespace Cgpm.Props
open Cgpm

variable {C : Cat}

/-- SPEC. Values for some columns, as the API takes them. -/
def cellsOf (D : Dict Col C.Cell) : Dict Nat (Val C) := D.map fun p => (p.1, .cell p.2)

/-- SPEC. The clusters in use. -/
def occupied (v : View C) : Finset Tab := (v.crp.data.map Prod.snd).toFinset

/-- SPEC. A cluster not in use. -/
def freshTab (v : View C) : Tab := (occupied v).sup id + 1

/-- SPEC. Prior probability that a new row joins cluster `k`: proportional to its number of
rows or, for a new cluster, to the concentration. -/
noncomputable def prior (v : View C) (k : Tab) : ENNReal :=
  ENNReal.ofReal
    ((if k ∈ occupied v then (({r | v.seat r = some k}.ncard : ℕ) : ℝ) else v.crp.alpha)
      / (({r | v.seat r ≠ none}.ncard : ℕ) + v.crp.alpha))

/-- SPEC. Average of `f` over the cluster of a new row. -/
noncomputable def mixture (v : View C) (f : Tab → ENNReal) : ENNReal :=
  (∑ k ∈ occupied v, prior v k * f k) + prior v (freshTab v) * f (freshTab v)

/-- SPEC. Density of a cell of column `d` in cluster `k`, given the inputs of the column: that of
the component of the cluster or, in a new cluster, of a component without rows.  Nothing is said
about a missing value, nor when an input is missing. -/
noncomputable def cellDensity (d : Dim C) (k : Tab) (x : C.Cell) (ins : List C.Cell) : ENNReal :=
  match x, ins.any Option.isNone with
  | some y, false => mass (Fl.ofLogP (match d.clusters.get? k with
      | some c => (C.F d.kind).logpdf c.hyp c.stat (y, ins.reduceOption)
      | none => (C.F d.kind).logpdf d.hyp (C.F d.kind).zero (y, ins.reduceOption)))
  | _, _ => 1

/-- SPEC. Density in cluster `k` of a row with the values `D` (the columns not in `D` being
integrated out): the product over the columns. -/
noncomputable def rowDensity (v : View C) (k : Tab) (D : Col → Option C.Cell) : ENNReal :=
  (v.dims.map fun p => match D p.1 with
    | none => 1
    | some x => cellDensity p.2 k x (p.2.inputs.map fun i => (D i).getD none)).prod

/-- SPEC. The values of `T` together with those of `E`. -/
def both (T E : Dict Col C.Cell) : Col → Option C.Cell := fun c => (T.get? c).or (E.get? c)

/-- SPEC. Every conditional column with a value in `D` also has a value in `D` for each of its
inputs. (Always so when no column of the view has inputs.) -/
def InputsIn (v : View C) (D : Col → Option C.Cell) : Prop :=
  ∀ c d, v.dims.get? c = some d → D c ≠ none → ∀ i ∈ d.inputs, D i ≠ none

/-- SPEC. The name of the cluster variable is not that of a column, and the inputs of the columns
are not cyclic. (The second is always so when no column of the view has inputs.) -/
structure Schema (v : View C) (z : Nat) : Prop where
  token : z ∉ v.dims.keys
  tokenInput : ∀ c d, v.dims.get? c = some d → z ∉ d.inputs
  acyclic : ∀ c, ¬ Relation.TransGen
    (fun a b => ∃ d, v.dims.get? b = some d ∧ a ∈ d.inputs) c c

/-- SPEC. A query about a new row: values are asked for the columns of `T` and given for those of
`E`.  The row identifier is `none` (or, in the code, any negative number), or a number that is
neither a row of the view nor smaller than the number of rows. -/
structure NewRowQuery (v : View C) (z : Nat) (rowid : Option Row) (T E : Dict Col C.Cell) :
    Prop where
  row : ∀ r, rowid = some r → v.seat r = none ∧ {r | v.seat r ≠ none}.ncard ≤ r
  targets : T.keys.Nodup
  evidence : E.keys.Nodup
  disjoint : ∀ c ∈ T.keys, c ∉ E.keys
  token : z ∉ T.keys ∧ z ∉ E.keys
  inputsE : InputsIn v E.get?
  inputs : InputsIn v (both T E)

/-- SPEC. A query about row `r` of the view (the rows being numbered from 0). -/
structure OldRowQuery (v : View C) (z : Nat) (r : Row) (T E : Dict Col C.Cell) : Prop where
  row : v.seat r ≠ none ∧ r < {r | v.seat r ≠ none}.ncard
  targets : T.keys.Nodup
  evidence : E.keys.Nodup
  token : z ∉ T.keys ∧ z ∉ E.keys

/-- SPEC. The constraint `E` agrees (up to the tolerance `close`) with the observed cells of row
`r` of the view. -/
def Agrees (close : C.V → C.V → Bool) (X : C.Tbl) (v : View C) (r : Row) (E : Dict Col C.Cell) :
    Prop :=
  ∀ c x, E.get? c = some x → c ∈ v.dims.keys → ∀ y, X c r = some y → ∃ w, x = some w ∧ close y w

open Classical in
/-- SPEC. What is known about row `r` in a query for the columns of `T` given `E`: the constraints
and the observed cells of the row that are neither targets nor constraints. -/
noncomputable def known (X : C.Tbl) (v : View C) (r : Row) (T E : Dict Col C.Cell) :
    Col → Option C.Cell :=
  fun c => if c ∈ v.dims.keys ∧ c ∉ T.keys ∧ c ∉ E.keys ∧ X c r ≠ none then some (X c r)
    else E.get? c

/-- SPEC. Whether a value is possible for a component depends neither on what the component has
seen nor on its hyperparameters. -/
def FixedSupport (C : Cat) : Prop :=
  ∀ (i : C.ι) (h h' : C.H) (l l' : List C.O) (o : C.O), (C.F i).hypOk h → (C.F i).hypOk h' →
    (C.F i).logpdf h (l.foldl (C.F i).add (C.F i).zero) o = ⊥ →
    (C.F i).logpdf h' (l'.foldl (C.F i).add (C.F i).zero) o = ⊥

end Cgpm.Props
