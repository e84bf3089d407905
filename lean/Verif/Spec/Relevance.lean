import Verif.Spec.View
import Mathlib.Data.Finset.Lattice.Fold

/-!
Specification vocabulary for the part of C30 about views: the alternatives that the relevance
computation compares.
-/
namespace Cgpm.Props
open Cgpm

variable {C : Cat}

/-- SPEC. The choices of a cluster when those of `S` are in use: one of them or a new one. -/
def choices (S : Finset Tab) : Finset Tab := insert (S.sup id + 1) S

/-- SPEC. The clusters of the rows of the view other than the target and the query rows. -/
def otherTabs (v : View C) (target : Row) (query : List Row) : Finset Tab :=
  ((v.crp.data.filter fun p => decide (p.1 ≠ target ∧ p.1 ∉ query)).map Prod.snd).toFinset

/-- SPEC. The columns of a view take their inputs from the view. -/
def ClosedInputs (v : View C) : Prop :=
  ∀ c d, v.dims.get? c = some d → ∀ i ∈ d.inputs, i ∈ v.dims.keys

/-- SPEC. Two columns of one name, type, inputs and hyperparameters. -/
structure SameColumn (d d' : Dim C) : Prop where
  index : d'.index = d.index
  inputs : d'.inputs = d.inputs
  kind : d'.kind = d.kind
  hyp : d'.hyp = d.hyp

/-- SPEC. `w` is the view `v` on the same data with the target row moved to cluster `t`, all the
query rows moved to cluster `k` and the other rows where they were. -/
structure Reseated (X : C.Tbl) (v : View C) (target : Row) (query : List Row) (k t : Tab)
    (w : View C) : Prop where
  reachable : Reachable X w
  seatTarget : w.seat target = some t
  seatQuery : ∀ r ∈ query, w.seat r = some k
  others : ∀ r, r ≠ target → r ∉ query → w.seat r = v.seat r
  alpha : w.crp.alpha = v.crp.alpha
  columns : ∀ c, Option.Rel SameColumn (v.dims.get? c) (w.dims.get? c)

/-- SPEC. A relevance query: the target and the distinct query rows are rows of the view, the
target is not a query row, and the view has some other row. -/
structure RelevanceQuery (v : View C) (target : Row) (query : List Row) : Prop where
  nonempty : query ≠ []
  once : query.Nodup
  apart : target ∉ query
  seated : v.seat target ≠ none
  rows : ∀ r ∈ query, v.seat r ≠ none
  other : ∃ r, r ≠ target ∧ r ∉ query ∧ v.seat r ≠ none

end Cgpm.Props
