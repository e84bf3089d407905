import Verif.Model.View
import Verif.Spec.Dim
import Verif.Spec.Equiv
import Mathlib.Data.Set.Card

/-!
Specification vocabulary for C11-C14 and C50: what it means for a view to be consistent
with the data set, and which calls a client may make.
-/
namespace Cgpm.Props
open Cgpm

variable {C : Cat}

/-- SPEC. How column `d` should file row `r` in cluster `k`, given the data set. -/
def fileOf (X : C.Tbl) (d : Dim C) (r : Row) (k : Tab) : Filed C :=
  file d.kind k (X d.index r) (d.inputs.map fun i => X i r)

/-- SPEC. The row's value is missing or acceptable for the column. -/
def admissible (X : C.Tbl) (d : Dim C) (r : Row) : Prop := fileOf X d r 0 ≠ none

/-- SPEC. Column `c`, stored as `d`, is consistent with the row partition `seat` and the
data set `X`. -/
structure ColumnConsistent (X : C.Tbl) (seat : Row → Option Tab) (c : Col) (d : Dim C) : Prop where
  /-- it is filed under its own name -/
  index : d.index = c
  /-- it agrees with the row partition on every row -/
  rows : ∀ r k, (d.Zr.get? r = some k ∨ d.Zi.get? r = some k) ↔ seat r = some k
  /-- rows with a value and rows without are kept apart, as the data set says -/
  missing : ∀ r k, seat r = some k → (d.Zi.get? r = some k ↔ fileOf X d r k = some (k, none))
  /-- it has components for exactly the occupied clusters -/
  clusters : ∀ k, k ∈ d.clusters.keys ↔ ∃ r, seat r = some k
  /-- the component of a cluster holds exactly the values of the rows assigned to it -/
  values : ∀ k c, d.clusters.get? k = some c → ∀ r o, c.data.get? r = some o ↔
    seat r = some k ∧ fileOf X d r k = some (k, some o)
  /-- each once -/
  once : ∀ k c, d.clusters.get? k = some c → c.data.keys.Nodup
  /-- and its statistics are the sum of those values -/
  stats : ∀ k c, d.clusters.get? k = some c →
    c.stat = c.data.vals.foldl (C.F d.kind).add (C.F d.kind).zero
  /-- hyperparameters are shared -/
  hypers : ∀ k c, d.clusters.get? k = some c → c.hyp = d.hyp
  /-- the template for new clusters is empty and has the same hyperparameters -/
  template : d.aux.data = [] ∧ d.aux.stat = (C.F d.kind).zero ∧ d.aux.hyp = d.hyp

/-- SPEC. A view is consistent with the data set. -/
structure Consistent (X : C.Tbl) (v : View C) : Prop where
  /-- the table counts are the numbers of rows seated at each table -/
  counts : ∀ t n, v.crp.counts.get? t = some n ↔
    n = {r | v.seat r = some t}.ncard ∧ n ≠ 0
  total : v.crp.N = {r | v.seat r ≠ none}.ncard
  columns : v.dims.keys.Nodup
  column : ∀ c d, v.dims.get? c = some d → ColumnConsistent X v.seat c d

/-- SPEC. Calls that respect the view's contract: a row is added with the values the data
set holds for it, which are missing or acceptable; a forced cell belongs to a row and a
column of the view, its new value is missing or acceptable and the column is not an input
of a column of the view; hyperparameters are admissible.  Any row may be removed or moved
(those that are not in the view are refused), and columns of any type may be added. -/
def legal (s : C.Tbl × View C) : View.Op C → Prop
  | .inc r obs _ _ => s.2.seat r = none → ∀ c d, s.2.dims.get? c = some d →
      obs.get? c = some (s.1 c r) ∧ admissible s.1 d r
  | .force r c x => s.2.seat r ≠ none ∧
      (∃ d, s.2.dims.get? c = some d ∧ admissible (View.setCell s.1 c r x) d r) ∧
      ∀ c' d', s.2.dims.get? c' = some d' → c ∉ d'.inputs
  | .incDim _ _ i h => (C.F i).hypOk h
  | .cctype _ i _ h => (C.F i).hypOk h
  | .hypers c h => ∀ d, s.2.dims.get? c = some d → (C.F d.kind).hypOk h
  | _ => True

/-- SPEC. Every call of the history is legal when it is made. -/
def legalRun (s : C.Tbl × View C) : List (View.Op C) → Prop
  | [] => True
  | op :: ops => legal s op ∧ legalRun ((View.apply s op).1, (View.apply s op).2.state) ops

/-- SPEC. The data sets and views that arise from a history of legal calls. -/
inductive Reachable : C.Tbl → View C → Prop
  | of (X : C.Tbl) (a : ℝ) (ha : 0 < a) (ops : List (View.Op C))
      (h : legalRun (X, View.empty a) ops) :
      Reachable (View.run (X, View.empty a) ops).1 (View.run (X, View.empty a) ops).2

end Cgpm.Props
