import Verif.Model.State
import Verif.Spec.View
import Verif.Spec.Equiv

/-!
Specification vocabulary for C18-C21: what it means for a State to be consistent, and which
calls a client may make.
-/
namespace Cgpm.Props
open Cgpm

variable {C : Cat}

/-- SPEC. A State is consistent: its data, its column partition and its views agree. -/
structure StateConsistent (s : State C) : Prop where
  /-- the data set has one entry per output, in the same order -/
  outputs : s.X.keys = s.outputs
  distinct : s.outputs.Nodup
  /-- all columns have the same length, which is not zero -/
  rect : ∀ c ∈ s.outputs, ∃ l, s.X.get? c = some l ∧ l.length = s.nRows
  rows : 0 < s.nRows
  /-- each output column belongs to exactly one view (`Zv` is a function) -/
  part : ∀ c, (∃ v, s.Zv c = some v) ↔ c ∈ s.outputs
  /-- that view exists, and no view is empty -/
  used : ∀ v, (∃ view, s.views.get? v = some view) ↔ ∃ c, s.Zv c = some v
  /-- the column counts are right -/
  counts : ∀ v n, s.crp.counts.get? v = some n ↔ n = {c | s.Zv c = some v}.ncard ∧ n ≠ 0
  /-- a view models exactly the columns assigned to it -/
  columns : ∀ v view, s.views.get? v = some view →
    ∀ c, (∃ d, view.dims.get? c = some d) ↔ s.Zv c = some v
  /-- the row partition of a view covers exactly the rows of the data -/
  cover : ∀ v view, s.views.get? v = some view → ∀ r, (∃ k, view.seat r = some k) ↔ r < s.nRows
  /-- each view is consistent with the data set -/
  view : ∀ v view, s.views.get? v = some view → Consistent s.tbl view

/-- SPEC. Two States are the same for every observer: same data, columns, column partition,
constraints and views; inside the views only the order in which dictionaries list their entries
may differ. -/
structure StateSame (a b : State C) : Prop where
  data : a.X = b.X
  outputs : a.outputs = b.outputs
  columns : a.crp = b.crp
  dependent : a.Cd = b.Cd
  independent : a.Ci = b.Ci
  ids : a.views.keys = b.views.keys
  distinct : a.views.keys.Nodup
  views : ∀ v, Option.Rel View.Equiv (a.views.get? v) (b.views.get? v)

/-- SPEC. The data set after a row `obs` has been appended. -/
def rowAdded (s : State C) (obs : Dict Col C.Cell) : C.Tbl := fun c r =>
  if r = s.nRows then (if c ∈ s.outputs then (obs.get? c).getD none else none) else s.tbl c r

/-- SPEC. The data set after the cells `obs` of row `rowid` have been set. -/
def cellsForced (s : State C) (rowid : Row) (obs : Dict Col C.Cell) : C.Tbl := fun c r =>
  if r = rowid then (obs.get? c).getD (s.tbl c r) else s.tbl c r

/-- SPEC. The data set after column `col` has been added. -/
def columnAdded (s : State C) (col : Col) (T : List C.Cell) : C.Tbl := fun c r =>
  if c = col then (T[r]?).getD none else s.tbl c r

/-- SPEC. The columns that are declared independent of `col` exist. -/
def partnersExist (s : State C) (col : Col) : Prop :=
  ∀ a, a ≠ col → ((a, col) ∈ s.Ci ∨ (col, a) ∈ s.Ci) → a ∈ s.outputs

/-- SPEC. The views are listed in increasing order of their identifiers. -/
def viewsSorted (s : State C) : Prop := s.views.keys.Pairwise (· < ·)

/-- SPEC. Concentrations are positive and a uniform draw is in [0, 1). -/
def goodDraws (aux : Nat → ℝ × (Row → Tab)) (u : ℝ) : Prop := (∀ j, 0 < (aux j).1) ∧ 0 ≤ u ∧ u < 1

/-- SPEC. Calls that respect the State's contract:
* the values of an added row, forced cells or a new column are missing or acceptable for the
  columns that receive them;
* a forced or a removed column is not an input of another column;
* hyperparameters and concentrations are admissible;
* a column transition has at least one auxiliary view, the columns declared independent of the
  column exist, and, for a column of uncollapsed type, the views are listed in increasing order.

All other arguments are free: wrong row numbers, unknown columns, views and clusters, data of
the wrong length, repeated removals, any outcome of the random draws. -/
def stateLegal (cfg : Cfg C) (s : State C) : State.Op C → Prop
  | .inc r obs _ _ => r = s.nRows → ∀ c d, s.dimFor c = .ok d → admissible (rowAdded s obs) d r
  | .unc _ => True
  | .force r obs => obs.keys.Nodup ∧ (r < s.nRows →
      (∀ c ∈ obs.keys, ∀ d, s.dimFor c = .ok d → admissible (cellsForced s r obs) d r) ∧
      ∀ c d, s.dimFor c = .ok d → ∀ i ∈ d.inputs, i ∉ obs.keys)
  | .incDim T outs ins kind v ω => ∀ col, outs = [col] → ins = [] → T.length = s.nRows →
      col ∉ s.outputs →
      cfg.conditional kind = false ∧ (C.F kind).hypOk ω.hyp ∧ (C.F kind).hypOk ω.hyp' ∧
      (∀ r, r < s.nRows → admissible (columnAdded s col T) (Dim.new col [] kind ω.hyp) r) ∧
      0 < ω.view.1 ∧ goodDraws ω.aux ω.u ∧
      (v = none → partnersExist s col ∧
        (cfg.collapsed kind = true ∨ (viewsSorted s ∧ 0 ∈ s.views.keys)))
  | .uncDim col => ∀ c d, s.dimFor c = .ok d → c ≠ col → col ∉ d.inputs
  | .cctype col kind ins hyp hyp' => ∀ v view inputs, s.Zv col = some v →
      s.views.get? v = some view → State.cctypeInputs cfg view col kind ins = .ok inputs →
      (C.F kind).hypOk hyp ∧ (C.F kind).hypOk hyp' ∧
      ∀ r, r < s.nRows → admissible s.tbl (Dim.new col inputs kind hyp) r
  | .alpha _ => True
  | .viewAlpha _ _ => True
  | .hypers c h => ∀ d, s.dimFor c = .ok d → (C.F d.kind).hypOk h
  | .row _ _ _ => True
  | .column c m aux u => 0 < m ∧ goodDraws aux u ∧ partnersExist s c ∧
      ∀ d, s.dimFor c = .ok d → cfg.collapsed d.kind = true ∨ viewsSorted s

/-- SPEC. Every call of the history is legal when it is made. -/
def stateLegalRun (cfg : Cfg C) (s : State C) : List (State.Op C) → Prop
  | [] => True
  | op :: ops => stateLegal cfg s op ∧ stateLegalRun cfg (s.apply cfg op).state ops

/-- SPEC. Arguments of the constructor: at least one row and one column, columns of equal length,
a partition of the columns, positive concentrations, row partitions of the right length, and
values that are missing or acceptable for their columns. -/
structure LegalInit (X : Dict Col (List C.Cell)) (n : Nat) (schema : Col → State.ColSpec C)
    (alpha : ℝ) (Zv : Dict Col Nat) (order : List Nat) (rows : Nat → ℝ × List Tab) : Prop where
  columns : X.keys.Nodup ∧ X ≠ []
  length : ∀ c l, X.get? c = some l → l.length = n
  pos : 0 < n
  alpha : 0 < alpha
  part : Zv.keys.Nodup ∧ ∀ c, c ∈ Zv.keys ↔ c ∈ X.keys
  ids : order.Nodup ∧ ∀ v, v ∈ order ↔ ∃ c, Zv.get? c = some v
  rows : ∀ v ∈ order, 0 < (rows v).1 ∧ (rows v).2.length = n
  hypers : ∀ c ∈ X.keys, (C.F (schema c).kind).hypOk (schema c).hyp
  inputs : ∀ c ∈ X.keys, ∀ i ∈ (schema c).inputs, i ∈ X.keys
  values : ∀ c ∈ X.keys, ∀ r, r < n → admissible (State.tblOf X)
    (Dim.new c (schema c).inputs (schema c).kind (schema c).hyp) r

/-- SPEC. The States that arise from a history of legal calls. -/
inductive StateReachable (cfg : Cfg C) : State C → Prop
  | of (X : Dict Col (List C.Cell)) (n : Nat) (schema : Col → State.ColSpec C) (alpha : ℝ)
      (Zv : Dict Col Nat) (order : List Nat) (rows : Nat → ℝ × List Tab) (Cd : Blocks) (Ci : Pairs)
      (h : LegalInit X n schema alpha Zv order rows) (s : State C)
      (hs : State.init X schema alpha Zv order rows Cd Ci = .ok s) (ops : List (State.Op C))
      (hl : stateLegalRun cfg s ops) : StateReachable cfg (s.run cfg ops)

/-! ### Constraints on the columns (C21) -/

/-- SPEC. No two columns declared independent share a view, and columns declared dependent share
their views. -/
structure ConstraintsHold (s : State C) : Prop where
  independent : ∀ a b, (a, b) ∈ s.Ci → a ≠ b → ∀ v, s.Zv a = some v → s.Zv b ≠ some v
  dependent : ∀ block ∈ s.Cd, ∀ a ∈ block, ∀ b ∈ block, ∀ v w, s.Zv a = some v →
    s.Zv b = some w → v = w

/-- SPEC. A new column is not mentioned in the constraints, and the view named for it (0 by
default) exists or its identifier is larger than all others. -/
def careful (s : State C) : State.Op C → Prop
  | .incDim _ outs _ _ v _ =>
      (∀ col ∈ outs, (∀ p ∈ s.Ci, p.1 ≠ col ∧ p.2 ≠ col) ∧ ∀ block ∈ s.Cd, col ∉ block) ∧
      (v.getD 0 ∈ s.views.keys ∨ ∀ i ∈ s.views.keys, i < v.getD 0)
  | _ => True

/-- SPEC. A history of legal calls in which new columns are added carefully. -/
def carefulRun (cfg : Cfg C) (s : State C) : List (State.Op C) → Prop
  | [] => True
  | op :: ops => stateLegal cfg s op ∧ careful s op ∧ carefulRun cfg (s.apply cfg op).state ops

end Cgpm.Props
