import Verif.Spec.ColGibbs
import Verif.Model.Transition

/-!
Specification vocabulary for C61: the orders in which a kernel of `State.transition` may visit views,
rows and columns.
-/
namespace Cgpm.Spec
open Cgpm Cgpm.Props

/-- SPEC. The orders are those of the views, rows and columns that the call names: each list is a
permutation of what it orders. -/
structure Orders.Lists {C : Cat} (s : State C) (cols : Option (List Col)) (rowids : Option (List Row))
    (o : State.Orders) : Prop where
  views : ∀ l, (o.views l).Perm l
  rows : ∀ block, (o.rows block).Perm (rowids.getD (List.range s.nRows))
  cols : o.cols.Perm (cols.getD s.outputs)

/-- SPEC. The columns and rows named in the call exist. -/
def namesExist {C : Cat} (s : State C) (cols : Option (List Col)) (rowids : Option (List Row)) :
    Prop :=
  (∀ c ∈ cols.getD [], c ∈ s.outputs) ∧ ∀ r ∈ rowids.getD [], r < s.nRows

/-- SPEC. Inference over columns is possible: no conditional columns, no columns declared dependent,
and the columns declared independent of one of the columns to be moved exist. -/
structure ColumnsMove {C : Cat} (cfg : Cfg C) (s : State C) (cols : Option (List Col)) : Prop where
  conditional : s.anyConditional cfg = false
  dependent : s.Cd = []
  partners : ∀ c ∈ cols.getD s.outputs, partnersExist s c

/-- SPEC. The number of uniform draws of `calls` kernel calls, the kernels taken in turn. -/
def totalDraws {C : Cat} (s : State C) (cols : Option (List Col)) (rowids : Option (List Row))
    (kernels : List State.Kernel) (calls : ℕ) : ℕ :=
  (((List.range calls).filterMap fun i => kernels[i % kernels.length]?).map
    (s.kernelDraws cols rowids)).sum

/-- SPEC. Inference over the columns `cols` does not visit the view `i`: columns are named, and none
of them is in the view. -/
def unvisited {C : Cat} (t : State C) (cols : Option (List Col)) (i : Nat) : Prop :=
  cols.getD [] ≠ [] ∧ ∀ c ∈ cols.getD [], t.Zv c ≠ some i

/-- SPEC. What inference with the kernels `kernels` on the columns `cols` and the rows `rowids` leaves
as it is. -/
structure Untouched {C : Cat} (kernels : List State.Kernel) (cols : Option (List Col))
    (rowids : Option (List Row)) (t t' : State C) : Prop where
  alpha : .alpha ∉ kernels → t'.crp.alpha = t.crp.alpha
  columns : ∀ c, .columns ∉ kernels ∨ c ∉ cols.getD t.outputs → t'.Zv c = t.Zv c
  views : .columns ∉ kernels → t'.views.keys = t.views.keys ∧
    ∀ i v v', t.views.get? i = some v → t'.views.get? i = some v' →
      (.viewAlphas ∉ kernels ∨ unvisited t cols i → v'.crp.alpha = v.crp.alpha) ∧
      ∀ r, .rows ∉ kernels ∨ unvisited t cols i ∨ r ∉ rowids.getD (List.range t.nRows) →
        v'.seat r = v.seat r

end Cgpm.Spec
