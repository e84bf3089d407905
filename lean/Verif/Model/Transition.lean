import Verif.Model.ColGibbs
import Verif.Model.RowGibbs

/-
Model of `State.transition` (src/crosscat/state.py:727-905) with the random draws of its kernels.

Simplifications, global to this file:
* The kernel 'column_hypers' is not among the kernels here: Model/HyperSweep adds it.
* The arguments `views`, `progress` and `checkpoint` are left out.
* Orders that Python takes from dictionaries, sets and `rng.permutation` are given explicitly, and so
  are the uniform draws.  Every kernel has a fixed number of draws; those that it does not use (a
  State may have fewer views than columns) do not change outcomes or probabilities.
* A partition's grid is the one built for the present number of columns or rows: the library builds
  it once, in the constructor (src/crosscat/state.py:93, src/mixtures/view.py:95).
-/
namespace Cgpm

/-- src/mixtures/dim.py:152-174 `transition_hypers`, of the Dim that holds a partition of `n`
columns or rows; `u` is the uniform draw of `log_pflip`. -/
noncomputable def Crp.transitionAlpha (n : Nat) (crp : Crp) (u : ℝ) : Out Crp :=
  match Hyper.crpGrids (List.replicate n 1) 30 with
  | .error e => .err e crp
  | .ok grids =>
    (Hyper.transitionHypers Hyper.crpApi [("alpha", u)]
      { hypers := [("alpha", crp.alpha)], grids, clusters := [(0, crp)],
        aux := Crp.init crp.alpha }).map fun g => (g.clusters.get? 0).getD crp

namespace View
variable {C : Cat}

/-- src/mixtures/view.py:231-233 `transition_crp_alpha`, which draws the concentration twice; `n` is
the number of rows. -/
noncomputable def transitionCrpAlpha (n : Nat) (v : View C) : List ℝ → Out (View C)
  | u :: u' :: _ => ((v.crp.transitionAlpha n u).bind fun crp => crp.transitionAlpha n u').map
      fun crp => { v with crp }
  | _ => .err .runtime v

/-- src/mixtures/view.py:247-252 `transition_rows`; `orders` gives the order of the rows for the view
that holds a set of columns. -/
noncomputable def transitionRowsIn (X : C.Tbl) (orders : Finset Col → List Row) (v : View C)
    (us : List ℝ) : Out (View C) :=
  v.transitionRows X ((orders v.dims.keys.toFinset).zip us)

end View

namespace State
variable {C : Cat}

/-- src/crosscat/state.py:763-765 `transition_crp_alpha`. -/
noncomputable def transitionCrpAlpha (s : State C) : List ℝ → Out (State C)
  | u :: _ => (s.crp.transitionAlpha s.outputs.length u).map fun crp => { s with crp }
  | [] => .err .runtime s

/-- The loops `for v in views` of src/crosscat/state.py:767-772 and 795-802: the method `K` of each
view, in the order of the list, with `k` draws each. -/
noncomputable def visitViews (K : View C → List ℝ → Out (View C)) (k : Nat) :
    List Nat → State C → List ℝ → Out (State C)
  | [], s, _ => .ok s
  | v :: vs, s, us => (s.onView v fun view => K view (us.take k)).bind fun s' =>
      visitViews K k vs s' (us.drop k)

/-- src/crosscat/state.py:769-770 and 798-799: the views of the columns `cols`, or all views if
`cols` is None or empty. -/
def viewsFor (s : State C) : Option (List Col) → List Nat
  | none => s.views.keys
  | some [] => s.views.keys
  | some (c :: cols) => ((c :: cols).filterMap s.Zv).dedup

/-- The names of the kernels in src/crosscat/state.py:737-752. -/
inductive Kernel
  | alpha
  | viewAlphas
  | columnParams
  | rows
  | columns
  deriving DecidableEq

/-- The orders of one kernel call: of the views (a dictionary or a set), of the rows in each view
and of the columns (`rng.permutation`). -/
structure Orders where
  views : List Nat → List Nat
  rows : Finset Col → List Row
  cols : List Col

/-- The number of draws of a kernel. -/
def kernelDraws (s : State C) (cols : Option (List Col)) (rowids : Option (List Row)) :
    Kernel → Nat
  | .alpha => 1
  | .viewAlphas => s.outputs.length * 2
  | .columnParams => 0
  | .rows => s.outputs.length * (rowids.getD (List.range s.nRows)).length
  | .columns => (cols.getD s.outputs).length * s.dimDraws 1

/-- The kernels: src/crosscat/state.py:763-765 `transition_crp_alpha`, 767-772
`transition_view_alphas`, 774-779 `transition_dim_params` (the collapsed types have no parameters to
draw: src/primitives/distribution.py and its subclasses), 795-802 `transition_view_rows`, 804-811
`transition_dims` with `m = 1`. -/
noncomputable def callKernel (cfg : Cfg C) (s : State C) (cols : Option (List Col))
    (rowids : Option (List Row)) (o : Orders) (us : List ℝ) : Kernel → Out (State C)
  | .alpha => s.transitionCrpAlpha us
  | .viewAlphas =>
    visitViews (fun v => v.transitionCrpAlpha s.nRows) 2 (o.views (s.viewsFor cols)) s us
  | .columnParams => .ok s
  | .rows =>
    if s.nRows = 1 then .ok s
    else visitViews (fun v => v.transitionRowsIn s.tbl o.rows)
      (rowids.getD (List.range s.nRows)).length (o.views (s.viewsFor cols)) s us
  | .columns => s.transitionDims cfg 1 o.cols us

/-- The kernels called one after another. -/
noncomputable def callKernels (cfg : Cfg C) (cols : Option (List Col))
    (rowids : Option (List Row)) : List (Kernel × Orders) → State C → List ℝ → Out (State C)
  | [], s, _ => .ok s
  | (k, o) :: ks, s, us =>
    (s.callKernel cfg cols rowids o (us.take (s.kernelDraws cols rowids k)) k).bind fun s' =>
      callKernels cfg cols rowids ks s' (us.drop (s.kernelDraws cols rowids k))

/-- src/crosscat/state.py:727-761 `transition` and 880-905 `_transition_generic`: the list of kernels
is repeated; `calls` counts the kernel calls (`N` iterations are `N * kernels.length` calls, a time
limit `S` may stop after any number of calls); `orders i` are the orders of call `i`. -/
noncomputable def transition (cfg : Cfg C) (s : State C) (calls : Nat) (kernels : List Kernel)
    (cols : Option (List Col)) (rowids : Option (List Row)) (orders : Nat → Orders) (us : List ℝ) :
    Out (State C) :=
  if ¬ (∀ c ∈ cols.getD [], c ∈ s.outputs) then .err .valueError s
  else if kernels = [] then .err .assertion s
  else callKernels cfg cols rowids
    ((List.range calls).filterMap fun i =>
      (kernels[i % kernels.length]?).map fun k => (k, orders i)) s us

end State
end Cgpm
