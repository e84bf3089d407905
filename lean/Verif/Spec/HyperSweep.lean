import Verif.Spec.Sweep
import Verif.Spec.HyperGrid
import Verif.Model.HyperSweep

/-!
Specification vocabulary for C63, C64: the posterior on latent structures and hyperparameters.
-/
namespace Cgpm.Spec
open Cgpm Cgpm.Props Cgpm.Hyper Cgpm.Spec.Hyper

variable {C : Cat}

/-- SPEC. The dictionary of the hyperparameters of each column. -/
def hypersOf (lib : HyperLib C) (cols : Finset Col) (t : State C) (a : {c // c ∈ cols}) : Hypers :=
  match t.dimFor a.1 with
  | .ok d => lib.dict d.kind d.hyp
  | .error _ => []

/-- SPEC. A choice of one entry of every grid of every column, by its position. -/
abbrev Choice (cols : Finset Col) (grids : Col → Grids) :=
  (a : {c // c ∈ cols}) → Config (grids a.1)

/-- SPEC. The hyperparameters chosen. -/
def Choice.hypers {cols : Finset Col} {grids : Col → Grids} (κ : Choice cols grids)
    (a : {c // c ∈ cols}) : Hypers := (κ a).hypers

/-- SPEC. The States that share the data, the columns with their types, and the constraints of `s`,
and whose views are listed in increasing order: they differ in their hyperparameters, their latent
structure, and in the labels of views and clusters. -/
structure FullState (cfg : Cfg C) (s t : State C) : Prop where
  reachable : StateReachable cfg t
  sorted : viewsSorted t
  data : t.X = s.X
  outputs : t.outputs = s.outputs
  dependent : t.Cd = s.Cd
  independent : t.Ci = s.Ci
  columns : ∀ c d d', s.dimFor c = .ok d → t.dimFor c = .ok d' →
    d'.index = d.index ∧ d'.inputs = d.inputs ∧ d'.kind = d.kind

/-- SPEC. `W` is the posterior weight of each choice of hyperparameters and latent structure of the
model of `s`: `posteriorWeight` of the States that have them.  (The prior of the hyperparameters is
uniform on the choices.) -/
def IsFullPosterior (cfg : Cfg C) (lib : HyperLib C) (grids : Col → Grids) (s : State C)
    (W : Choice (colsOf s) grids → Latent (colsOf s) (rowsOf s) → ℝ) : Prop :=
  ∀ κ t, FullState cfg s t → hypersOf lib (colsOf s) t = κ.hypers →
    W κ (latentOf (colsOf s) (rowsOf s) t) = posteriorWeight t

/-- SPEC. The grids of a State whose columns have primitive types: those that the library builds
(with 30 points) from some values that the type of the column accepts. -/
def GridsBuilt {P : Prim → Prop} (s : State (catOf P)) (grids : Col → Grids) : Prop :=
  ∀ c d, s.dimFor c = .ok d → ∃ (kappa : Option ℝ) (Y : List ℝ), Y ≠ [] ∧
    (∀ x ∈ Y, ∃ y, d.kind.1.fam.prep x = .ok y) ∧
    (∀ f, d.kind.1 = .vonmises f → kappa ≠ some 0) ∧
    constructHyperGrids d.kind.1 kappa Y 30 = .ok (grids c)

/-- SPEC. The orders are those of Spec/Transition, and the names of the hyperparameters of each
column are those of its grids, in some order. -/
structure AnyOrders.Lists (grids : Col → Grids) (s : State C) (cols : Option (List Col))
    (rowids : Option (List Row)) (o : State.AnyOrders) : Prop where
  orders : Orders.Lists s cols rowids o.toOrders
  names : ∀ c, (o.names c).Perm (grids c).keys

/-- SPEC. The number of uniform draws of `calls` kernel calls, the kernels taken in turn. -/
def totalAnyDraws (grids : Col → Grids) (s : State C) (cols : Option (List Col))
    (rowids : Option (List Row)) (kernels : List State.AnyKernel) (calls : ℕ) : ℕ :=
  (((List.range calls).filterMap fun i => kernels[i % kernels.length]?).map
    (s.anyDraws grids cols rowids)).sum

/-- SPEC. The kernels other than 'column_hypers'. -/
def otherKernels (kernels : List State.AnyKernel) : List State.Kernel :=
  kernels.filterMap fun
    | .of k => some k
    | .columnHypers => none

/-- SPEC. The expected value of `f` under the posterior on hyperparameters and latent structures. -/
noncomputable def fullMean {grids : Col → Grids} {s : State C}
    (W : Choice (colsOf s) grids → Latent (colsOf s) (rowsOf s) → ℝ)
    (f : ({c // c ∈ colsOf s} → Hypers) → Latent (colsOf s) (rowsOf s) → ℝ) : ℝ :=
  (∑ κ, ∑ L ∈ latents (colsOf s) (rowsOf s), W κ L * f κ.hypers L)
    / ∑ κ, ∑ L ∈ latents (colsOf s) (rowsOf s), W κ L

end Cgpm.Spec
