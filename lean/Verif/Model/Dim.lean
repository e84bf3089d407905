import Verif.Model.Comp

/-
Model of src/mixtures/dim.py (class Dim): one column of a mixture, i.e. a
component per cluster, the rows filed under each cluster, and an empty spare
component.
-/
namespace Cgpm

abbrev Col := Nat

/-- The catalogue of component types available to columns: cell values `V`, type
names `ι` (the cctypes of src/utils/config.py:25-40) and their implementation.
The observation given to a component is the value together with the values of the
input columns (empty for all but the conditional cctypes). -/
structure Cat where
  V : Type
  ι : Type
  S : Type
  H : Type
  F : ι → Family (V × List V) S H

namespace Cat
variable (C : Cat)
/-- observation passed to a component -/
abbrev O := C.V × List C.V
/-- a component object -/
abbrev Cl := Comp C.O C.S C.H
/-- a cell of the data table; `none` is NaN -/
abbrev Cell := Option C.V
/-- the data table shared by the views: `X c r` is `self.X[c][r]`.  Simplification: a
total function; a missing column or row (KeyError/IndexError) is not represented here,
`State` keeps the finite table. -/
abbrev Tbl := Col → Row → C.Cell
end Cat

/-- `not any(np.isnan(inputs))`: all the values, if none of them is NaN. -/
def allVals {V : Type} : List (Option V) → Option (List V)
  | [] => some []
  | none :: _ => none
  | some x :: t => (allVals t).map (x :: ·)

/-- src/mixtures/dim.py:239-255 `preprocess`: the observation, when neither the value
nor an input is NaN (`valid`). -/
def validObs {V : Type} (x : Option V) (ins : List (Option V)) : Option (V × List V) :=
  match x, allVals ins with
  | some v, some vs => some (v, vs)
  | _, _ => none

/-- src/mixtures/dim.py:59-91 the attributes of a Dim.  `inputs` is `self.inputs[1:]`;
`self.inputs[0]`, the cluster token, is always the token of the enclosing view, so the
cluster is passed as an argument of its own. `hyper_grids`, `distargs` (part of
`kind`) and `rng` are dropped. -/
structure Dim (C : Cat) where
  index : Col
  inputs : List Col
  kind : C.ι
  hyp : C.H
  clusters : Dict Tab C.Cl
  Zr : Dict Row Tab
  Zi : Dict Row Tab
  aux : C.Cl

namespace Dim
variable {C : Cat}

/-- The implementation of the column's type. -/
abbrev fam (d : Dim C) : Family C.O C.S C.H := C.F d.kind

/-- src/mixtures/dim.py:234-237 `create_aux_model` (for the uncollapsed cctypes the
constructor also draws parameters, which are not modelled at this level). -/
def createAux (d : Dim C) : C.Cl := Comp.init d.fam d.hyp

/-- src/mixtures/dim.py:59-91: a Dim without rows. -/
def new (index : Col) (inputs : List Col) (kind : C.ι) (hyp : C.H) : Dim C :=
  { index, inputs, kind, hyp, clusters := [], Zr := [], Zi := [],
    aux := Comp.init (C.F kind) hyp }

/-- src/mixtures/dim.py:95-106 `incorporate`.  The cluster is created before the value
is validated by the component. -/
def incorporate (d : Dim C) (r : Row) (k : Tab) (x : C.Cell) (ins : List C.Cell) : Out (Dim C) :=
  if d.Zr.has r || d.Zi.has r then .err .valueError d
  else
    let d1 := if d.clusters.has k then d
      else { d with clusters := d.clusters.set k d.aux, aux := d.createAux }
    match validObs x ins with
    | none => .ok { d1 with Zi := d1.Zi.set r k }
    | some o =>
      match d1.clusters.get? k with
      | none => .err .keyError d1
      | some c =>
        match c.incorporate d.fam r o with
        | .err e c' => .err e { d1 with clusters := d1.clusters.set k c' }
        | .ok c' => .ok { d1 with clusters := d1.clusters.set k c', Zr := d1.Zr.set r k }

/-- src/mixtures/dim.py:108-116 `unincorporate`. -/
def unincorporate (d : Dim C) (r : Row) : Out (Dim C) :=
  if d.Zi.has r then .ok { d with Zi := d.Zi.erase r }
  else match d.Zr.get? r with
    | none => .err .valueError d
    | some k =>
      match d.clusters.get? k with
      | none => .err .keyError d
      | some c =>
        match c.unincorporate d.fam r with
        | .err e c' => .err e { d with clusters := d.clusters.set k c' }
        | .ok c' => .ok { d with clusters := d.clusters.set k c', Zr := d.Zr.erase r }

/-- src/mixtures/dim.py:121-122 `logpdf_score`. -/
noncomputable def score (d : Dim C) : ℝ := (d.clusters.vals.map fun c => c.score d.fam).sum

/-- The component answering for cluster `k`: `self.clusters.get(k, self.aux_model)`. -/
def clusterOr (d : Dim C) (k : Tab) : C.Cl := (d.clusters.get? k).getD d.aux

/-- src/mixtures/dim.py:127-132 `logpdf`: NaN queries have log density 0. -/
def logpdf (d : Dim C) (r : Option Row) (k : Tab) (x : C.Cell) (ins : List C.Cell) :
    Except Exn LogP :=
  match validObs x ins with
  | none => .ok 0
  | some o => (d.clusterOr k).logpdf d.fam r o

open Classical in
/-- src/mixtures/dim.py:207-210 `set_hypers`: the spare component is *not* refreshed. -/
noncomputable def setHypers (d : Dim C) (h : C.H) : Out (Dim C) :=
  let d1 := { d with hyp := h }
  if d.clusters = [] then .ok d1
  else if d.fam.hypOk h then
    .ok { d1 with clusters := d.clusters.map fun p => (p.1, p.2.withHyp h) }
  else .err .assertion d1

/-- src/mixtures/dim.py:152-174 `transition_hypers`, given the sampled values `h` (drawn
from the grids, which only hold admissible values): every cluster gets them and the
spare component is rebuilt. -/
def transitionHypers (d : Dim C) (h : C.H) : Dim C :=
  let d1 : Dim C :=
    { d with hyp := h, clusters := d.clusters.map fun p => (p.1, p.2.withHyp h) }
  { d1 with aux := d1.createAux }

/-- The calls a client can make on a Dim. -/
inductive Op (C : Cat)
  | inc (r : Row) (k : Tab) (x : C.Cell) (ins : List C.Cell)
  | unc (r : Row)
  | hypers (h : C.H)
  | trans (h : C.H)

/-- One call. -/
noncomputable def apply (d : Dim C) : Op C → Out (Dim C)
  | .inc r k x ins => d.incorporate r k x ins
  | .unc r => d.unincorporate r
  | .hypers h => d.setHypers h
  | .trans h => .ok (d.transitionHypers h)

/-- A history of calls. -/
noncomputable def run (d : Dim C) (ops : List (Op C)) : Dim C :=
  ops.foldl (fun d op => (d.apply op).state) d

end Dim
end Cgpm
