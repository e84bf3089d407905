import Verif.Model.Transition
import Verif.Model.LibCfg

/-
Model of `State.transition` (src/crosscat/state.py:727-905) with all its kernels: those of
Model/Transition, and 'column_hypers' with its random draws.

Simplifications, global to this file, besides those of Model/Transition and Model/HyperGrid:
* `hyper_grids` of the columns are given explicitly.  The library builds them in
  src/mixtures/dim.py:176-184.
* The order into which the names of the hyperparameters of a column are shuffled is given explicitly.
-/
namespace Cgpm

/-- What inference of hyperparameters calls, for each component type: the dictionary
`dim.hypers` that stands for hyperparameters, and the methods of components. -/
structure HyperLib (C : Cat) where
  dict : C.ι → C.H → Hyper.Hypers
  api : C.ι → Hyper.Api C.Cl

namespace Prim

/-- Some hyperparameters of each primitive: those of the constructors without arguments, e.g.
src/primitives/normal.py:48-62.  (For beta and normal_trunc, some parameters.) -/
noncomputable def someH : (p : Prim) → p.H
  | .bernoulli => (⟨1, 1⟩ : BernoulliH)
  | .categorical _ => (⟨1⟩ : CategoricalH)
  | .exponential => (⟨1, 1⟩ : AbH)
  | .geometric => (⟨1, 1⟩ : AbH)
  | .poisson => (⟨1, 1⟩ : AbH)
  | .normal => (⟨0, 1, 1, 1⟩ : NormalH)
  | .lognormal => (⟨1, 1, 1, 1⟩ : NormalH)
  | .vonmises _ => (⟨1, Real.pi, 3 / 2⟩ : VonmisesH)
  | .normalTrunc .. => (⟨0, 1⟩ : NormalTruncP)
  | .beta _ => (⟨1, 1 / 2⟩ : BetaP)

/-- The dictionary of the hyperparameters, e.g. src/primitives/normal.py:116-117 `get_hypers`, listed
in the order in which `construct_hyper_grids` lists the grids.  Beta and normal_trunc have none on
grids. -/
def toDict : (p : Prim) → p.H → Hyper.Hypers
  | .bernoulli, (h : BernoulliH) => [("alpha", h.alpha), ("beta", h.beta)]
  | .categorical _, (h : CategoricalH) => [("alpha", h.alpha)]
  | .exponential, (h : AbH) => [("a", h.a), ("b", h.b)]
  | .geometric, (h : AbH) => [("a", h.a), ("b", h.b)]
  | .poisson, (h : AbH) => [("a", h.a), ("b", h.b)]
  | .normal, (h : NormalH) => [("m", h.m), ("r", h.r), ("s", h.s), ("nu", h.nu)]
  | .lognormal, (h : NormalH) => [("m", h.m), ("r", h.r), ("nu", h.nu), ("s", h.s)]
  | .vonmises _, (h : VonmisesH) => [("a", h.a), ("b", h.b), ("k", h.k)]
  | .normalTrunc .., _ => []
  | .beta _, _ => []

open Classical in
/-- Hyperparameters of a column of type `p`; they carry the tag of their type (`Prim.lift`), which is
always `p`. -/
noncomputable def untag (p : Prim) (h : Σ q : Prim, q.H) : p.H :=
  if e : h.1 = p then e ▸ h.2 else p.someH

/-- The components of a column of type `p`, as in Model/HyperGrid `primApi`, with tagged statistics
and hyperparameters. -/
noncomputable def liftApi (p : Prim) :
    Hyper.Api (Comp (ℝ × List ℝ) (Σ q : Prim, q.S) (Σ q : Prim, q.H)) where
  setHypers c h := match Hyper.readHypers h p (p.untag c.hyp) with
    | .ok k => .ok (c.withHyp ⟨p, k⟩)
    | .error e => .err e c
  score c := .ok (.fin (c.score p.lift))
  fresh h := (Hyper.newHypers h p p.someH).map fun k => Comp.init p.lift ⟨p, k⟩

end Prim

/-- The primitives. -/
noncomputable def hyperLib (P : Prim → Prop) : HyperLib (catOf P) where
  dict i h := i.1.toDict (i.1.untag h)
  api i := i.1.liftApi

namespace Dim
variable {C : Cat}

/-- src/mixtures/dim.py:152-174 `transition_hypers`; `draws` lists the names of the hyperparameters in
the shuffled order, each with its uniform draw.  If a call raises, `dim.hypers` may already hold
values that the components do not have; the hyperparameters before the call are kept here. -/
noncomputable def drawHypers (lib : HyperLib C) (grids : Hyper.Grids) (draws : List (String × ℝ))
    (d : Dim C) : Out (Dim C) :=
  match Hyper.transitionHypers (lib.api d.kind) draws
      ⟨lib.dict d.kind d.hyp, grids, d.clusters, d.aux⟩ with
  | .ok g => .ok { d with hyp := g.aux.hyp, clusters := g.clusters, aux := g.aux }
  | .err e g => .err e { d with clusters := g.clusters, aux := g.aux }

end Dim

namespace View
variable {C : Cat}

/-- `self.dims[c].transition_hypers()`. -/
noncomputable def drawDimHypers (lib : HyperLib C) (grids : Hyper.Grids)
    (draws : List (String × ℝ)) (c : Col) (v : View C) : Out (View C) :=
  match v.dims.get? c with
  | none => .err .keyError v
  | some d => (d.drawHypers lib grids draws).map fun d' => { v with dims := v.dims.set c d' }

end View

namespace State
variable {C : Cat}

/-- `self.dim_for(c).transition_hypers()` (src/crosscat/state.py:1013-1020, 785). -/
noncomputable def drawDimHypers (lib : HyperLib C) (grids : Hyper.Grids)
    (draws : List (String × ℝ)) (c : Col) (s : State C) : Out (State C) :=
  match s.Zv c with
  | none => .err .keyError s
  | some i => s.onView i fun v => v.drawDimHypers lib grids draws c

/-- The loop of src/crosscat/state.py:784-785: `names c` is the order of the hyperparameters of
column `c`, which has one draw for each of its grids. -/
noncomputable def drawHypers (lib : HyperLib C) (grids : Col → Hyper.Grids)
    (names : Col → List String) : List Col → State C → List ℝ → Out (State C)
  | [], s, _ => .ok s
  | c :: cs, s, us =>
    (s.drawDimHypers lib (grids c) ((names c).zip (us.take (grids c).length)) c).bind fun s' =>
      drawHypers lib grids names cs s' (us.drop (grids c).length)

/-- The kernels of src/crosscat/state.py:737-752, with 'column_hypers'. -/
inductive AnyKernel
  | of (k : Kernel)
  | columnHypers
  deriving DecidableEq

/-- The orders of one kernel call, with those of the names of hyperparameters. -/
structure AnyOrders extends Orders where
  names : Col → List String

/-- The number of draws of a kernel. -/
def anyDraws (grids : Col → Hyper.Grids) (s : State C) (cols : Option (List Col))
    (rowids : Option (List Row)) : AnyKernel → Nat
  | .of k => s.kernelDraws cols rowids k
  | .columnHypers => ((cols.getD s.outputs).map fun c => (grids c).length).sum

/-- A kernel; 'column_hypers' is src/crosscat/state.py:781-786 `transition_dim_hypers`. -/
noncomputable def callAny (cfg : Cfg C) (lib : HyperLib C) (grids : Col → Hyper.Grids) (s : State C)
    (cols : Option (List Col)) (rowids : Option (List Row)) (o : AnyOrders) (us : List ℝ) :
    AnyKernel → Out (State C)
  | .of k => s.callKernel cfg cols rowids o.toOrders us k
  | .columnHypers => drawHypers lib grids o.names (cols.getD s.outputs) s us

/-- The kernels called one after another. -/
noncomputable def callAnys (cfg : Cfg C) (lib : HyperLib C) (grids : Col → Hyper.Grids)
    (cols : Option (List Col)) (rowids : Option (List Row)) :
    List (AnyKernel × AnyOrders) → State C → List ℝ → Out (State C)
  | [], s, _ => .ok s
  | (k, o) :: ks, s, us =>
    (s.callAny cfg lib grids cols rowids o (us.take (s.anyDraws grids cols rowids k)) k).bind
      fun s' => callAnys cfg lib grids cols rowids ks s' (us.drop (s.anyDraws grids cols rowids k))

/-- src/crosscat/state.py:727-761 `transition` and 880-905 `_transition_generic`, with any of the
kernels; see Model/Transition for `calls` and `orders`. -/
noncomputable def transitionAny (cfg : Cfg C) (lib : HyperLib C) (grids : Col → Hyper.Grids)
    (s : State C) (calls : Nat) (kernels : List AnyKernel) (cols : Option (List Col))
    (rowids : Option (List Row)) (orders : Nat → AnyOrders) (us : List ℝ) : Out (State C) :=
  if ¬ (∀ c ∈ cols.getD [], c ∈ s.outputs) then .err .valueError s
  else if kernels = [] then .err .assertion s
  else callAnys cfg lib grids cols rowids
    ((List.range calls).filterMap fun i =>
      (kernels[i % kernels.length]?).map fun k => (k, orders i)) s us

end State
end Cgpm
