import Verif.Model.Primitives
import Verif.Model.LinReg
import Verif.Model.LogSpace
import Mathlib.Data.List.Dedup

/-
Model of hyperparameter inference: the grids of `construct_hyper_grids` (src/primitives/*.py,
src/regressions/linreg.py) and the loops of src/mixtures/dim.py:152-184 that draw hyperparameters
from them.

Simplifications, global to this file:
* Numbers are exact reals.
* A dictionary is a list in insertion order; the order in which a Python dictionary is traversed
  only matters for the order in which random numbers are used.
-/
namespace Cgpm.Hyper
open Classical

/-- `self.hypers`: the name and the value of each hyperparameter. -/
abbrev Hypers := Dict String ℝ

/-- `self.hyper_grids`: the name and the grid of each hyperparameter. -/
abbrev Grids := Dict String (List ℝ)

/-! ### grids -/

/-- `np.linspace(a, b, n)`. -/
noncomputable def linspace (a b : ℝ) (n : ℕ) : List ℝ :=
  (List.range n).map fun i : ℕ => a + (i : ℝ) * ((b - a) / ((n : ℝ) - 1))

/-- src/utils/general.py:203-205 `log_linspace`; `log` is `math.log`. -/
noncomputable def logLinspace (a b : ℝ) (n : ℕ) : Except Exn (List ℝ) :=
  if 0 < a ∧ 0 < b then .ok ((linspace (Real.log a) (Real.log b) n).map Real.exp)
  else .error .valueError

/-- `min` of a list. -/
noncomputable def minimum : List ℝ → Except Exn ℝ
  | [] => .error .valueError
  | x :: t => .ok (t.foldl min x)

/-- `max` of a list. -/
noncomputable def maximum : List ℝ → Except Exn ℝ
  | [] => .error .valueError
  | x :: t => .ok (t.foldl max x)

/-- `np.var(X) * len(X)` of a non-empty list. -/
noncomputable def ssqdev (X : List ℝ) : ℝ :=
  ((X.map fun x => (x - X.sum / X.length) ^ 2).sum / X.length) * X.length

/-- `np.round`: to the nearest integer, halves to the even one. -/
noncomputable def npRound (x : ℝ) : ℝ :=
  if x - ⌊x⌋ < 1 / 2 then ⌊x⌋
  else if 1 / 2 < x - ⌊x⌋ then ⌊x⌋ + 1
  else if Even ⌊x⌋ then ⌊x⌋ else ⌊x⌋ + 1

/-- `np.unique`: the distinct values in increasing order. -/
noncomputable def npUnique (l : List ℝ) : List ℝ := l.dedup.insertionSort (· ≤ ·)

/-- src/primitives/vonmises.py:211-237 `estimate_kappa`; `kappa` is the last iterate of Newton's
method, `none` if it is NaN (the Bessel functions are not modelled). -/
noncomputable def estimateKappa (N : ℕ) (kappa : Option ℝ) : ℝ :=
  if N = 0 then 1 / 10 ^ 6
  else if N = 1 then 10 * Real.pi
  else match kappa with
    | none => 1 / 10 ^ 6
    | some k => |k|

/-- `construct_hyper_grids` of each primitive: src/primitives/bernoulli.py:110-114,
categorical.py:111-114, exponential.py:109-113, geometric.py:109-113, poisson.py:114-120,
normal.py:129-139, lognormal.py:131-137, vonmises.py:131-140, normal_trunc.py:148-149 and
beta.py:155-156.  `kappa` as in `estimateKappa`. -/
noncomputable def constructHyperGrids (p : Prim) (kappa : Option ℝ) (X : List ℝ) (n : ℕ) :
    Except Exn Grids :=
  let len : ℝ := X.length
  match p with
  | .bernoulli => do
    let alpha ← logLinspace 1 len n
    let beta ← logLinspace 1 len n
    .ok [("alpha", alpha), ("beta", beta)]
  | .categorical _ => do
    let alpha ← logLinspace 1 len n
    .ok [("alpha", alpha)]
  | .exponential => do
    let a ← logLinspace (1 / 2) len n
    let b ← logLinspace (1 / 2) len n
    .ok [("a", a), ("b", b)]
  | .geometric => do
    let a ← logLinspace 1 (len / 2) n
    let b ← logLinspace (1 / 10) (len / 2) n
    .ok [("a", a), ("b", b)]
  | .poisson => do
    let a := npUnique ((linspace 1 len n).map npRound)
    let b ← logLinspace (1 / 10) len n
    .ok [("a", a), ("b", b)]
  | .normal => do
    let N := len + 1
    let ss := ssqdev X + 1
    let lo ← minimum X
    let hi ← maximum X
    let r ← logLinspace (1 / N) N n
    let s ← logLinspace (ss / 100) ss n
    let nu ← logLinspace 1 N n
    .ok [("m", linspace lo (hi + 5) n), ("r", r), ("s", s), ("nu", nu)]
  | .lognormal => do
    let hi ← maximum X
    let m ← logLinspace (1 / 10000) hi n
    let r ← logLinspace (1 / 10) len n
    let nu ← logLinspace (1 / 10) len n
    let s ← logLinspace (1 / 10) len n
    .ok [("m", m), ("r", r), ("nu", nu), ("s", s)]
  | .vonmises _ => do
    let k := estimateKappa X.length kappa
    let _ ← if X.length = 0 then .error .zeroDivision else .ok ()
    let a ← logLinspace (1 / len) len n
    .ok [("a", a), ("b", linspace (2 * Real.pi / n) (2 * Real.pi) n), ("k", linspace k (len * k) n)]
  | .normalTrunc .. => .ok []
  | .beta _ => .ok []

/-- src/primitives/crp.py:149-152 `construct_hyper_grids`. -/
noncomputable def crpGrids (X : List ℝ) (n : ℕ) : Except Exn Grids := do
  let len : ℝ := X.length
  let _ ← if X.length = 0 then .error .zeroDivision else .ok ()
  let alpha ← logLinspace (1 / len) len n
  .ok [("alpha", alpha)]

/-- src/regressions/linreg.py:191-199 `construct_hyper_grids`.  Simplification: without data
`np.var` is NaN and so is the grid of `b`; the AssertionError of `set_hypers` on its values is
reported here instead. -/
noncomputable def linregGrids (X : List ℝ) (n : ℕ) : Except Exn Grids := do
  let N : ℝ := X.length + 1
  let ss := ssqdev X + 1
  let _ ← if X.length = 0 then .error .assertion else .ok ()
  let a ← logLinspace (1 / (10 * N)) (10 * N) n
  let b ← logLinspace (ss / 100) ss n
  .ok [("a", a), ("b", b)]

/-! ### the components a Dim drives -/

/-- What `Dim` calls on the components of its column while it infers hyperparameters. -/
structure Api (K : Type) where
  /-- `set_hypers` -/
  setHypers : K → Hypers → Out K
  /-- `logpdf_score` -/
  score : K → Except Exn Fl
  /-- the constructor, given the hyperparameters -/
  fresh : Hypers → Except Exn K

/-- `hypers[name]`. -/
noncomputable def need (h : Hypers) (name : String) : Except Exn ℝ :=
  match h.get? name with
  | none => .error .keyError
  | some v => .ok v

/-- `assert P`. -/
noncomputable def require (P : Prop) : Except Exn Unit :=
  if P then .ok () else .error .assertion

/-- What `set_hypers` of each primitive reads and asserts, before any assignment:
src/primitives/bernoulli.py:91-95, categorical.py:94-96, exponential.py:90-94, geometric.py:90-94,
poisson.py:94-98, normal.py:107-114, lognormal.py:108-115, vonmises.py:109-115.
normal_trunc.py:132-133 and beta.py:137-138 return at once. -/
noncomputable def readHypers (h : Hypers) : (p : Prim) → p.H → Except Exn p.H
  | .bernoulli, _ => do
    let alpha ← need h "alpha"
    require (alpha > 0)
    let beta ← need h "beta"
    require (beta > 0)
    .ok (⟨alpha, beta⟩ : BernoulliH)
  | .categorical _, _ => do
    let alpha ← need h "alpha"
    require (alpha > 0)
    .ok (⟨alpha⟩ : CategoricalH)
  | .exponential, _ => do
    let a ← need h "a"
    require (a > 0)
    let b ← need h "b"
    require (b > 0)
    .ok (⟨a, b⟩ : AbH)
  | .geometric, _ => do
    let a ← need h "a"
    require (a > 0)
    let b ← need h "b"
    require (b > 0)
    .ok (⟨a, b⟩ : AbH)
  | .poisson, _ => do
    let a ← need h "a"
    require (a > 0)
    let b ← need h "b"
    require (b > 0)
    .ok (⟨a, b⟩ : AbH)
  | .normal, _ => do
    let r ← need h "r"
    require (r > 0)
    let s ← need h "s"
    require (s > 0)
    let nu ← need h "nu"
    require (nu > 0)
    let m ← need h "m"
    .ok (⟨m, r, s, nu⟩ : NormalH)
  | .lognormal, _ => do
    let r ← need h "r"
    require (r > 0)
    let s ← need h "s"
    require (s > 0)
    let nu ← need h "nu"
    require (nu > 0)
    let m ← need h "m"
    .ok (⟨m, r, s, nu⟩ : NormalH)
  | .vonmises _, _ => do
    let a ← need h "a"
    require (a > 0)
    let b ← need h "b"
    require (b > 0)
    require (0 ≤ b ∧ b ≤ 2 * Real.pi)
    let k ← need h "k"
    .ok (⟨a, b, k⟩ : VonmisesH)
  | .normalTrunc .., old => .ok old
  | .beta _, old => .ok old

/-- What the constructor of each primitive reads and asserts: src/primitives/bernoulli.py:40-44,
categorical.py:50-51, exponential.py:40-44, geometric.py:41-45, poisson.py:43-47, normal.py:55-62,
lognormal.py:44-51, vonmises.py:52-58.  `params` are the parameters drawn by normal_trunc.py:50-56
and beta.py:49-54. -/
noncomputable def newHypers (h : Hypers) : (p : Prim) → p.H → Except Exn p.H
  | .bernoulli, _ => do
    let alpha := (h.get? "alpha").getD 1
    let beta := (h.get? "beta").getD 1
    require (alpha > 0)
    require (beta > 0)
    .ok (⟨alpha, beta⟩ : BernoulliH)
  | .categorical _, _ => .ok (⟨(h.get? "alpha").getD 1⟩ : CategoricalH)
  | .exponential, _ => do
    let a := (h.get? "a").getD 1
    let b := (h.get? "b").getD 1
    require (a > 0)
    require (b > 0)
    .ok (⟨a, b⟩ : AbH)
  | .geometric, _ => do
    let a := (h.get? "a").getD 1
    let b := (h.get? "b").getD 1
    require (a > 0)
    require (b > 0)
    .ok (⟨a, b⟩ : AbH)
  | .poisson, _ => do
    let a := (h.get? "a").getD 1
    let b := (h.get? "b").getD 1
    require (a > 0)
    require (b > 0)
    .ok (⟨a, b⟩ : AbH)
  | .normal, _ => do
    let m := (h.get? "m").getD 0
    let r := (h.get? "r").getD 1
    let s := (h.get? "s").getD 1
    let nu := (h.get? "nu").getD 1
    require (s > 0)
    require (r > 0)
    require (nu > 0)
    .ok (⟨m, r, s, nu⟩ : NormalH)
  | .lognormal, _ => do
    let m := (h.get? "m").getD 1
    let r := (h.get? "r").getD 1
    let s := (h.get? "s").getD 1
    let nu := (h.get? "nu").getD 1
    require (r > 0)
    require (s > 0)
    require (nu > 0)
    .ok (⟨m, r, s, nu⟩ : NormalH)
  | .vonmises _, _ => do
    let a := (h.get? "a").getD 1
    let b := (h.get? "b").getD Real.pi
    let k := (h.get? "k").getD (3 / 2)
    require (a > 0)
    require (0 ≤ b ∧ b ≤ 2 * Real.pi)
    require (k > 0)
    .ok (⟨a, b, k⟩ : VonmisesH)
  | .normalTrunc .., params => .ok params
  | .beta _, params => .ok params

/-- The components of a column whose type is the primitive `p`. -/
noncomputable def primApi (p : Prim) (params : p.H) : Api (Comp ℝ p.S p.H) where
  setHypers c h := match readHypers h p c.hyp with
    | .ok k => .ok (c.withHyp k)
    | .error e => .err e c
  score c := .ok (.fin (c.score p.fam))
  fresh h := (newHypers h p params).map (Comp.init p.fam)

/-- The component of the Dim that holds a partition (src/mixtures/view.py:91-97,
src/crosscat/state.py:85-91): src/primitives/crp.py:42-43, 83-84, 93-95. -/
noncomputable def crpApi : Api Crp where
  setHypers c h := match h.get? "alpha" with
    | none => .err .keyError c
    | some a => c.setHypers a
  score c := .ok (.fin c.logpdfScore)
  fresh h := .ok (Crp.init ((h.get? "alpha").getD 1))

/-- A linear regression as the component of a Dim: src/regressions/linreg.py:86-92, 131-134,
165-169. -/
noncomputable def linregApi (g : RegSchema) : Api LinReg.Obj where
  setHypers o h := match h.get? "a" with
    | none => .err .keyError o
    | some a =>
      if ¬ 0 < a then .err .assertion o
      else match h.get? "b" with
        | none => .err .keyError o
        | some b => o.setHypers a b
  score o := o.logpdfScore.map fun r => match r with
    | none => .nan
    | some x => .fin x
  fresh h := .ok ⟨g, .empty,
    { LinReg.Hyp.default g.p with a := (h.get? "a").getD 1, b := (h.get? "b").getD 1 }⟩

/-! ### transitions -/

/-- The attributes of a Dim that hyperparameter inference uses: src/mixtures/dim.py:78-91. -/
structure GDim (K : Type) where
  hypers : Hypers
  grids : Grids
  clusters : Dict Tab K
  aux : K

variable {K : Type}

/-- src/mixtures/dim.py:163-166: hand the hyperparameters to every cluster and add up the scores,
starting from `logp`.  Returns the clusters left behind and the sum. -/
def evalClusters (A : Api K) (h : Hypers) (logp : Fl) : Dict Tab K → Dict Tab K × Except Exn Fl
  | [] => ([], .ok logp)
  | (k, c) :: t =>
    match A.setHypers c h with
    | .err e c' => ((k, c') :: t, .error e)
    | .ok c' =>
      match A.score c' with
      | .error e => ((k, c') :: t, .error e)
      | .ok s => let (t', r) := evalClusters A h (logp.add s) t; ((k, c') :: t', r)

/-- src/mixtures/dim.py:158-167: the log weight of each value of the grid. -/
def gridLogps (A : Api K) (hyper : String) : List ℝ → GDim K → Res (GDim K) (List Fl)
  | [], g => .ok [] g
  | v :: vs, g =>
    let h := g.hypers.set hyper v
    match evalClusters A h (.fin 0) g.clusters with
    | (cl, .error e) => .err e { g with hypers := h, clusters := cl }
    | (cl, .ok w) =>
      match gridLogps A hyper vs { g with hypers := h, clusters := cl } with
      | .err e g' => .err e g'
      | .ok ws g' => .ok (w :: ws) g'

/-- src/mixtures/dim.py:156-170: one hyperparameter; `u` is the uniform draw of `log_pflip`. -/
noncomputable def transitionHyper (A : Api K) (hyper : String) (u : ℝ) (g : GDim K) :
    Out (GDim K) :=
  match g.grids.get? hyper with
  | none => .err .keyError g
  | some grid =>
    match gridLogps A hyper grid g with
    | .err e g' => .err e g'
    | .ok logps g' =>
      match logPflip logps (List.range logps.length) u with
      | .error e => .err e g'
      | .ok i =>
        match grid[i]? with
        | none => .err .indexError g'
        | some v => .ok { g' with hypers := g'.hypers.set hyper v }

/-- src/mixtures/dim.py:171-173: `set_hypers` of every cluster. -/
def setClusters (A : Api K) (h : Hypers) : Dict Tab K → Out (Dict Tab K)
  | [] => .ok []
  | (k, c) :: t =>
    match A.setHypers c h with
    | .err e c' => .err e ((k, c') :: t)
    | .ok c' => (setClusters A h t).map ((k, c') :: ·)

/-- src/mixtures/dim.py:171-174: after the loop. -/
def finish (A : Api K) (g : GDim K) : Out (GDim K) :=
  match setClusters A g.hypers g.clusters with
  | .err e cl => .err e { g with clusters := cl }
  | .ok cl =>
    match A.fresh g.hypers with
    | .error e => .err e { g with clusters := cl }
    | .ok aux => .ok { g with clusters := cl, aux }

/-- src/mixtures/dim.py:152-174 `transition_hypers`.  `draws` lists the names of the
hyperparameters in the shuffled order, each with its uniform draw. -/
noncomputable def transitionHypers (A : Api K) : List (String × ℝ) → GDim K → Out (GDim K)
  | [], g => finish A g
  | (hyper, u) :: t, g => (transitionHyper A hyper u g).bind (transitionHypers A t)

/-- `rng.choice(grid)`, which picks the entry `i`. -/
def choice (grid : List ℝ) (i : ℕ) : Except Exn ℝ :=
  match grid[i]? with
  | none => .error .valueError
  | some v => .ok v

/-- src/mixtures/dim.py:180-182: the first values of the hyperparameters. -/
def firstHypers (pick : String → ℕ) : Grids → Except Exn Hypers
  | [] => .ok []
  | (name, grid) :: t =>
    match choice grid (pick name), firstHypers pick t with
    | .ok v, .ok h => .ok ((name, v) :: h)
    | .error e, _ => .error e
    | _, .error e => .error e

/-- src/mixtures/dim.py:176-183 `transition_hyper_grids`; `construct` is `construct_hyper_grids` of
the column's type, `X` the cells of the column (`none` is NaN) and `pick name` the index drawn from
the grid of `name`. -/
def transitionHyperGrids (A : Api K) (construct : List ℝ → ℕ → Except Exn Grids)
    (pick : String → ℕ) (X : List (Option ℝ)) (n : ℕ) (g : GDim K) : Out (GDim K) :=
  match construct (X.filterMap id) n with
  | .error e => .err e g
  | .ok grids =>
    let g1 := { g with grids }
    match (if g.hypers.isEmpty then firstHypers pick grids else .ok g.hypers) with
    | .error e => .err e g1
    | .ok hypers =>
      match A.fresh hypers with
      | .error e => .err e { g1 with hypers }
      | .ok aux => .ok { g1 with hypers, aux }

/-- src/regressions/linreg.py:147-160 `transition`/`transition_hypers`: a Dim whose only cluster is
the regression; `sweeps` gives the draws of each of the `N` transitions. -/
noncomputable def linregTransition (n : ℕ) (sweeps : List (List (String × ℝ))) (o : LinReg.Obj) :
    Out LinReg.Obj :=
  let A := linregApi o.g
  let h : Hypers := [("a", o.hyp.a), ("b", o.hyp.b)]
  match A.fresh h with
  | .error e => .err e o
  | .ok aux =>
    let g : GDim LinReg.Obj := { hypers := h, grids := [], clusters := [(0, o)], aux }
    let r := (transitionHyperGrids A linregGrids (fun _ => 0) (o.rows.x.vals.map some) n g).bind
      fun g => sweeps.foldl (fun r draws => r.bind (transitionHypers A draws)) (.ok g)
    r.map fun g => (g.clusters.get? 0).getD o

end Cgpm.Hyper
