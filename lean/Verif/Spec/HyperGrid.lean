import Verif.Model.HyperGrid
import Mathlib.MeasureTheory.Integral.IntervalIntegral.Basic

/-!
Specification vocabulary for C56, C57: choices of hyperparameters from grids, averages over
uniform draws, and which hyperparameters are admissible for a type.
-/
namespace Cgpm.Spec.Hyper
open Cgpm Cgpm.Hyper

/-- SPEC. A choice of one entry of every grid, by its position (so that a value that occurs twice
in a grid can be chosen in two ways). -/
abbrev Config (grids : Grids) := (j : Fin grids.length) → Fin grids[j].2.length

/-- SPEC. The hyperparameters chosen. -/
def Config.hypers {grids : Grids} (c : Config grids) : Hypers :=
  List.ofFn fun j => (grids[j].1, grids[j].2[c j])

/-- SPEC. The average of `F` over `n` independent draws, uniform on `[0, 1]`. -/
noncomputable def average : ℕ → (List ℝ → ℝ) → ℝ
  | 0, F => F []
  | n + 1, F => ∫ u in (0 : ℝ)..1, average n fun us => F (u :: us)

/-- SPEC. The hyperparameters of each type of column. -/
def names : Prim → List String
  | .bernoulli => ["alpha", "beta"]
  | .categorical _ => ["alpha"]
  | .exponential => ["a", "b"]
  | .geometric => ["a", "b"]
  | .poisson => ["a", "b"]
  | .normal => ["m", "r", "s", "nu"]
  | .lognormal => ["m", "r", "s", "nu"]
  | .vonmises _ => ["a", "b", "k"]
  | .normalTrunc .. => []
  | .beta _ => []

/-- SPEC. Those that must be positive: all but the location `m`. -/
def positive (p : Prim) : List String := (names p).filter (· ≠ "m")

/-- SPEC. Admissible hyperparameters: all are given, scales and counts are positive, and the
direction `b` of a von Mises is an angle. -/
def Admissible (p : Prim) (h : Hypers) : Prop :=
  (∀ name ∈ names p, ∃ v, h.get? name = some v) ∧
  (∀ name ∈ positive p, ∀ v, h.get? name = some v → 0 < v) ∧
  (∀ f, p = .vonmises f → ∀ v, h.get? "b" = some v → v ≤ 2 * Real.pi)

/-- SPEC. The hyperparameters of a component, read off the dictionary (beta and normal_trunc have
none: they keep their parameters). -/
noncomputable def assign (h : Hypers) : (p : Prim) → p.H → p.H
  | .bernoulli, _ => (⟨(h.get? "alpha").getD 0, (h.get? "beta").getD 0⟩ : BernoulliH)
  | .categorical _, _ => (⟨(h.get? "alpha").getD 0⟩ : CategoricalH)
  | .exponential, _ => (⟨(h.get? "a").getD 0, (h.get? "b").getD 0⟩ : AbH)
  | .geometric, _ => (⟨(h.get? "a").getD 0, (h.get? "b").getD 0⟩ : AbH)
  | .poisson, _ => (⟨(h.get? "a").getD 0, (h.get? "b").getD 0⟩ : AbH)
  | .normal, _ => (⟨(h.get? "m").getD 0, (h.get? "r").getD 0, (h.get? "s").getD 0,
      (h.get? "nu").getD 0⟩ : NormalH)
  | .lognormal, _ => (⟨(h.get? "m").getD 0, (h.get? "r").getD 0, (h.get? "s").getD 0,
      (h.get? "nu").getD 0⟩ : NormalH)
  | .vonmises _, _ => (⟨(h.get? "a").getD 0, (h.get? "b").getD 0, (h.get? "k").getD 0⟩ : VonmisesH)
  | .normalTrunc .., old => old
  | .beta _, old => old

/-- SPEC. The log marginal likelihood of the column under the hyperparameters `h`: the sum over its
clusters of the score of the cluster's data under `h`. -/
noncomputable def columnScore (p : Prim) (h : Hypers) (clusters : Dict Tab (Comp ℝ p.S p.H)) : ℝ :=
  (clusters.map fun kc => p.fam.score (assign h p kc.2.hyp) kc.2.stat).sum

/-- SPEC. The log probability of the partitions under the concentration in `h`. -/
noncomputable def crpScore (h : Hypers) (clusters : Dict Tab Crp) : ℝ :=
  (clusters.map fun kc =>
    Crp.calcLogpdfMarginal kc.2.N kc.2.counts.vals ((h.get? "alpha").getD 0)).sum

/-- SPEC. The linear regression `o` with other values of `a` and `b`. -/
def withAB (o : LinReg.Obj) (a b : ℝ) : LinReg.Obj := ⟨o.g, o.rows, ⟨a, b, o.hyp.mu, o.hyp.V⟩⟩

end Cgpm.Spec.Hyper
