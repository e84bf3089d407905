import Verif.Model.Primitives
import Verif.Model.Forest
import Mathlib.Probability.Distributions.Beta
import Mathlib.Probability.Distributions.Exponential
import Mathlib.Probability.Distributions.Gaussian.Real
import Mathlib.Analysis.SpecialFunctions.Complex.Arg

/-
The `simulate` methods of the components of src/primitives.

Simplifications:
* numpy's generators are the distributions their documentation names (`npBeta` and so on below): each
  draw is a measure on the reals.  Numbers are reals.
* A generator is only asked with parameters numpy accepts in the states the theorems speak of; the
  exceptions numpy raises for others are not modelled.
* The attribute `outputs` of a component is an argument (`out`): components of Model/Primitives have
  exactly one output.
-/
namespace Cgpm
open Classical MeasureTheory ProbabilityTheory

/-- A program that draws real numbers.  (Nothing in /repo: what Python's statements are made of.) -/
inductive Draws (α : Type) : Type
  | pure (a : α)
  | raise (e : Exn)
  /-- a call of a generator, whose answers have the law `law` -/
  | draw (law : Measure ℝ) (k : ℝ → Draws α)

/-- Sequencing of statements. -/
def Draws.bind {α β : Type} : Draws α → (α → Draws β) → Draws β
  | .pure a, f => f a
  | .raise e, _ => .raise e
  | .draw law k, f => .draw law fun x => (k x).bind f

/-- `rng.beta(a, b)`. -/
noncomputable def npBeta (a b : ℝ) : Measure ℝ := betaMeasure a b

/-- `rng.gamma(shape, scale=scale)`. -/
noncomputable def npGamma (shape scale : ℝ) : Measure ℝ := gammaMeasure shape (1 / scale)

/-- `rng.exponential(scale=scale)`. -/
noncomputable def npExponential (scale : ℝ) : Measure ℝ := expMeasure (1 / scale)

/-- `rng.normal(loc=loc, scale=scale)`. -/
noncomputable def npNormal (loc scale : ℝ) : Measure ℝ := gaussianReal loc (Real.toNNReal (scale ^ 2))

/-- `rng.geometric(p)`: the number of trials up to the first success, so at least 1. -/
noncomputable def npGeometric (p : ℝ) : Measure ℝ :=
  Measure.sum fun n : ℕ => ENNReal.ofReal ((1 - p) ^ n * p) • Measure.dirac ((n : ℝ) + 1)

/-- `rng.negative_binomial(n, p)`: failures before success number `n` (which need not be whole). -/
noncomputable def npNegativeBinomial (n p : ℝ) : Measure ℝ :=
  Measure.sum fun k : ℕ => ENNReal.ofReal
    (Real.Gamma (n + k) / (Real.Gamma n * k.factorial) * p ^ n * (1 - p) ^ k) • Measure.dirac (k : ℝ)

/-- `rng.vonmises(mu, kappa)`: an angle between -π and π with density proportional to
`exp(kappa cos(x - mu))`. -/
noncomputable def npVonmises (mu kappa : ℝ) : Measure ℝ :=
  (volume.restrict (Set.Ioc (-Real.pi) Real.pi)).withDensity fun x =>
    ENNReal.ofReal (Real.exp (kappa * Real.cos (x - mu))
      / ∫ t in (-Real.pi)..Real.pi, Real.exp (kappa * Real.cos t))

/-- `rng.choice(len(p), p=p)`. -/
noncomputable def npChoice (p : List ℝ) : Measure ℝ :=
  Measure.sum fun i : ℕ => ENNReal.ofReal (p.getD i 0) • Measure.dirac (i : ℝ)

/-- The programs of Model/Rand among those that draw real numbers. -/
noncomputable def Draws.ofRand {α : Type} : Rand α → Draws α
  | .pure a => .pure a
  | .raise e => .raise e
  | .choice p k => .draw (npChoice p) fun x => ofRand (k ⌊x⌋₊)
  | .normal m s k => .draw (npNormal m s) fun x => ofRand (k x)

/-- src/utils/general.py:128-139 `pflip` with `array=None` and `size=None`. -/
noncomputable def Rand.pflip (p : List ℝ) : Rand Nat :=
  if p.length = 1 then .pure 0
  else if p.sum = 0 then .raise .valueError
  else Rand.draw (p.map fun x => x / p.sum)

/-- src/primitives/bernoulli.py:73-77. -/
noncomputable def bernoulliDraw (h : BernoulliH) (s : BernoulliS) : Draws ℝ :=
  let p0 := bernoulliPredictive 0 s.N s.x_sum h.alpha h.beta
  let p1 := bernoulliPredictive 1 s.N s.x_sum h.alpha h.beta
  Draws.ofRand ((Rand.logPflip [.fin p0, .fin p1] [0, 1]).bind fun i : Nat => .pure (i : ℝ))

/-- src/primitives/categorical.py:81. -/
noncomputable def categoricalDraw (h : CategoricalH) (s : CategoricalS) : Draws ℝ :=
  Draws.ofRand ((Rand.pflip (s.counts.map fun c : ℤ => (c : ℝ) + h.alpha)).bind fun i =>
    .pure (i : ℝ))

/-- src/primitives/exponential.py:73-76. -/
noncomputable def exponentialDraw (h : AbH) (s : SumS) : Draws ℝ :=
  let an := h.a + s.N
  let bn := h.b + s.sum_x
  .draw (npGamma an (1 / bn)) fun mu => .draw (npExponential (1 / mu)) fun x => .pure x

/-- src/primitives/geometric.py:74-76. -/
noncomputable def geometricDraw (h : AbH) (s : SumS) : Draws ℝ :=
  let an := h.a + s.N
  let bn := h.b + s.sum_x
  .draw (npBeta an bn) fun pn => .draw (npGeometric pn) fun x => .pure (x - 1)

/-- src/primitives/poisson.py:78-80. -/
noncomputable def poissonDraw (h : AbH) (s : PoissonS) : Draws ℝ :=
  let an := h.a + s.sum_x
  let bn := h.b + s.N
  .draw (npNegativeBinomial an (bn / (bn + 1))) fun x => .pure x

/-- src/primitives/normal.py:90-93 with `sample_parameters` :203-206. -/
noncomputable def normalDraw (h : NormalH) (N : ℤ) (sum_x sum_x_sq : ℝ) : Draws ℝ :=
  let q := normalPosterior N sum_x sum_x_sq h.m h.r h.s h.nu
  .draw (npGamma (q.2.2.2 / 2) (2 / q.2.2.1)) fun rho =>
    .draw (npNormal q.1 (1 / (rho * q.2.1) ^ (1 / 2 : ℝ))) fun mu =>
      .draw (npNormal mu (rho ^ (-(1 / 2) : ℝ))) fun x => .pure x

/-- src/primitives/lognormal.py:87-92. -/
noncomputable def lognormalDraw (h : NormalH) (s : LognormalS) : Draws ℝ :=
  (normalDraw h s.N s.sum_log_x s.sum_log_x_sq).bind fun xn => .pure (Real.exp xn)

/-- Python's `math.atan2(y, x)`. -/
noncomputable def atan2 (y x : ℝ) : ℝ := Complex.arg ⟨x, y⟩

/-- src/primitives/vonmises.py:193-202 `posterior_hypers`, second component `bn`. -/
noncomputable def vonmisesBn (sum_sin_x sum_cos_x a b k : ℝ) : ℝ :=
  let p_cos := k * sum_cos_x + a * Real.cos b
  let p_sin := k * sum_sin_x + a * Real.sin b;
  -atan2 p_cos p_sin + Real.pi / 2

/-- src/primitives/vonmises.py:89-95, with the assertions of `posterior_hypers` :194-197. -/
noncomputable def vonmisesDraw (h : VonmisesH) (s : VonmisesS) : Draws ℝ :=
  if 0 ≤ s.N ∧ 0 < h.a ∧ (0 ≤ h.b ∧ h.b ≤ 2 * Real.pi) ∧ 0 < h.k then
    let an := vonmisesAn s.sum_sin_x s.sum_cos_x h.a h.b h.k
    let bn := vonmisesBn s.sum_sin_x s.sum_cos_x h.a h.b h.k
    .draw (npVonmises (bn - Real.pi) an) fun mu0 =>
      let mu := mu0 + Real.pi
      .draw (npVonmises (mu - Real.pi) h.k) fun x0 =>
        let x := x0 + Real.pi
        if 0 ≤ x ∧ x ≤ 2 * Real.pi then .pure x else .raise .assertion
  else .raise .assertion

/-- src/primitives/beta.py:91-93. -/
noncomputable def betaDraw (h : BetaP) : Draws ℝ :=
  let alpha := h.strength * h.balance
  let beta := h.strength * (1 - h.balance)
  .draw (npBeta alpha beta) fun x => .pure x

/-- src/primitives/normal_trunc.py:92-97: the loop, with `n` iterations to go. -/
noncomputable def truncLoop (l h mu sigma : ℝ) : Nat → Draws ℝ
  | 0 => .raise .runtime
  | n + 1 => .draw (npNormal mu sigma) fun x =>
      if l ≤ x ∧ x ≤ h then .pure x else truncLoop l h mu sigma n

/-- src/primitives/normal_trunc.py:91-97. -/
noncomputable def normalTruncDraw (l h : ℝ) (q : NormalTruncP) : Draws ℝ :=
  truncLoop l h q.mu q.sigma 1000

/-- What `simulate` of each component does for a row that is not incorporated. -/
noncomputable def Prim.sample : (p : Prim) → p.H → p.S → Draws ℝ
  | .bernoulli, h, s => bernoulliDraw h s
  | .categorical _, h, s => categoricalDraw h s
  | .exponential, h, s => exponentialDraw h s
  | .geometric, h, s => geometricDraw h s
  | .poisson, h, s => poissonDraw h s
  | .normal, h, s => normalDraw h (NormalS.N s) (NormalS.sum_x s) (NormalS.sum_x_sq s)
  | .lognormal, h, s => lognormalDraw h s
  | .vonmises _, h, s => vonmisesDraw h s
  | .normalTrunc l u _ _, h, _ => normalTruncDraw l u h
  | .beta _, h, _ => betaDraw h

/-- `simulate` of a component, without `N`: src/primitives/distribution.py:61-64, then e.g.
src/primitives/bernoulli.py:71-78. -/
noncomputable def Prim.simulate (p : Prim) (c : Comp ℝ p.S p.H) (out : Col) (rowid : Option Row)
    (targets : List Col) (constraints inputs : Dict Col ℝ) : Draws (Dict Col ℝ) :=
  if ¬ constraints.isEmpty then .raise .assertion
  else if ¬ inputs.isEmpty then .raise .assertion
  else if targets ≠ [out] then .raise .assertion
  else match rowid.bind c.data.get? with
    | some x => .pure [(out, x)]
    | none => (p.sample c.hyp c.stat).bind fun x => .pure [(out, x)]

/-- src/utils/general.py:402-412 `simulate_many`: `N` calls. -/
def Draws.many {α : Type} (m : Draws α) : Nat → Draws (List α)
  | 0 => .pure []
  | n + 1 => m.bind fun a => (m.many n).bind fun l => .pure (a :: l)

/-- src/primitives/crp.py:72-81 `Crp.simulate` after its assertions. -/
noncomputable def Crp.draw (s : Crp) (rowid : Option Row) : Rand Tab :=
  match rowid.bind s.data.get? with
  | some x => .pure x
  | none => Rand.logPflip (s.simulateSupport.map fun x => Fl.ofLogP (s.logpdf rowid x)) s.simulateSupport

end Cgpm
