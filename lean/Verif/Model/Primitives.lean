import Verif.Model.Comp
import Mathlib.Analysis.SpecialFunctions.Trigonometric.Basic

/-
The ten univariate primitives of src/primitives as `Family`s over the reals.
Each statistics structure uses the attribute names of the code.
-/
namespace Cgpm
open Classical

/-- Python's `x % 1 == 0`. -/
def isInt (x : ℝ) : Prop := ∃ n : ℤ, x = n

/-! ### bernoulli -/

/-- src/primitives/bernoulli.py:36-38. -/
@[ext] structure BernoulliS where
  N : ℤ
  x_sum : ℝ

/-- src/primitives/bernoulli.py:39-44. -/
structure BernoulliH where
  alpha : ℝ
  beta : ℝ

/-- src/primitives/bernoulli.py:141-146 `calc_predictive_logp`. -/
noncomputable def bernoulliPredictive (x : ℝ) (N : ℤ) (x_sum alpha beta : ℝ) : ℝ :=
  let log_denom := Real.log (N + alpha + beta)
  if x = 1 then Real.log (x_sum + alpha) - log_denom
  else Real.log (N - x_sum + beta) - log_denom

/-- src/primitives/bernoulli.py:149-150 `calc_logpdf_marginal`. -/
noncomputable def bernoulliMarginal (N : ℤ) (x_sum alpha beta : ℝ) : ℝ :=
  betaln (x_sum + alpha) (N - x_sum + beta) - betaln alpha beta

/-- src/primitives/bernoulli.py:46-66, 80-82, 91-95. -/
noncomputable def bernoulli : Family ℝ BernoulliS BernoulliH where
  prep x := if x = 0 ∨ x = 1 then .ok x else .error .valueError
  zero := ⟨0, 0⟩
  add s x := ⟨s.N + 1, s.x_sum + x⟩
  sub s x := ⟨s.N - 1, s.x_sum - x⟩
  hypOk h := h.alpha > 0 ∧ h.beta > 0
  logpdf h s x := if x = 0 ∨ x = 1 then
      ((bernoulliPredictive x s.N s.x_sum h.alpha h.beta : ℝ) : LogP) else ⊥
  score h s := bernoulliMarginal s.N s.x_sum h.alpha h.beta

/-! ### categorical -/

/-- src/primitives/categorical.py:46-48; `counts` is a float array of length `k`. -/
@[ext] structure CategoricalS where
  N : ℤ
  counts : List ℤ

/-- src/primitives/categorical.py:49-51. -/
structure CategoricalH where
  alpha : ℝ

/-- The test of src/primitives/categorical.py:56 and :71. -/
def categoricalOk (k : ℕ) (x : ℝ) : Prop := isInt x ∧ 0 ≤ x ∧ x < k

/-- src/primitives/categorical.py:145-148 `calc_predictive_logp`; `x` is in range
whenever this is called, an IndexError is not modelled. -/
noncomputable def categoricalPredictive (x : ℕ) (counts : List ℤ) (alpha : ℝ) : ℝ :=
  Real.log (alpha + (counts[x]?.getD 0 : ℤ)) - Real.log ((counts.sum : ℤ) + alpha * counts.length)

/-- src/primitives/categorical.py:151-155 `calc_logpdf_marginal`. -/
noncomputable def categoricalMarginal (N : ℤ) (counts : List ℤ) (alpha : ℝ) : ℝ :=
  let K : ℝ := counts.length
  let A := K * alpha
  let lg := (counts.map (fun c : ℤ => gammaln (c + alpha))).sum
  gammaln A - gammaln (A + N) + lg - K * gammaln alpha

/-- src/primitives/categorical.py:53-74, 84-85, 94-96.  `int(x)` is the floor. -/
noncomputable def categorical (k : ℕ) : Family ℝ CategoricalS CategoricalH where
  prep x := if categoricalOk k x then .ok ((⌊x⌋ : ℤ) : ℝ) else .error .valueError
  zero := ⟨0, List.replicate k 0⟩
  add s x := ⟨s.N + 1, s.counts.modify ⌊x⌋.toNat (· + 1)⟩
  sub s x := ⟨s.N - 1, s.counts.modify ⌊x⌋.toNat (· - 1)⟩
  hypOk h := h.alpha > 0
  logpdf h s x := if categoricalOk k x then
      ((categoricalPredictive ⌊x⌋.toNat s.counts h.alpha : ℝ) : LogP) else ⊥
  score h s := categoricalMarginal s.N s.counts h.alpha

/-! ### the gamma/beta conjugate families on one sum -/

/-- src/primitives/exponential.py:36-38, geometric.py:37-39. -/
@[ext] structure SumS where
  N : ℤ
  sum_x : ℝ

/-- src/primitives/exponential.py:40-44, geometric.py:40-45, poisson.py:42-47. -/
structure AbH where
  a : ℝ
  b : ℝ

/-- src/primitives/exponential.py:161-163 and poisson.py:168-170 `calc_log_Z`. -/
noncomputable def gammaLogZ (a b : ℝ) : ℝ := gammaln a - a * Real.log b

/-- src/primitives/exponential.py:140-145 with `posterior_hypers` :155-158. -/
noncomputable def exponentialPredictive (x : ℝ) (N : ℤ) (sum_x a b : ℝ) : ℝ :=
  gammaLogZ (a + (N + 1 : ℤ)) (b + (sum_x + x)) - gammaLogZ (a + N) (b + sum_x)

/-- src/primitives/exponential.py:148-152. -/
noncomputable def exponentialMarginal (N : ℤ) (sum_x a b : ℝ) : ℝ :=
  gammaLogZ (a + N) (b + sum_x) - gammaLogZ a b

/-- src/primitives/exponential.py:46-66, 79-81, 90-94. -/
noncomputable def exponential : Family ℝ SumS AbH where
  prep x := if x < 0 then .error .valueError else .ok x
  zero := ⟨0, 0⟩
  add s x := ⟨s.N + 1, s.sum_x + x⟩
  sub s x := ⟨s.N - 1, s.sum_x - x⟩
  hypOk h := h.a > 0 ∧ h.b > 0
  logpdf h s x := if x < 0 then ⊥
    else ((exponentialPredictive x s.N s.sum_x h.a h.b : ℝ) : LogP)
  score h s := exponentialMarginal s.N s.sum_x h.a h.b

/-- src/primitives/geometric.py:140-145 with `posterior_hypers` :155-158 and
`calc_log_Z` :161-162. -/
noncomputable def geometricPredictive (x : ℝ) (N : ℤ) (sum_x a b : ℝ) : ℝ :=
  betaln (a + (N + 1 : ℤ)) (b + (sum_x + x)) - betaln (a + N) (b + sum_x)

/-- src/primitives/geometric.py:148-152. -/
noncomputable def geometricMarginal (N : ℤ) (sum_x a b : ℝ) : ℝ :=
  betaln (a + N) (b + sum_x) - betaln a b

/-- src/primitives/geometric.py:47-67, 79-81, 90-94.  The refusal at line 51 is
`raise ValueError('...') % str(x)`, which raises TypeError instead. -/
noncomputable def geometric : Family ℝ SumS AbH where
  prep x := if isInt x ∧ 0 ≤ x then .ok x else .error .typeError
  zero := ⟨0, 0⟩
  add s x := ⟨s.N + 1, s.sum_x + x⟩
  sub s x := ⟨s.N - 1, s.sum_x - x⟩
  hypOk h := h.a > 0 ∧ h.b > 0
  logpdf h s x := if isInt x ∧ 0 ≤ x then
      ((geometricPredictive x s.N s.sum_x h.a h.b : ℝ) : LogP) else ⊥
  score h s := geometricMarginal s.N s.sum_x h.a h.b

/-! ### poisson -/

/-- src/primitives/poisson.py:38-41. -/
@[ext] structure PoissonS where
  N : ℤ
  sum_x : ℝ
  sum_log_fact_x : ℝ

/-- src/primitives/poisson.py:147-152 with `posterior_hypers` :162-165. -/
noncomputable def poissonPredictive (x : ℝ) (N : ℤ) (sum_x a b : ℝ) : ℝ :=
  gammaLogZ (a + (sum_x + x)) (b + (N + 1 : ℤ)) - gammaLogZ (a + sum_x) (b + N) - gammaln (x + 1)

/-- src/primitives/poisson.py:155-159. -/
noncomputable def poissonMarginal (N : ℤ) (sum_x sum_log_fact_x a b : ℝ) : ℝ :=
  gammaLogZ (a + sum_x) (b + N) - gammaLogZ a b - sum_log_fact_x

/-- src/primitives/poisson.py:49-71, 83-85, 94-98. -/
noncomputable def poisson : Family ℝ PoissonS AbH where
  prep x := if isInt x ∧ 0 ≤ x then .ok x else .error .valueError
  zero := ⟨0, 0, 0⟩
  add s x := ⟨s.N + 1, s.sum_x + x, s.sum_log_fact_x + gammaln (x + 1)⟩
  sub s x := ⟨s.N - 1, s.sum_x - x, s.sum_log_fact_x - gammaln (x + 1)⟩
  hypOk h := h.a > 0 ∧ h.b > 0
  logpdf h s x := if isInt x ∧ 0 ≤ x then
      ((poissonPredictive x s.N s.sum_x h.a h.b : ℝ) : LogP) else ⊥
  score h s := poissonMarginal s.N s.sum_x s.sum_log_fact_x h.a h.b

/-! ### normal, lognormal -/

/-- src/primitives/normal.py:50-53 (and normal_trunc.py:43-46). -/
@[ext] structure NormalS where
  N : ℤ
  sum_x : ℝ
  sum_x_sq : ℝ

/-- src/primitives/normal.py:54-62. -/
structure NormalH where
  m : ℝ
  r : ℝ
  s : ℝ
  nu : ℝ

/-- src/primitives/normal.py:28-29. -/
noncomputable def LOG2PI : ℝ := Real.log 2 + Real.log Real.pi

/-- src/primitives/normal.py:184-191 `posterior_hypers`: returns (mn, rn, sn, nun). -/
noncomputable def normalPosterior (N : ℤ) (sum_x sum_x_sq m r s nu : ℝ) : ℝ × ℝ × ℝ × ℝ :=
  let rn := r + N
  let nun := nu + N
  let mn := (r * m + sum_x) / rn
  let sn := s + sum_x_sq + r * m * m - rn * mn * mn
  let sn := if sn = 0 then s else sn
  (mn, rn, sn, nun)

/-- src/primitives/normal.py:194-200 `calc_log_Z`. -/
noncomputable def normalLogZ (r s nu : ℝ) : ℝ :=
  ((nu + 1) / 2) * Real.log 2 + (1/2) * Real.log Real.pi - (1/2) * Real.log r
    - (nu / 2) * Real.log s + gammaln (nu / 2)

/-- src/primitives/normal.py:166-173 `calc_predictive_logp`. -/
noncomputable def normalPredictive (x : ℝ) (N : ℤ) (sum_x sum_x_sq m r s nu : ℝ) : ℝ :=
  let p := normalPosterior N sum_x sum_x_sq m r s nu
  let q := normalPosterior (N + 1) (sum_x + x) (sum_x_sq + x * x) m r s nu
  let ZN := normalLogZ p.2.1 p.2.2.1 p.2.2.2
  let ZM := normalLogZ q.2.1 q.2.2.1 q.2.2.2;
  -(1/2) * LOG2PI + ZM - ZN

/-- src/primitives/normal.py:176-181 `calc_logpdf_marginal`. -/
noncomputable def normalMarginal (N : ℤ) (sum_x sum_x_sq m r s nu : ℝ) : ℝ :=
  let p := normalPosterior N sum_x sum_x_sq m r s nu
  let Z0 := normalLogZ r s nu
  let ZN := normalLogZ p.2.1 p.2.2.1 p.2.2.2;
  -((N : ℝ) / 2) * LOG2PI + ZN - Z0

/-- src/primitives/normal.py:64-83, 96-98, 107-114. -/
noncomputable def normal : Family ℝ NormalS NormalH where
  prep x := .ok x
  zero := ⟨0, 0, 0⟩
  add s x := ⟨s.N + 1, s.sum_x + x, s.sum_x_sq + x * x⟩
  sub s x := ⟨s.N - 1, s.sum_x - x, s.sum_x_sq - x * x⟩
  hypOk h := h.r > 0 ∧ h.s > 0 ∧ h.nu > 0
  logpdf h s x := ((normalPredictive x s.N s.sum_x s.sum_x_sq h.m h.r h.s h.nu : ℝ) : LogP)
  score h s := normalMarginal s.N s.sum_x s.sum_x_sq h.m h.r h.s h.nu

/-- src/primitives/lognormal.py:39-42. -/
@[ext] structure LognormalS where
  N : ℤ
  sum_log_x : ℝ
  sum_log_x_sq : ℝ

/-- src/primitives/lognormal.py:53-77, 95-99, 108-115. -/
noncomputable def lognormal : Family ℝ LognormalS NormalH where
  prep x := if x ≤ 0 then .error .valueError else .ok x
  zero := ⟨0, 0, 0⟩
  add s x := ⟨s.N + 1, s.sum_log_x + Real.log x, s.sum_log_x_sq + Real.log x * Real.log x⟩
  sub s x := ⟨s.N - 1, s.sum_log_x - Real.log x, s.sum_log_x_sq - Real.log x * Real.log x⟩
  hypOk h := h.r > 0 ∧ h.s > 0 ∧ h.nu > 0
  logpdf h s x := if x ≤ 0 then ⊥ else ((-Real.log x + normalPredictive (Real.log x) s.N
      s.sum_log_x s.sum_log_x_sq h.m h.r h.s h.nu : ℝ) : LogP)
  score h s := -s.sum_log_x + normalMarginal s.N s.sum_log_x s.sum_log_x_sq h.m h.r h.s h.nu

/-! ### vonmises -/

/-- src/primitives/vonmises.py:46-49. -/
@[ext] structure VonmisesS where
  N : ℤ
  sum_sin_x : ℝ
  sum_cos_x : ℝ

/-- src/primitives/vonmises.py:50-58. -/
structure VonmisesH where
  a : ℝ
  b : ℝ
  k : ℝ

/-- src/primitives/vonmises.py:193-202 `posterior_hypers`, first component `an`
(`x**.5` is the square root; the assertions are on hyperparameters). -/
noncomputable def vonmisesAn (sum_sin_x sum_cos_x a b k : ℝ) : ℝ :=
  let p_cos := k * sum_cos_x + a * Real.cos b
  let p_sin := k * sum_sin_x + a * Real.sin b
  Real.sqrt (p_cos ^ 2 + p_sin ^ 2)

/-- src/primitives/vonmises.py:167-176; `logI0` is `log_bessel_0`, an arbitrary
function here. Not modelled: the assertion `a > 0` of `calc_log_Z` (line 206). -/
noncomputable def vonmisesPredictive (logI0 : ℝ → ℝ) (x sum_sin_x sum_cos_x a b k : ℝ) : ℝ :=
  let an := vonmisesAn sum_sin_x sum_cos_x a b k
  let am := vonmisesAn (sum_sin_x + Real.sin x) (sum_cos_x + Real.cos x) a b k;
  -Real.log (2 * Real.pi) - logI0 k + logI0 am - logI0 an

/-- src/primitives/vonmises.py:179-190. -/
noncomputable def vonmisesMarginal (logI0 : ℝ → ℝ) (N : ℤ) (sum_sin_x sum_cos_x a b k : ℝ) : ℝ :=
  let an := vonmisesAn sum_sin_x sum_cos_x a b k;
  -(N : ℝ) * (Real.log (2 * Real.pi) + logI0 k) + logI0 an - logI0 a

/-- src/primitives/vonmises.py:60-82, 98-100, 109-115 (`set_hypers` does not check `k`). -/
noncomputable def vonmises (logI0 : ℝ → ℝ) : Family ℝ VonmisesS VonmisesH where
  prep x := if 0 ≤ x ∧ x ≤ 2 * Real.pi then .ok x else .error .valueError
  zero := ⟨0, 0, 0⟩
  add s x := ⟨s.N + 1, s.sum_sin_x + Real.sin x, s.sum_cos_x + Real.cos x⟩
  sub s x := ⟨s.N - 1, s.sum_sin_x - Real.sin x, s.sum_cos_x - Real.cos x⟩
  hypOk h := h.a > 0 ∧ h.b > 0 ∧ h.b ≤ 2 * Real.pi
  logpdf h s x := if 0 ≤ x ∧ x ≤ 2 * Real.pi then
      ((vonmisesPredictive logI0 x s.sum_sin_x s.sum_cos_x h.a h.b h.k : ℝ) : LogP) else ⊥
  score h s := vonmisesMarginal logI0 s.N s.sum_sin_x s.sum_cos_x h.a h.b h.k

/-! ### normal_trunc, beta (uncollapsed) -/

/-- Current parameters of src/primitives/normal_trunc.py:40-56 (`l`, `h` are distargs). -/
structure NormalTruncP where
  mu : ℝ
  sigma : ℝ

/-- `scipy.stats.norm.logpdf`. -/
noncomputable def normLogpdf (x mu sigma : ℝ) : ℝ :=
  -(1/2) * Real.log (2 * Real.pi) - Real.log sigma - (x - mu) ^ 2 / (2 * sigma * sigma)

/-- src/primitives/normal_trunc.py:186-191 `calc_log_likelihood`. -/
noncomputable def normalTruncLoglik (N : ℤ) (sum_x sum_x_sq sigma mu : ℝ) : ℝ :=
  -((N : ℝ) / 2) * Real.log (2 * Real.pi) - N * Real.log sigma
    - 1 / (2 * sigma * sigma) * (N * mu ^ 2 - 2 * mu * sum_x + sum_x_sq)

/-- src/primitives/normal_trunc.py:58-84, 99-106.  `logZ mu sigma` is
`calc_log_normalizer` (line 176) and `logPrior mu sigma` is `calc_log_prior`
(line 194): both arbitrary here. -/
noncomputable def normalTrunc (l h : ℝ) (logZ logPrior : ℝ → ℝ → ℝ) :
    Family ℝ NormalS NormalTruncP where
  prep x := if l ≤ x ∧ x ≤ h then .ok x else .error .valueError
  zero := ⟨0, 0, 0⟩
  add s x := ⟨s.N + 1, s.sum_x + x, s.sum_x_sq + x * x⟩
  sub s x := ⟨s.N - 1, s.sum_x - x, s.sum_x_sq - x * x⟩
  hypOk _ := True
  logpdf p _ x := if l ≤ x ∧ x ≤ h then
      ((normLogpdf x p.mu p.sigma - logZ p.mu p.sigma : ℝ) : LogP) else ⊥
  score p s := normalTruncLoglik s.N s.sum_x s.sum_x_sq p.sigma p.mu + logPrior p.mu p.sigma
      - s.N * logZ p.mu p.sigma

/-- src/primitives/beta.py:40-43. -/
@[ext] structure BetaS where
  N : ℤ
  sum_log_x : ℝ
  sum_minus_log_x : ℝ

/-- Current parameters of src/primitives/beta.py:48-54. -/
structure BetaP where
  strength : ℝ
  balance : ℝ

/-- `np.allclose(c, x)` with the default tolerances. -/
def allclose (c x : ℝ) : Prop := |c - x| ≤ 1 / 10 ^ 8 + 1 / 10 ^ 5 * |x|

/-- src/primitives/beta.py:62-65: values numerically equal to 0 or 1 are clamped. -/
noncomputable def betaClamp (x : ℝ) : ℝ :=
  if allclose 0 x then 1 / 1000 else if allclose 1 x then 999 / 1000 else x

/-- src/primitives/beta.py:183-187: `scipy.stats.beta.logpdf`. -/
noncomputable def betaPredictive (x strength balance : ℝ) : ℝ :=
  let alpha := strength * balance
  let beta := strength * (1 - balance)
  (alpha - 1) * Real.log x + (beta - 1) * Real.log (1 - x) - betaln alpha beta

/-- src/primitives/beta.py:190-200 `calc_log_likelihood`. -/
noncomputable def betaLoglik (N : ℤ) (sum_log_x sum_minus_log_x strength balance : ℝ) : ℝ :=
  let alpha := strength * balance
  let beta := strength * (1 - balance)
  0 - N * betaln alpha beta + (alpha - 1) * sum_log_x + (beta - 1) * sum_minus_log_x

/-- src/primitives/beta.py:59-84, 96-102; `logPrior` is `calc_log_prior` (line 203). -/
noncomputable def beta (logPrior : ℝ → ℝ → ℝ) : Family ℝ BetaS BetaP where
  prep x := if 0 < betaClamp x ∧ betaClamp x < 1 then .ok (betaClamp x) else .error .valueError
  zero := ⟨0, 0, 0⟩
  add s x := ⟨s.N + 1, s.sum_log_x + Real.log x, s.sum_minus_log_x + Real.log (1 - x)⟩
  sub s x := ⟨s.N - 1, s.sum_log_x - Real.log x, s.sum_minus_log_x - Real.log (1 - x)⟩
  hypOk _ := True
  logpdf p _ x := if 0 < x ∧ x < 1 then
      ((betaPredictive x p.strength p.balance : ℝ) : LogP) else ⊥
  score p s := betaLoglik s.N s.sum_log_x s.sum_minus_log_x p.strength p.balance
      + logPrior p.strength p.balance

/-! ### the ten primitives as one type -/

/-- The components the library can build, with their distargs: src/utils/config.py:25-40
(the cctype names). `crp` is modelled separately in `Verif/Model/Crp.lean`. -/
inductive Prim
  | bernoulli | categorical (k : ℕ) | exponential | geometric | poisson
  | normal | lognormal | vonmises (logI0 : ℝ → ℝ)
  | normalTrunc (l h : ℝ) (logZ logPrior : ℝ → ℝ → ℝ)
  | beta (logPrior : ℝ → ℝ → ℝ)

/-- Statistics type of each primitive. -/
def Prim.S : Prim → Type
  | .bernoulli => BernoulliS | .categorical _ => CategoricalS
  | .exponential => SumS | .geometric => SumS | .poisson => PoissonS
  | .normal => NormalS | .lognormal => LognormalS | .vonmises _ => VonmisesS
  | .normalTrunc .. => NormalS | .beta _ => BetaS

/-- Hyperparameter (or parameter) type of each primitive. -/
def Prim.H : Prim → Type
  | .bernoulli => BernoulliH | .categorical _ => CategoricalH
  | .exponential => AbH | .geometric => AbH | .poisson => AbH
  | .normal => NormalH | .lognormal => NormalH | .vonmises _ => VonmisesH
  | .normalTrunc .. => NormalTruncP | .beta _ => BetaP

/-- The implementation of each primitive. -/
noncomputable def Prim.fam : (p : Prim) → Family ℝ p.S p.H
  | .bernoulli => Cgpm.bernoulli | .categorical k => Cgpm.categorical k
  | .exponential => Cgpm.exponential | .geometric => Cgpm.geometric | .poisson => Cgpm.poisson
  | .normal => Cgpm.normal | .lognormal => Cgpm.lognormal
  | .vonmises f => Cgpm.vonmises f
  | .normalTrunc l h z p => Cgpm.normalTrunc l h z p | .beta p => Cgpm.beta p

end Cgpm
