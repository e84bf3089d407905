import Verif.Model.Samplers
import Verif.Model.PrimSimulate

/-
`mh_sample` as a program that draws numbers, src/utils/sampling.py:25-144, and the parameter
transitions that call it with the log densities they give it: src/primitives/beta.py:108-135 and
src/primitives/normal_trunc.py:112-130.

Simplifications: as in Model/Samplers and Model/PrimSimulate (the loop runs with a bound `n` on the
number of its iterations and returns `none` when it is too small; a list of samples is returned).
-/
namespace Cgpm.Sampler
open Cgpm Classical MeasureTheory ProbabilityTheory

/-- `rng.uniform(low, high)`; `rng.rand()` is the case 0, 1. -/
noncomputable def npUniform (low high : ℝ) : Measure ℝ :=
  (ENNReal.ofReal (high - low))⁻¹ • volume.restrict (Set.Ico low high)

/-- src/utils/sampling.py:92-98: the loop of `jumpfun`, with `n` trials to go. -/
noncomputable def jumpTrials (D : Domain) (x jstd : ℝ) : Nat → Draws ℝ
  | 0 => .raise .runtime
  | n + 1 => .draw (npNormal x jstd) fun y =>
      if D.inside y then .pure y else jumpTrials D x jstd n

/-- src/utils/sampling.py:83-98 `jumpfun`. -/
noncomputable def jumpDraws (D : Domain) (x jstd : ℝ) : Draws ℝ :=
  if jstd < 0 then .raise .valueError
  else if D.lo = 0 ∧ D.hi = 1 then
    .draw (npNormal x jstd) fun y => .pure (if 1 < |y| then |y| - ⌊|y|⌋ else |y|)
  else if 0 ≤ D.lo ∧ D.hi = ⊤ then .draw (npNormal 0 jstd) fun z => .pure |x + z|
  else jumpTrials D x jstd 1000

/-- An outcome without draws. -/
def Draws.ofOutcome {α : Type} : Except Exn α → Draws α
  | .ok a => .pure a
  | .error e => .raise e

/-- src/utils/sampling.py:110-139: one iteration. -/
noncomputable def mhStepDraws (A : MhArgs) (s : MhState) : Draws MhState :=
  (jumpDraws A.D s.x s.jumpStd).bind fun x' =>
    if ¬ A.D.inside x' then .raise .assertion
    else
      match A.f x' with
      | .error e => .raise e
      | .ok logp' => .draw (npUniform 0 1) fun u =>
          match mhAccept u x' logp' s with
          | .error e => .raise e
          | .ok s1 => Draws.ofOutcome ((mhCollect A s1).map (mhTune A))

/-- src/utils/sampling.py:108-139: the loop. -/
noncomputable def mhLoopDraws (A : MhArgs) : Nat → MhState → Draws (Option (List ℝ))
  | n, s =>
    if A.num ≤ s.samples.length then .pure (some s.samples)
    else
      match n with
      | 0 => .pure none
      | n + 1 => (mhStepDraws A s).bind (mhLoopDraws A n)

/-- src/utils/sampling.py:25-144 `mh_sample`. -/
noncomputable def mhSampleDraws (A : MhArgs) (n : Nat) (x jumpStd : ℝ) : Draws (Option (List ℝ)) :=
  if ¬ A.D.within x then .raise .assertion
  else
    match A.f x with
    | .error e => .raise e
    | .ok logp => mhLoopDraws A n ⟨x, logp, jumpStd, 0, 1, 0, 1, []⟩

/-! ### The log densities of the parameters -/

/-- src/primitives/beta.py:203-207 `calc_log_prior`: `scipy.stats.expon.logpdf(strength, scale=mu)`
and `scipy.stats.beta.logpdf(balance, alpha, beta)`, at parameters in range. -/
noncomputable def betaLogPrior (mu alpha beta strength balance : ℝ) : ℝ :=
  (-Real.log mu - strength / mu)
    + ((alpha - 1) * Real.log balance + (beta - 1) * Real.log (1 - balance) - betaln alpha beta)

/-- src/primitives/beta.py:112-118 and 125-131: the log density of both transitions, with the
assertions of :191 and :204. `mu = 5`, `alpha = beta = 1` are those of :45-47. -/
noncomputable def betaTarget (S : BetaS) (strength balance : ℝ) : Except Exn Fl :=
  if ¬ (0 < strength ∧ 0 < balance ∧ balance < 1) then .error .assertion
  else .ok (.fin (betaLoglik S.N S.sum_log_x S.sum_minus_log_x strength balance
    + betaLogPrior 5 1 1 strength balance))

/-- src/primitives/beta.py:120-122: the call for the strength. -/
noncomputable def betaStrengthArgs (S : BetaS) (balance : ℝ) : MhArgs :=
  ⟨fun s => betaTarget S s balance, ⟨0, ⊤⟩, 1, 100, 1⟩

/-- src/primitives/beta.py:133-135: the call for the balance. -/
noncomputable def betaBalanceArgs (S : BetaS) (strength : ℝ) : MhArgs :=
  ⟨fun b => betaTarget S strength b, ⟨0, 1⟩, 1, 100, 1⟩

/-- src/primitives/normal_trunc.py:175-178 `calc_log_normalizer`. -/
noncomputable def normalTruncLogZ (l h mu sigma : ℝ) : ℝ :=
  Real.log ((npNormal mu sigma (Set.Iic h)).toReal - (npNormal mu sigma (Set.Iic l)).toReal)

/-- src/primitives/normal_trunc.py:193-197 `calc_log_prior` at parameters in range (`gamma.logpdf` with
scale `beta`, `uniform.logpdf` with width `l + h`). -/
noncomputable def normalTruncLogPrior (alpha beta l h mu sigma : ℝ) : ℝ :=
  -Real.log (l + h)
    + ((alpha - 1) * Real.log sigma - sigma / beta - Real.log (Real.Gamma alpha)
        - alpha * Real.log beta)

/-- src/primitives/normal_trunc.py:116-121: the call for the mean. -/
noncomputable def normalTruncMuArgs (S : NormalS) (l h sigma : ℝ) : MhArgs :=
  ⟨fun mu => .ok (.fin (normalTruncLoglik S.N S.sum_x S.sum_x_sq sigma mu)),
    ⟨(l : EReal), (h : EReal)⟩, 1, 100, 1⟩

/-- src/primitives/normal_trunc.py:124-130: the call for the deviation. -/
noncomputable def normalTruncSigmaArgs (S : NormalS) (l h mu : ℝ) : MhArgs :=
  ⟨fun sigma => .ok (.fin (normalTruncLoglik S.N S.sum_x S.sum_x_sq sigma mu
      + normalTruncLogZ l h mu sigma)), ⟨0, ⊤⟩, 1, 100, 1⟩

/-- The first element of the samples (`samples[0]`, src/utils/sampling.py:141-142). -/
noncomputable def firstDraw {α : Type} (m : Draws (Option (List ℝ))) (k : ℝ → Draws (Option α)) :
    Draws (Option α) :=
  m.bind fun o =>
    match o with
    | none => .pure none
    | some [] => .raise .indexError
    | some (y :: _) => k y

/-- src/primitives/beta.py:108-135 `transition_params`: the strength, then the balance. -/
noncomputable def betaTransitionDraws (S : BetaS) (n : Nat) (p : BetaP) : Draws (Option BetaP) :=
  firstDraw (mhSampleDraws (betaStrengthArgs S p.balance) n p.strength 0.5) fun s =>
    firstDraw (mhSampleDraws (betaBalanceArgs S s) n p.balance 0.25) fun b => .pure (some ⟨s, b⟩)

/-- src/primitives/normal_trunc.py:112-130 `transition_params`: the mean, then the deviation. -/
noncomputable def normalTruncTransitionDraws (S : NormalS) (l h : ℝ) (n : Nat) (p : NormalTruncP) :
    Draws (Option NormalTruncP) :=
  firstDraw (mhSampleDraws (normalTruncMuArgs S l h p.sigma) n p.mu 1) fun m =>
    firstDraw (mhSampleDraws (normalTruncSigmaArgs S l h m) n p.sigma 1) fun s =>
      .pure (some ⟨m, s⟩)

end Cgpm.Sampler
