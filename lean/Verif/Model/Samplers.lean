import Mathlib.Data.EReal.Basic
import Mathlib.Algebra.Order.Floor.Defs
import Mathlib.Algebra.Order.Round
import Verif.Model.LogSpace

/-
Model of the Markov chain helpers: src/utils/sampling.py:25-280, and of the parameter transitions
that use them, src/primitives/beta.py:108-135 and src/primitives/normal_trunc.py:112-130.

Simplifications, global to this file:
* A density may raise, and returns a float (`Fl`).
* A domain is a pair of extended reals.
* Draws are explicit: `rng.rand()` and `rng.uniform(a, b)` are given by numbers `v` (the latter is
  `a + (b - a) * v`), `rng.normal(m, s)` by numbers `z` (it is `m + s * z`, refused for `s < 0`).
* Loops run with a bound `n` on the number of their iterations and return `none` when it is too
  small: theorems hold for every `n`.
* Samplers return the list of samples (the code returns its first element when one is asked).
-/
namespace Cgpm.Sampler
open Cgpm

/-- `D`, the support of the target distribution. -/
structure Domain where
  lo : EReal
  hi : EReal

/-- `D[0] < x < D[1]`. -/
def Domain.inside (D : Domain) (x : ℝ) : Prop := D.lo < (x : EReal) ∧ (x : EReal) < D.hi

/-- `D[0] <= x <= D[1]`. -/
def Domain.within (D : Domain) (x : ℝ) : Prop := D.lo ≤ (x : EReal) ∧ (x : EReal) ≤ D.hi

/-! ### mh_sample -/

/-- The draws of one iteration of `mh_sample`: the normal draws and the uniform one. -/
structure MhDraw where
  z : Nat → ℝ
  u : ℝ

open Classical in
/-- src/utils/sampling.py:83-98 `jumpfun`. -/
noncomputable def jumpfun (D : Domain) (x jstd : ℝ) (z : Nat → ℝ) : Except Exn ℝ :=
  if jstd < 0 then .error .valueError
  else if D.lo = 0 ∧ D.hi = 1 then
    let y := |x + jstd * z 0|
    .ok (if 1 < y then y - ⌊y⌋ else y)
  else if 0 ≤ D.lo ∧ D.hi = ⊤ then .ok |x + jstd * z 0|
  else
    match (List.range 1000).find? fun t => decide (D.inside (x + jstd * z t)) with
    | some t => .ok (x + jstd * z t)
    | none => .error .runtime

/-- The variables of the loop of `mh_sample`. -/
structure MhState where
  x : ℝ
  logp : Fl
  jumpStd : ℝ
  accepted : Nat
  aiters : Nat
  rate : ℝ
  iters : Nat
  samples : List ℝ

/-- The arguments of `mh_sample`. -/
structure MhArgs where
  f : ℝ → Except Exn Fl
  D : Domain
  num : Nat
  burn : Nat
  lag : Nat

/-- src/utils/sampling.py:71-73: `checkevery`. -/
def MhArgs.checkevery (A : MhArgs) : Nat := max 20 ((A.num * A.lag + A.burn) / 100)

open Classical in
/-- src/utils/sampling.py:117-121: the acceptance test and its effects. -/
noncomputable def mhAccept (u : ℝ) (x' : ℝ) (logp' : Fl) (s : MhState) : Except Exn MhState :=
  match Fl.log (.fin u) with
  | .error e => .error e
  | .ok lu =>
    if lu.lt (logp'.sub s.logp) then
      .ok { s with x := x', logp := logp', accepted := s.accepted + 1,
                   rate := ((s.accepted : ℝ) + 1) / s.aiters }
    else .ok s

/-- src/utils/sampling.py:123-125: collect the sample. -/
def mhCollect (A : MhArgs) (s : MhState) : Except Exn MhState :=
  if A.burn < s.iters then
    if A.lag = 0 then .error .zeroDivision
    else if s.iters % A.lag = 0 then .ok { s with samples := s.samples ++ [s.x] }
    else .ok s
  else .ok s

open Classical in
/-- src/utils/sampling.py:127-139: tune the jump distance, count the iteration. -/
noncomputable def mhTune (A : MhArgs) (s : MhState) : MhState :=
  if s.iters % A.checkevery = 0 then
    { s with
      jumpStd := if 0.4 ≤ s.rate then s.jumpStd * 1.1
        else if s.rate ≤ 0.2 then s.jumpStd * 0.9019 else s.jumpStd
      accepted := 0, rate := 0, aiters := 1, iters := s.iters + 1 }
  else { s with iters := s.iters + 1, aiters := s.aiters + 1 }

open Classical in
/-- src/utils/sampling.py:110-139: one iteration. -/
noncomputable def mhStep (A : MhArgs) (d : MhDraw) (s : MhState) : Except Exn MhState :=
  match jumpfun A.D s.x s.jumpStd d.z with
  | .error e => .error e
  | .ok x' =>
    if ¬ A.D.inside x' then .error .assertion
    else
      match A.f x' with
      | .error e => .error e
      | .ok logp' =>
        match mhAccept d.u x' logp' s with
        | .error e => .error e
        | .ok s1 => (mhCollect A s1).map (mhTune A)

/-- src/utils/sampling.py:108-139: the loop. -/
noncomputable def mhLoop (A : MhArgs) (draws : Nat → MhDraw) :
    Nat → MhState → Option (Except Exn MhState)
  | n, s =>
    if A.num ≤ s.samples.length then some (.ok s)
    else
      match n with
      | 0 => none
      | n + 1 =>
        match mhStep A (draws s.iters) s with
        | .error e => some (.error e)
        | .ok s' => mhLoop A draws n s'

open Classical in
/-- src/utils/sampling.py:25-144 `mh_sample`. -/
noncomputable def mhSample (A : MhArgs) (draws : Nat → MhDraw) (n : Nat) (x jumpStd : ℝ) :
    Option (Except Exn (List ℝ)) :=
  if ¬ A.D.within x then some (.error .assertion)
  else
    match A.f x with
    | .error e => some (.error e)
    | .ok logp =>
      (mhLoop A draws n ⟨x, logp, jumpStd, 0, 1, 0, 1, []⟩).map fun r => r.map MhState.samples

/-! ### slice_sample -/

/-- The draws of one iteration of `slice_sample`: the level, the position of the interval, and the
proposals. -/
structure SliceDraw where
  u : ℝ
  r : ℝ
  v : Nat → ℝ

open Classical in
/-- src/utils/sampling.py:220-224: the loop that extends the interval to the left. `a < D[0]` and
`D[0]` below the current point: `D[0]` is finite. -/
noncomputable def extendLo (f : ℝ → Except Exn Fl) (u : Fl) (D : Domain) (w : ℝ) :
    Nat → ℝ → Option (Except Exn ℝ)
  | n, a =>
    match f a with
    | .error e => some (.error e)
    | .ok y =>
      if u.lt y then
        match n with
        | 0 => none
        | n + 1 =>
          if ((a - w : ℝ) : EReal) < D.lo then some (.ok D.lo.toReal)
          else extendLo f u D w n (a - w)
      else some (.ok a)

open Classical in
/-- src/utils/sampling.py:229-233: the loop that extends the interval to the right. -/
noncomputable def extendHi (f : ℝ → Except Exn Fl) (u : Fl) (D : Domain) (w : ℝ) :
    Nat → ℝ → Option (Except Exn ℝ)
  | n, b =>
    match f b with
    | .error e => some (.error e)
    | .ok y =>
      if u.lt y then
        match n with
        | 0 => none
        | n + 1 =>
          if D.hi < ((b + w : ℝ) : EReal) then some (.ok D.hi.toReal)
          else extendHi f u D w n (b + w)
      else some (.ok b)

open Classical in
/-- src/utils/sampling.py:210-234 `_find_slice_interval`. -/
noncomputable def findSliceInterval (f : ℝ → Except Exn Fl) (r x : ℝ) (u : Fl) (D : Domain) (w : ℝ)
    (n : Nat) : Option (Except Exn (ℝ × ℝ)) :=
  let a := x - r * w
  let b := x + (1 - r) * w
  match if (a : EReal) < D.lo then some (.ok D.lo.toReal) else extendLo f u D w n a with
  | none => none
  | some (.error e) => some (.error e)
  | some (.ok a) =>
    match if D.hi < (b : EReal) then some (.ok D.hi.toReal) else extendHi f u D w n b with
    | none => none
    | some (.error e) => some (.error e)
    | some (.ok b) => some (.ok (a, b))

open Classical in
/-- src/utils/sampling.py:191-200: the loop that shrinks the interval; `k` counts the draws. -/
noncomputable def shrink (f : ℝ → Except Exn Fl) (u : Fl) (x : ℝ) (v : Nat → ℝ) :
    Nat → Nat → ℝ → ℝ → Option (Except Exn ℝ)
  | n, k, a, b =>
    match f (a + (b - a) * v k) with
    | .error e => some (.error e)
    | .ok y =>
      if u.lt y then some (.ok (a + (b - a) * v k))
      else
        match n with
        | 0 => none
        | n + 1 =>
          if x < a + (b - a) * v k then shrink f u x v n (k + 1) a (a + (b - a) * v k)
          else shrink f u x v n (k + 1) (a + (b - a) * v k) b

/-- The arguments of `slice_sample`. -/
structure SliceArgs where
  f : ℝ → Except Exn Fl
  D : Domain
  num : Nat
  burn : Nat
  lag : Nat
  w : ℝ

/-- src/utils/sampling.py:187-200: one move. -/
noncomputable def sliceMove (A : SliceArgs) (d : SliceDraw) (n : Nat) (x : ℝ) :
    Option (Except Exn ℝ) :=
  match Fl.log (.fin d.u) with
  | .error e => some (.error e)
  | .ok lu =>
    match A.f x with
    | .error e => some (.error e)
    | .ok y =>
      match findSliceInterval A.f d.r x (lu.add y) A.D A.w n with
      | none => none
      | some (.error e) => some (.error e)
      | some (.ok (a, b)) => shrink A.f (lu.add y) x d.v n 0 a b

/-- src/utils/sampling.py:185-203: the loop; `i` is `num_iters`. -/
noncomputable def sliceLoop (A : SliceArgs) (draws : Nat → SliceDraw) (m : Nat) :
    Nat → Nat → ℝ → List ℝ → Option (Except Exn (List ℝ))
  | n, i, x, samples =>
    if A.num ≤ samples.length then some (.ok samples)
    else
      match n with
      | 0 => none
      | n + 1 =>
        match sliceMove A (draws (i + 1)) m x with
        | none => none
        | some (.error e) => some (.error e)
        | some (.ok x') =>
          if A.burn ≤ i + 1 then
            if A.lag = 0 then some (.error .zeroDivision)
            else if (i + 1) % A.lag = 0 then sliceLoop A draws m n (i + 1) x' (samples ++ [x'])
            else sliceLoop A draws m n (i + 1) x' samples
          else sliceLoop A draws m n (i + 1) x' samples

/-- src/utils/sampling.py:146-208 `slice_sample`; `x` is the value of `proposal_fun()`, `m` bounds
the inner loops. -/
noncomputable def sliceSample (A : SliceArgs) (draws : Nat → SliceDraw) (m n : Nat) (x : ℝ) :
    Option (Except Exn (List ℝ)) :=
  sliceLoop A draws m n 0 x []

/-! ### rejection_sample -/

open Classical in
/-- src/utils/sampling.py:262-275: the loop of `rejection_sample` (densities are numbers, as L272
needs). -/
noncomputable def rejLoop (target proposal : ℝ → ℝ) (N : Nat) (x u : Nat → ℝ) :
    Nat → Nat → List ℝ → Option (Except Exn (List ℝ))
  | n, i, samples =>
    if N ≤ samples.length then some (.ok samples)
    else
      match n with
      | 0 => none
      | n + 1 =>
        if proposal (x i) < target (x i) then some (.error .assertion)
        else if u i * proposal (x i) < target (x i) then
          rejLoop target proposal N x u n (i + 1) (samples ++ [x i])
        else rejLoop target proposal N x u n (i + 1) samples

/-- src/utils/sampling.py:236-280 `rejection_sample`; `x i` and `u i` are the draws of iteration
`i`. -/
noncomputable def rejectionSample (target proposal : ℝ → ℝ) (N : Nat) (x u : Nat → ℝ) (n : Nat) :
    Option (Except Exn (List ℝ)) :=
  rejLoop target proposal N x u n 0 []

/-! ### The parameter transitions of the uncollapsed types -/

/-- The parameters of a beta or of a truncated normal component. -/
structure Params where
  first : ℝ
  second : ℝ

/-- The first element of the samples. -/
def firstSample : Option (Except Exn (List ℝ)) → Option (Except Exn ℝ)
  | none => none
  | some (.error e) => some (.error e)
  | some (.ok []) => some (.error .indexError)
  | some (.ok (y :: _)) => some (.ok y)

/-- src/primitives/beta.py:108-135 `transition_params`: the strength, then the balance. `f p` is the
log density of the parameters `p`. -/
noncomputable def betaTransition (f : Params → Except Exn Fl) (d1 d2 : Nat → MhDraw) (n : Nat)
    (p : Params) : Option (Out Params) :=
  match firstSample (mhSample ⟨fun s => f ⟨s, p.second⟩, ⟨0, ⊤⟩, 1, 100, 1⟩ d1 n p.first 0.5) with
  | none => none
  | some (.error e) => some (.err e p)
  | some (.ok s) =>
    match firstSample (mhSample ⟨fun b => f ⟨s, b⟩, ⟨0, 1⟩, 1, 100, 1⟩ d2 n p.second 0.25) with
    | none => none
    | some (.error e) => some (.err e ⟨s, p.second⟩)
    | some (.ok b) => some (.ok ⟨s, b⟩)

/-- src/primitives/normal_trunc.py:112-130 `transition_params`: the mean, then the deviation; `f1`
and `f2` are the two log densities (they differ). -/
noncomputable def normalTruncTransition (f1 f2 : Params → Except Exn Fl) (l h : ℝ)
    (d1 d2 : Nat → MhDraw) (n : Nat) (p : Params) : Option (Out Params) :=
  match firstSample (mhSample ⟨fun m => f1 ⟨m, p.second⟩, ⟨l, h⟩, 1, 100, 1⟩ d1 n p.first 1) with
  | none => none
  | some (.error e) => some (.err e p)
  | some (.ok m) =>
    match firstSample (mhSample ⟨fun s => f2 ⟨m, s⟩, ⟨0, ⊤⟩, 1, 100, 1⟩ d2 n p.second 1) with
    | none => none
    | some (.error e) => some (.err e ⟨m, p.second⟩)
    | some (.ok s) => some (.ok ⟨m, s⟩)

end Cgpm.Sampler
