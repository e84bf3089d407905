import Verif.Model.Py
import Mathlib.Data.Real.Basic
import Mathlib.Algebra.Order.Floor.Defs

/-!
Model of the inference loop: src/crosscat/state.py:866-905 `_transition_generic` and
src/crosscat/state.py:727-761 `transition`.

The kernels are arbitrary actions on a state `σ`, which may raise.  `clock n` is the time elapsed
at the `n`-th call of `_proportion_done`: an arbitrary function of `n` (no assumption that time
advances, or how fast).  Quotients are real numbers, not floats.  Printing is left out.
-/
namespace Cgpm
namespace Loop
variable {σ : Type}

/-- src/crosscat/state.py:869-878 `_proportion_done`. -/
noncomputable def proportionDone (N : Option Nat) (S : Option ℝ) (iters : Nat) (elapsed : ℝ) :
    Except Exn ℝ :=
  match (match S with
    | none => .ok 0
    | some s => if s = 0 then .error .zeroDivision else .ok (elapsed / s) : Except Exn ℝ) with
  | .error e => .error e
  | .ok pSeconds =>
    match (match N with
      | none => .ok 0
      | some n => if n = 0 then .error .zeroDivision else .ok ((iters : ℝ) / n) : Except Exn ℝ) with
    | .error e => .error e
    | .ok pIters => .ok (max pIters pSeconds)

/-- How the `for` loop of L889-896 ends: all the kernels ran, `break`, or an exception. -/
inductive Sweep (σ : Type)
  | complete (s : σ) (reads : Nat)
  | broke (s : σ)
  | raised (e : Exn) (s : σ)

/-- src/crosscat/state.py:889-895: the `for` loop; `reads` numbers the readings of the clock. -/
noncomputable def sweep (N : Option Nat) (S : Option ℝ) (clock : Nat → ℝ) (iters : Nat) :
    List (σ → Out σ) → Nat → σ → Sweep σ
  | [], reads, s => .complete s reads
  | k :: ks, reads, s =>
    match proportionDone N S iters (clock reads) with
    | .error e => .raised e s
    | .ok p =>
      if 1 ≤ p then .broke s
      else
        match k s with
        | .err e s' => .raised e s'
        | .ok s' => sweep N S clock iters ks (reads + 1) s'

/-- src/crosscat/state.py:888-901: the `while` loop.  `none`: it is still running after `fuel`
sweeps. `checkpoint = 0` stands for `None` as well. -/
noncomputable def loop (kernels : List (σ → Out σ)) (diag : σ → Out σ) (N : Option Nat)
    (S : Option ℝ) (checkpoint : Nat) (clock : Nat → ℝ) : Nat → Nat → Nat → σ → Option (Out σ)
  | 0, _, _, _ => none
  | fuel + 1, iters, reads, s =>
    match sweep N S clock iters kernels reads s with
    | .raised e s' => some (.err e s')
    | .broke s' => some (.ok s')
    | .complete s' reads' =>
      if checkpoint ≠ 0 ∧ (iters + 1) % checkpoint = 0 then
        match diag s' with
        | .err e s'' => some (.err e s'')
        | .ok s'' => loop kernels diag N S checkpoint clock fuel (iters + 1) reads' s''
      else loop kernels diag N S checkpoint clock fuel (iters + 1) reads' s'

/-- src/crosscat/state.py:866-905 `_transition_generic`. -/
noncomputable def transitionGeneric (kernels : List (σ → Out σ)) (diag : σ → Out σ)
    (N : Option Nat) (S : Option ℝ) (checkpoint : Nat) (clock : Nat → ℝ) (fuel : Nat) (s : σ) :
    Option (Out σ) :=
  let N := if N = none ∧ S = none then some 1 else N
  if kernels = [] then some (.ok s)
  else loop kernels diag N S checkpoint clock fuel 0 0 s

/-- The kernels of src/crosscat/state.py:737-751. -/
inductive Kernel
  | alpha | viewAlphas | columnParams | columnHypers | rows | columns
  deriving DecidableEq, Repr

/-- The default order, src/crosscat/state.py:737-751, 754-755. -/
def defaultKernels : List Kernel :=
  [.alpha, .viewAlphas, .columnParams, .columnHypers, .rows, .columns]

/-- src/crosscat/state.py:727-761 `transition`; `run` gives the effect of each kernel, with the
columns and views asked for. Names that are not in the table (KeyError) are left out. -/
noncomputable def transition (outputs : List Nat) (run : Kernel → σ → Out σ) (diag : σ → Out σ)
    (N : Option Nat) (S : Option ℝ) (kernels : Option (List Kernel)) (cols : List Nat)
    (checkpoint : Nat) (clock : Nat → ℝ) (fuel : Nat) (s : σ) : Option (Out σ) :=
  if cols.any fun c => !outputs.contains c then some (.err .valueError s)
  else
    let ks := (kernels.getD defaultKernels).map run
    if ks = [] then some (.err .assertion s)
    else transitionGeneric ks diag N S checkpoint clock fuel s

end Loop
end Cgpm
