import Verif.Model.Py
import Verif.Model.Math
import Mathlib.Data.EReal.Basic

/-
Model of the log-space helpers of src/utils/general.py.  Floats with their special
values are an explicit type here; rounding and overflow are not modelled.
-/
namespace Cgpm
open Classical

/-- A Python float without rounding: a real, an infinity, or NaN. -/
inductive Fl
  | nan
  | ninf
  | fin (x : ℝ)
  | pinf

namespace Fl

/-- The number denoted (NaN is given a dummy). -/
noncomputable def toE : Fl → EReal
  | nan => 0
  | ninf => ⊥
  | fin x => (x : EReal)
  | pinf => ⊤

/-- Float `<`: false as soon as NaN is involved. -/
def lt (a b : Fl) : Prop := a ≠ nan ∧ b ≠ nan ∧ a.toE < b.toE

/-- Float `-x`. -/
def neg : Fl → Fl
  | nan => nan
  | ninf => pinf
  | fin x => fin (-x)
  | pinf => ninf

/-- Float `+`. -/
def add : Fl → Fl → Fl
  | nan, _ => nan
  | _, nan => nan
  | fin x, fin y => fin (x + y)
  | pinf, ninf => nan
  | ninf, pinf => nan
  | pinf, _ => pinf
  | _, pinf => pinf
  | ninf, _ => ninf
  | _, ninf => ninf

/-- Float `-`. -/
def sub (a b : Fl) : Fl := a.add b.neg

/-- `math.exp`, `np.exp`. -/
noncomputable def exp : Fl → Fl
  | nan => nan
  | ninf => fin 0
  | fin x => fin (Real.exp x)
  | pinf => pinf

/-- `math.log`: raises ValueError on zero and on negative numbers. -/
noncomputable def log : Fl → Except Exn Fl
  | nan => .ok nan
  | ninf => .error .valueError
  | fin x => if 0 < x then .ok (fin (Real.log x)) else .error .valueError
  | pinf => .ok pinf

/-- `math.isinf`. -/
def isInf : Fl → Prop
  | ninf => True
  | pinf => True
  | _ => False

/-- A log probability as a float. -/
def ofLogP : LogP → Fl
  | none => ninf
  | some x => fin x

end Fl

/-- Python's `max` of a non-empty list (callers handle the empty list). -/
noncomputable def flMax : List Fl → Fl
  | [] => .ninf
  | x :: t => t.foldl (fun b a => if b.lt a then a else b) x

/-- Python's `min` of a non-empty list (callers handle the empty list). -/
noncomputable def flMin : List Fl → Fl
  | [] => .pinf
  | x :: t => t.foldl (fun b a => if a.lt b then a else b) x

/-- Python's `sum`. -/
def flSum (l : List Fl) : Fl := l.foldl Fl.add (.fin 0)

/-- src/utils/general.py:141-157 `logsumexp`, together with the list of the arguments on
which `math.exp` is called. -/
noncomputable def logsumexpT (array : List Fl) : Except Exn Fl × List Fl :=
  if array.length = 0 then (.ok .ninf, [])
  else
    let m := flMax array
    if m.isInf ∧ flMin array ≠ m.neg ∧ (∀ a ∈ array, a ≠ .nan) then (.ok m, [])
    else
      let args := array.map fun a => a.sub m
      ((flSum (args.map Fl.exp)).log.map fun s => m.add s, args)

/-- src/utils/general.py:141-157 `logsumexp`. -/
noncomputable def logsumexp (array : List Fl) : Except Exn Fl := (logsumexpT array).1

/-- src/utils/general.py:159-183 `logmeanexp`. -/
noncomputable def logmeanexp (array : List Fl) : Except Exn Fl :=
  if array.length = 0 then .ok .ninf
  else
    let noninfs := array.filter fun a => ¬ a = .ninf
    (logsumexp noninfs).map fun s => s.sub (.fin (Real.log array.length))

/-- src/utils/general.py:185-201 `logmeanexp_weighted`. -/
noncomputable def logmeanexpWeighted (logA logW : List Fl) : Except Exn Fl :=
  if logW.length ≠ logA.length then .error .assertion
  else
    match logsumexp (List.zipWith Fl.add logW logA), logsumexp logW with
    | .ok a, .ok b => .ok (a.sub b)
    | .error e, _ => .error e
    | _, .error e => .error e

/-- src/utils/general.py:80-82 `log_normalize`. -/
noncomputable def logNormalize (logp : List Fl) : Except Exn (List Fl) :=
  (logsumexp logp).map fun s => logp.map fun a => a.sub s

/-- The reals of a list of floats, if all are finite. -/
noncomputable def flReals : List Fl → Option (List ℝ)
  | [] => some []
  | .fin x :: t => (flReals t).map (x :: ·)
  | _ :: _ => none

/-- `p.cumsum()`, started at `s`. -/
def cumsum (s : ℝ) : List ℝ → List ℝ
  | [] => []
  | x :: t => (s + x) :: cumsum (s + x) t

/-- The index drawn by numpy's `rng.choice(a, p=p)` when the uniform draw is `u ∈ [0,1)`:
`p.cumsum().searchsorted(u, side='right')`, the number of entries that are `≤ u`. -/
noncomputable def choiceIdx (p : List ℝ) (u : ℝ) : ℕ :=
  (cumsum 0 p).countP fun c => c ≤ u

/-- src/utils/general.py:128-139 `pflip` with `size=None` on finite `p`, the uniform draw of
`rng.choice` being `u`.  `normalize` (L84-86) divides by `sum(p)`; when that is zero the
vector is NaN and `rng.choice` raises ValueError, as it does when a probability is negative
or `array` has another length.  The warning of L137 is dropped. -/
noncomputable def pflip {α : Type} (p : List ℝ) (array : List α) (u : ℝ) : Except Exn α :=
  match p, array with
  | [_], a :: _ => .ok a
  | _, _ =>
    if p.sum = 0 ∨ p.length ≠ array.length ∨ (∃ x ∈ p, x / p.sum < 0) then .error .valueError
    else match array[choiceIdx (p.map fun x => x / p.sum) u]? with
      | some a => .ok a
      | none => .error .indexError

/-- src/utils/general.py:123-126 `log_pflip` with `size=None`. -/
noncomputable def logPflip {α : Type} (logp : List Fl) (array : List α) (u : ℝ) : Except Exn α :=
  match logNormalize logp with
  | .error e => .error e
  | .ok l =>
    match flReals (l.map Fl.exp) with
    | some p => pflip p array u
    | none => match logp, array with
      | [_], a :: _ => .ok a
      | _, _ => .error .valueError

/-- src/utils/general.py:128-139 with `size=N`: `rng.choice` makes one uniform draw per
element.  (A single-element vector gives `[array[0]]*size`, the same.) -/
noncomputable def logPflipMany {α : Type} (logp : List Fl) (array : List α) (us : List ℝ) :
    Except Exn (List α) := us.mapM fun u => logPflip logp array u

/-- src/utils/general.py:403-413 `simulate_many`: the wrapper calls the single-sample
function once, or `N` times when `N` is given; `f i` is the result of the `i`-th call. -/
def simulateMany {α : Type} (f : ℕ → α) : Option ℕ → α ⊕ List α
  | none => .inl (f 0)
  | some N => .inr ((List.range N).map f)

end Cgpm
