import Verif.Model.Math
import Verif.Model.Network

/-
Model of src/utils/general.py:88-122 and 207-211: the functions on tables of a Chinese restaurant, and
the logarithm of the binomial coefficient.

Simplifications, global to this file:
* Numbers of customers and tables are natural numbers; `Nk` is a list (for a dictionary,
  `logp_crp_gibbs` goes through the sorted keys).
* Floats are reals; a concentration may also be a Python integer, as integers divide differently.
* numpy's logarithm of a negative number, NaN, is not told apart from that of 0.
-/
namespace Cgpm
namespace Seating

/-- A Python number. -/
inductive PyNum
  | int (n : ℤ)
  | float (x : ℝ)

/-- Its value. -/
noncomputable def PyNum.val : PyNum → ℝ
  | .int n => n
  | .float x => x

/-- Python 2's `a / m` for an integer `m`: between integers, the floor. -/
noncomputable def PyNum.div (a : PyNum) (m : Nat) : Except Exn ℝ :=
  if m = 0 then .error .zeroDivision
  else match a with
    | .int n => .ok ((n / (m : ℤ) : ℤ) : ℝ)
    | .float x => .ok (x / m)

open Classical in
/-- `math.log`. -/
noncomputable def mathLog (x : ℝ) : Except Exn ℝ :=
  if 0 < x then .ok (Real.log x) else .error .valueError

open Classical in
/-- `numpy.log`. -/
noncomputable def npLog (x : ℝ) : LogP := if 0 < x then ((Real.log x : ℝ) : LogP) else ⊥

/-- src/utils/general.py:88-94 `logp_crp`, for a positive concentration. -/
noncomputable def logpCrp (N : Nat) (Nk : List Nat) (alpha : ℝ) : ℝ :=
  Nk.length * Real.log alpha + (Nk.map fun c : Nat => gammaln (c : ℝ)).sum + gammaln alpha
    - gammaln (N + alpha)

/-- src/utils/general.py:96-101 `logp_crp_unorm`, for a positive concentration. -/
noncomputable def logpCrpUnorm (N K : Nat) (alpha : ℝ) : ℝ :=
  K * Real.log alpha + gammaln alpha - gammaln (N + alpha)

/-- src/utils/general.py:103-114 `logp_crp_gibbs`. -/
noncomputable def logpCrpGibbs (Nk Z : List Nat) (i : Nat) (alpha : PyNum) (m : Nat) :
    Except Exn (List ℝ) :=
  match Z[i]? with
  | none => .error .indexError
  | some own =>
    match Nk[own]? with
    | none => .error .indexError
    | some c =>
      if m = 0 then .error .zeroDivision
      else
        let singleton := c = 1
        let mAux := if singleton then m - 1 else m
        let pAux : ℝ := alpha.val / m
        let pCurrent : ℝ := if singleton then pAux else (c : ℝ) - 1
        let pTable (t : Nat) : ℝ := if t = own then pCurrent else (Nk[t]?.getD 0 : Nat)
        Net.collect mathLog ((List.range Nk.length).map pTable ++ List.replicate mAux pAux)

/-- src/utils/general.py:116-121 `logp_crp_fresh`. -/
noncomputable def logpCrpFresh (N : Nat) (Nk : List Nat) (alpha : PyNum) (m : Nat) :
    Except Exn (List LogP) :=
  match alpha.div m with
  | .error e => .error e
  | .ok a =>
    match mathLog (N + alpha.val) with
    | .error e => .error e
    | .ok d => .ok ((Nk.map (fun c : Nat => (c : ℝ)) ++ List.replicate m a).map fun x =>
        (npLog x).map fun y => y - d)

/-- src/utils/general.py:207-211 `log_nCk`. -/
noncomputable def logNCk (n k : Nat) : Except Exn ℝ :=
  if n = 0 ∨ k = 0 ∨ n = k then .ok 0
  else
    match mathLog n, mathLog k, mathLog ((n : ℝ) - k) with
    | .ok a, .ok b, .ok c =>
      .ok (a + gammaln n - b - gammaln k - c - gammaln ((n : ℝ) - k))
    | _, _, _ => .error .valueError

end Seating
end Cgpm
