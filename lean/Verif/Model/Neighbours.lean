import Verif.Model.Network
import Verif.Model.Entropy

/-
Model of the nearest-neighbour estimators of src/utils/entropy_estimators.py.

Simplifications, global to this file:
* Reals for floats; `digamma`, of integers, is a parameter `psi`.
* What `numpy.random.rand` returns is an argument `nu`: for each point a list of numbers.
* A `cKDTree` answers exactly: `query` gives the sorted distances to the nearest points,
  `query_ball_point` the points at most as far as the radius.
* All points of a sample have the same dimension; the base has a logarithm other than 0.
* The warning of `micd` is not printed; `shuffle_test` is not modelled.
-/
namespace Cgpm
namespace Neighbours

/-- A sample: a list of vectors. -/
abbrev Pts := List (List ℝ)

/-- src/utils/entropy_estimators.py:24-25, 39-41, 59-62: small noise is added to each point. -/
noncomputable def noisy (x nu : Pts) : Pts :=
  List.zipWith (fun p u => List.zipWith (fun a b => a + 1e-10 * b) p u) x nu

/-- The distance of scipy's `cKDTree` with `p=float('inf')`. -/
noncomputable def maxDist (p q : List ℝ) : ℝ := (List.zipWith (fun a b => |a - b|) p q).foldr max 0

/-- The distances of `cKDTree(x).query(p, m, p=inf)[0]` for `m ≤ len(x)`, in increasing order. -/
noncomputable def query (x : Pts) (p : List ℝ) (m : Nat) : List ℝ :=
  ((x.map (maxDist p)).mergeSort (fun a b => decide (a ≤ b))).take m

/-- `tree.query(p, k + 1, p=inf)[0][k]`, src/utils/entropy_estimators.py:27, 45, 66, 87: for `k = 0`
scipy returns a number, which cannot be indexed. -/
noncomputable def kth (x : Pts) (k : Nat) (p : List ℝ) : Except Exn ℝ :=
  if k = 0 then .error .indexError
  else
    match (query x p (k + 1))[k]? with
    | none => .error .indexError
    | some r => .ok r

/-- `math.log`. -/
noncomputable def pyLog (r : ℝ) : Except Exn ℝ := if 0 < r then .ok (Real.log r) else .error .valueError

/-- `numpy.mean`. -/
noncomputable def mean (l : List ℝ) : ℝ := l.sum / l.length

/-- `len(x[0])`. -/
def dim (x : Pts) : Nat := (x.head?.getD []).length

/-- src/utils/entropy_estimators.py:26-29: the estimate for the points `x`. -/
noncomputable def entropyOf (psi : Nat → ℝ) (x : Pts) (k : Nat) (base : ℝ) : Except Exn ℝ :=
  match Net.collect (kth x k) x with
  | .error e => .error e
  | .ok nn =>
    match Net.collect pyLog nn with
    | .error e => .error e
    | .ok ls =>
      .ok ((psi x.length - psi k + dim x * Real.log 2 + dim x * mean ls) / Real.log base)

/-- src/utils/entropy_estimators.py:16-29 `entropy`. -/
noncomputable def entropy (psi : Nat → ℝ) (nu x : Pts) (k : Nat) (base : ℝ) : Except Exn ℝ :=
  if ¬ k + 1 ≤ x.length then .error .assertion else entropyOf psi (noisy x nu) k base

/-- src/utils/entropy_estimators.py:193-196 `zip2` of two samples. -/
def zip2 (x y : Pts) : Pts := List.zipWith (· ++ ·) x y

open Classical in
/-- `len(tree.query_ball_point(p, r, p=inf))`. -/
noncomputable def ball (x : Pts) (p : List ℝ) (r : ℝ) : Nat := x.countP fun q => decide (maxDist p q ≤ r)

/-- src/utils/entropy_estimators.py:178-191 `avgdigamma`; `dvec` has a distance for each point. -/
noncomputable def avgdigamma (psi : Nat → ℝ) (points : Pts) (dvec : List ℝ) : ℝ :=
  (List.zipWith (fun p r => psi (ball points p (r - 1e-15)) / points.length) points dvec).sum

/-- src/utils/entropy_estimators.py:42-50: the estimate for the points `x` and `y`. -/
noncomputable def miOf (psi : Nat → ℝ) (x y : Pts) (k : Nat) (base : ℝ) : Except Exn ℝ :=
  match Net.collect (kth (zip2 x y) k) (zip2 x y) with
  | .error e => .error e
  | .ok dvec =>
    .ok ((-avgdigamma psi x dvec - avgdigamma psi y dvec + psi k + psi x.length) / Real.log base)

/-- src/utils/entropy_estimators.py:31-50 `mi`. -/
noncomputable def mi (psi : Nat → ℝ) (nux nuy x y : Pts) (k : Nat) (base : ℝ) : Except Exn ℝ :=
  if ¬ x.length = y.length then .error .assertion
  else if ¬ k + 1 ≤ x.length then .error .assertion
  else miOf psi (noisy x nux) (noisy y nuy) k base

/-- src/utils/entropy_estimators.py:63-71: the estimate for the points `x`, `y` and `z`. -/
noncomputable def cmiOf (psi : Nat → ℝ) (x y z : Pts) (k : Nat) (base : ℝ) : Except Exn ℝ :=
  match Net.collect (kth (zip2 (zip2 x y) z) k) (zip2 (zip2 x y) z) with
  | .error e => .error e
  | .ok dvec =>
    .ok ((-avgdigamma psi (zip2 x z) dvec - avgdigamma psi (zip2 y z) dvec + avgdigamma psi z dvec
      + psi k) / Real.log base)

/-- src/utils/entropy_estimators.py:51-71 `cmi`.  The length of `z` is not checked; the model is of
calls where it is that of `x`. -/
noncomputable def cmi (psi : Nat → ℝ) (nux nuy nuz x y z : Pts) (k : Nat) (base : ℝ) : Except Exn ℝ :=
  if ¬ x.length = y.length then .error .assertion
  else if ¬ k + 1 ≤ x.length then .error .assertion
  else cmiOf psi (noisy x nux) (noisy y nuy) (noisy z nuz) k base

/-- `treep.query(p, k, p=inf)[0][k-1]`, src/utils/entropy_estimators.py:88: for `k = 0` scipy raises,
for `k = 1` it returns a number, which cannot be indexed. -/
noncomputable def kthOther (x : Pts) (k : Nat) (p : List ℝ) : Except Exn ℝ :=
  if k = 0 then .error .valueError
  else if k = 1 then .error .indexError
  else
    match (query x p k)[k - 1]? with
    | none => .error .indexError
    | some r => .ok r

/-- src/utils/entropy_estimators.py:72-90 `kldiv`. -/
noncomputable def kldiv (x xp : Pts) (k : Nat) (base : ℝ) : Except Exn ℝ :=
  if ¬ k + 1 ≤ x.length then .error .assertion
  else if ¬ k + 1 ≤ xp.length then .error .assertion
  else if ¬ dim x = dim xp then .error .assertion
  else
    match pyLog ((x.length : ℝ) - 1) with
    | .error e => .error e
    | .ok ln =>
      match Net.collect (kth x k) x with
      | .error e => .error e
      | .ok nn =>
        match Net.collect (kthOther xp k) x with
        | .error e => .error e
        | .ok nnp =>
          match Net.collect pyLog nnp with
          | .error e => .error e
          | .ok lp =>
            match Net.collect pyLog nn with
            | .error e => .error e
            | .ok l =>
              .ok ((Real.log xp.length - ln + dim x * mean lp - dim x * mean l) / Real.log base)

/-- src/utils/entropy_estimators.py:143: the points with the label `v`. -/
def given {K : Type} [DecidableEq K] (x : Pts) (y : List K) (v : K) : Pts :=
  ((x.zip y).filter fun p => p.2 = v).map Prod.fst

/-- src/utils/entropy_estimators.py:135-137, 142-150: one step of the loop, for the label `p.1` with
the frequency `p.2`. -/
noncomputable def micdStep {K : Type} [DecidableEq K] (psi : Nat → ℝ) (nu : K → Pts) (x : Pts)
    (y : List K) (k : Nat) (base overall : ℝ) (p : K × Nat) : Except Exn ℝ :=
  if k + 1 ≤ (given x y p.1).length then
    match entropy psi (nu p.1) (given x y p.1) k base with
    | .error e => .error e
    | .ok h => .ok ((p.2 : ℝ) / y.length * h)
  else .ok ((p.2 : ℝ) / y.length * overall)

/-- src/utils/entropy_estimators.py:131-151 `micd`; `nu v` is the noise for the label `v`.  The labels
are visited in the order of their first occurrence, by Python in the order of a set; a sum of
`1. / n` is a frequency. -/
noncomputable def micd {K : Type} [DecidableEq K] (psi : Nat → ℝ) (nu0 : Pts) (nu : K → Pts) (x : Pts)
    (y : List K) (k : Nat) (base : ℝ) : Except Exn ℝ :=
  match entropy psi nu0 x k base with
  | .error e => .error e
  | .ok overall =>
    if x.length < y.length then .error .indexError
    else
      match Net.collect (micdStep psi nu x y k base overall) (y.foldl Entropy.tally []) with
      | .error e => .error e
      | .ok l => .ok (overall - l.sum)

end Neighbours
end Cgpm
