import Verif.Model.LogSpace
import Verif.Model.HyperGrid
import Verif.Model.Primitives
import Verif.Model.Network
import Mathlib.Analysis.SpecialFunctions.Sqrt
import Mathlib.Analysis.SpecialFunctions.Pow.Real

/-!
Model of the generator of synthetic tables, src/utils/test.py:30-106, 119-288 and 433-444.
-/
namespace Cgpm.Synth
open Cgpm Cgpm.Hyper Cgpm.Comp

/-- The samplers of `numpy.random.RandomState`, as functions of their parameters and of the
randomness `Ω` that a call consumes. -/
structure Sampler (Ω : Type) where
  rand : Ω → ℝ
  normal : ℝ → ℝ → Ω → ℝ
  lognormal : ℝ → ℝ → Ω → ℝ
  beta : ℝ → ℝ → Ω → ℝ
  vonmises : ℝ → ℝ → Ω → ℝ
  exponential : ℝ → Ω → ℝ
  poisson : ℝ → Ω → ℕ
  geometric : ℝ → Ω → ℕ
  dirichlet : List ℝ → Ω → List ℝ

open Classical in
/-- NumPy raises ValueError when a parameter is out of range. -/
noncomputable def checked {α : Type} (ok : Prop) (x : α) : Except Exn α :=
  if ok then .ok x else .error .valueError

/-- `scipy.stats.norm.pdf(x, m, s)`. -/
noncomputable def normPdf (x m s : ℝ) : ℝ :=
  Real.exp (-((x - m) / s) ^ 2 / 2) / (s * Real.sqrt (2 * Real.pi))

open Classical in
/-- src/utils/test.py:164-172: up to 101 draws, until one is within the bounds; `n`: draws left. -/
noncomputable def truncLoop (l h : ℝ) (draw : ℕ → ℝ) : ℕ → ℕ → Except Exn ℝ
  | 0, _ => .error .valueError
  | n + 1, i => if l ≤ draw i ∧ draw i ≤ h then .ok (draw i) else truncLoop l h draw n (i + 1)

/-- src/utils/test.py:152-158: the means of the clusters of a truncated normal column. -/
noncomputable def truncMeans (l h sep : ℝ) (K : ℕ) : List ℝ :=
  let bins := linspace l h (K + 1)
  (List.zipWith (fun a b => 1 / 2 * (a + b)) bins bins.tail).map fun bc =>
    bc + (1 - sep) * ((l + h) / 2 - bc)

/-- A lookup in a list, `l[c]`. -/
def entry {α : Type} (l : List α) (c : ℕ) : Except Exn α :=
  match l[c]? with
  | none => .error .indexError
  | some a => .ok a

variable {Ω : Type}

open Classical in
/-- The value of one cell, in cluster `c` of `K`; `ω`: the draws for the cell, `δ`: the draws for the
clusters of a nominal column.
src/utils/test.py: 119-133 `_gen_beta_data`, 135-145 `_gen_normal_data`, 147-174
`_gen_normal_trunc_data`, 176-192 `_gen_vonmises_data`, 194-203 `_gen_poisson_data`, 205-214
`_gen_exponential_data`, 216-227 `_gen_geometric_data`, 229-241 `_gen_lognormal_data`, 243-258
`_gen_bernoulli_data`, 260-277 `_gen_categorical_data`.  `separation**.75` raises ValueError for a
negative separation, and the division by it ZeroDivisionError for zero. -/
noncomputable def cell (S : Sampler Ω) (sep : ℝ) (K c : ℕ) (δ ω : ℕ → Ω) : Prim → Except Exn ℝ
  | .beta _ => do
    let a ← entry (linspace (1 / 2 - 1 / 2 * sep * (85 / 100)) (1 / 2 + 1 / 2 * sep * (85 / 100)) K) c
    let b := (1 - a) * 20 * normPdf a (1 / 2) (1 / 4)
    let a := a * (20 * normPdf a (1 / 2) (1 / 4))
    checked (0 < a ∧ 0 < b) (S.beta a b (ω 0))
  | .normal => .ok (S.normal (c * (5 * sep)) 1 (ω 0))
  | .normalTrunc l h _ _ => do
    let m ← entry (truncMeans l h sep K) c
    truncLoop l h (fun i => S.normal m 1 (ω i)) 101 0
  | .vonmises _ => do
    let std ← if sep < 0 then .error .valueError else if sep = 0 then .error .zeroDivision
      else .ok (2 * Real.pi / K / (5 * sep ^ (75 / 100 : ℝ)))
    let mu ← entry ((List.range K).map fun i : ℕ => (i : ℝ) * (2 * Real.pi / K)) c
    let x ← checked (0 ≤ 1 / (std * std)) (S.vonmises mu (1 / (std * std)) (ω 0))
    .ok (x + Real.pi)
  | .poisson => checked (0 ≤ c * (4 * sep) + 1) ((S.poisson (c * (4 * sep) + 1) (ω 0) : ℕ) : ℝ)
  | .exponential => checked (0 < c * (4 * sep) + 1) (S.exponential (c * (4 * sep) + 1) (ω 0))
  | .geometric => do
    let p ← entry (linspace (1 / 2 - 1 / 2 * sep * (85 / 100)) (1 / 2 + 1 / 2 * sep * (85 / 100)) K) c
    checked (0 < p ∧ p ≤ 1) (((S.geometric p (ω 0) : ℕ) : ℝ) - 1)
  | .lognormal =>
    let sep := if 9 / 10 < sep then 9 / 10 else sep
    checked (0 < (1 - sep) / (c + 1))
      (S.lognormal (c * (9 / 10 * sep ^ 2)) ((1 - sep) / (c + 1)) (ω 0))
  | .bernoulli => do
    let t ← entry (linspace 0 sep K) c
    .ok (if S.rand (ω 0) < t then 1 else 0)
  | .categorical k => do
    let sep := if 95 / 100 < sep then 95 / 100 else sep
    let t ← checked (k ≠ 0 ∧ 0 < 1 - sep) (S.dirichlet (List.replicate k (1 - sep)) (δ c))
    let x ← pflip t (List.range t.length) (S.rand (ω 0))
    .ok (x : ℝ)

/-- src/utils/test.py:119-277: the column for the row clusters `Z`; `K` is `max(Z)+1`.  Simplified: `Z`
is not empty. -/
noncomputable def column (S : Sampler Ω) (p : Prim) (sep : ℝ) (Z : List ℕ) (δ : ℕ → Ω)
    (ω : ℕ → ℕ → Ω) : Except Exn (List ℝ) :=
  Net.collect (fun x : ℕ × ℕ => cell S sep (Z.foldr max 0 + 1) x.1 δ (ω x.2) p) Z.zipIdx

open Classical in
/-- src/utils/test.py:279-287 `gen_partition`.  `us`: the draws of `pflip`, `shuffle`: the effect of
`rng.shuffle`.  `np.allclose(s, 1)` is |s - 1| <= 1e-8 + 1e-5. -/
noncomputable def genPartition (N : ℕ) (weights : List ℝ) (us : ℕ → ℝ)
    (shuffle : List ℕ → List ℕ) : Except Exn (List ℕ) :=
  if ∃ w ∈ weights, w = 0 then .error .assertion
  else if ¬ |weights.sum - 1| ≤ 1 / 10 ^ 8 + 1 / 10 ^ 5 then .error .assertion
  else if ¬ weights.length ≤ N then .error .assertion
  else do
    let Z ← Net.collect (fun i => pflip weights (List.range weights.length) (us i))
      (List.range (N - weights.length))
    .ok (shuffle (List.range weights.length ++ Z))

/-- A synthetic table: the columns, the view of each column, and the row clusters of each view. -/
structure Table where
  T : List (List ℝ)
  Zv : List ℕ
  Zc : List (List ℕ)

/-- What a call of `gen_data_table` draws. -/
structure Draws (Ω : Type) where
  views : ℕ → ℝ
  shuffleViews : List ℕ → List ℕ
  rows : ℕ → ℕ → ℝ
  shuffleRows : ℕ → List ℕ → List ℕ
  clusters : ℕ → ℕ → Ω
  cells : ℕ → ℕ → ℕ → Ω

/-- src/utils/test.py:30-105 `gen_data_table`.  `cols`: type (with its arguments) and separation of each
column; simplified: the lists `cctypes`, `distargs` and `separation` have the same length, and the
labels of `view_partition` are not negative. -/
noncomputable def genDataTable (S : Sampler Ω) (n : ℕ) (viewWeights : List ℝ)
    (clusterWeights : List (List ℝ)) (cols : List (Prim × ℝ)) (viewPartition : List ℕ)
    (d : Draws Ω) : Except Exn Table := do
  let Zv ← (if viewPartition ≠ [] then .ok viewPartition
    else genPartition cols.length viewWeights d.views d.shuffleViews)
  let Zc ← Net.collect (fun x : List ℝ × ℕ => genPartition n x.1 (d.rows x.2) (d.shuffleRows x.2))
    clusterWeights.zipIdx
  if Zv.length ≠ cols.length then .error .assertion
  else if Zc.length ≠ Zv.dedup.length then .error .assertion
  else do
    let z ← entry Zc 0
    if z.length ≠ n then .error .assertion
    else do
      let T ← Net.collect (fun x : (Prim × ℝ) × ℕ => do
        let v ← entry Zv x.2
        let Z ← entry Zc v
        column S x.1.1 x.1.2 Z (d.clusters x.2) (d.cells x.2)) cols.zipIdx
      .ok ⟨T, Zv, Zc⟩

end Cgpm.Synth
