import Verif.Model.Knn
import Verif.Spec.Kde
import Verif.Spec.LogSpace

/-!
Specification for C66: the distribution that a nearest neighbour model stands for.

The rows without missing cells among the variables of a query are compared with the evidence.  K rows
near it are its neighbours, each with a locality of rows near it on all the variables of the query.  A
locality is chosen with equal probabilities; each target is then drawn from a normal distribution with
the mean and the standard deviation of its values in the locality, or from their frequencies.
-/
namespace Cgpm.Spec.Knn
open Cgpm MeasureTheory

/-- The type of a variable. -/
def typ (o : Knn) (q : Col) : KType := o.types.getD (o.outputs.idxOf q) .numerical

/-- The value of a variable in a row, if it is observed. -/
abbrev cell (o : Knn) : Row → Col → Option ℝ := Mv.cell o.outputs o.rows

/-- The rows without missing cells among `qs`. -/
abbrev exemplars (o : Knn) : List Col → List Row := Mv.exemplars o.outputs o.rows

/-- What is assumed of the nearest neighbour search: it finds `k` points such that no other one is
nearer, the nearest first. -/
structure Finds (kd : Knn.Tree) : Prop where
  length : ∀ X x k, k ≤ X.length → (kd X x k).length = k
  nodup : ∀ X x k, k ≤ X.length → (kd X x k).Nodup
  bound : ∀ X x k, k ≤ X.length → ∀ i ∈ kd X x k, i < X.length
  sorted : ∀ X x k, k ≤ X.length →
    (kd X x k).Pairwise fun i j => Knn.dist (X.getD i []) x ≤ Knn.dist (X.getD j []) x
  nearest : ∀ X x k, k ≤ X.length → ∀ i ∈ kd X x k, ∀ j < X.length, j ∉ kd X x k →
    Knn.dist (X.getD i []) x ≤ Knn.dist (X.getD j []) x

open Classical in
/-- The squared distance of two values: the last category is at distance 1 of the other ones, which are
at distance √2 of each other. -/
noncomputable def gap (t : KType) (a b : ℝ) : ℝ :=
  match t with
  | .numerical => (a - b) ^ 2
  | .nominal k => if a = b then 0 else if a = (k : ℝ) - 1 ∨ b = (k : ℝ) - 1 then 1 else 2

/-- The squared distance of a row from the evidence. -/
noncomputable def far (o : Knn) (Ev : Dict Col ℝ) (r : Row) : ℝ :=
  (Ev.map fun p => gap (typ o p.1) ((cell o r p.1).getD 0) p.2).sum

/-- The squared distance of two rows. -/
noncomputable def apart (o : Knn) (qs : List Col) (r s : Row) : ℝ :=
  (qs.map fun q => gap (typ o q) ((cell o r q).getD 0) ((cell o s q).getD 0)).sum

open Classical in
/-- Neighbours of the evidence among the rows `R`: K rows, each with fewer than K nearer ones. -/
structure Neighbors (o : Knn) (R : List Row) (Ev : Dict Col ℝ) (ns : List Row) : Prop where
  length : ns.length = o.K
  nodup : ns.Nodup
  rows : ∀ n ∈ ns, n ∈ R
  near : ∀ n ∈ ns, (R.countP fun s => far o Ev s < far o Ev n) < o.K

/-- The nearest neighbours of the evidence among the rows `R`: K rows that are nearer than the other
ones. -/
structure Nearest (o : Knn) (R : List Row) (Ev : Dict Col ℝ) (ns : List Row) : Prop where
  length : ns.length = o.K
  nodup : ns.Nodup
  rows : ∀ n ∈ ns, n ∈ R
  near : ∀ n ∈ ns, ∀ s ∈ R, s ∉ ns → far o Ev n < far o Ev s

/-- A locality of the row `n` among the rows `R`, by the distance on `qs`. -/
structure Locality (o : Knn) (R : List Row) (qs : List Col) (n : Row) (L : List Row) : Prop where
  length : L.length = min o.M o.K
  nodup : L.Nodup
  rows : ∀ s ∈ L, s ∈ R
  near : ∀ s ∈ L, ∀ u ∈ R, u ∉ L → apart o qs s n ≤ apart o qs u n

/-- Neighbourhoods of the evidence: neighbours, each with a locality. -/
def Neighborhoods (o : Knn) (R : List Row) (qs : List Col) (Ev : Dict Col ℝ)
    (Ls : List (List Row)) : Prop :=
  ∃ ns, Neighbors o R Ev ns ∧ List.Forall₂ (Locality o R qs) ns Ls

/-- The mean. -/
noncomputable def average (l : List ℝ) : ℝ := l.sum / l.length

/-- The standard deviation. -/
noncomputable def spread (l : List ℝ) : ℝ :=
  Real.sqrt (average (l.map fun x => (x - average l) ^ 2))

open Classical in
/-- The density of a variable whose values in a locality are `l`. -/
noncomputable def localDensity (t : KType) (l : List ℝ) (x : ℝ) : ℝ :=
  match t with
  | .numerical => Rand.normalDensity (average l) (max (spread l) (1 / 100)) x
  | .nominal _ => (l.countP (· = x) : ℝ) / l.length

/-- The values of a variable in a locality. -/
noncomputable def values (o : Knn) (L : List Row) (q : Col) : List ℝ :=
  L.map fun r => (cell o r q).getD 0

/-- The density of the targets `T`, given the localities. -/
noncomputable def mixture (o : Knn) (Ls : List (List Row)) (T : Dict Col ℝ) : ℝ :=
  (Ls.map fun L => (T.map fun p => localDensity (typ o p.1) (values o L p.1) p.2).prod).sum
    / Ls.length

/-- The values of `d` are categories where they have to. -/
def Proper (o : Knn) (d : Dict Col ℝ) : Prop :=
  ∀ p ∈ d, ∀ k, typ o p.1 = .nominal k → ∃ j : Nat, j < k ∧ p.2 = j

/-- A model as the constructor accepts it, whose rows hold categories that exist. -/
structure Valid (o : Knn) : Prop extends Mv.Full o.outputs o.rows where
  types : o.types.length = o.outputs.length
  outputs : 2 ≤ o.outputs.length
  K : 1 ≤ o.K
  M : 1 ≤ o.M
  nominal : ∀ q ∈ o.outputs, ∀ k, typ o q = .nominal k → 2 ≤ k
  cells : ∀ q ∈ o.outputs, ∀ k, typ o q = .nominal k → ∀ r v, cell o r q = some v →
    ∃ j : Nat, j < k ∧ v = j

/-- A call that observes categories that exist. -/
def Allowed (o : Knn) : Knn.Op → Prop
  | .inc _ obs _ => ∀ q ∈ o.outputs, ∀ k v, typ o q = .nominal k → obs.get? q = some (some v) →
    ∃ j : Nat, j < k ∧ v = j
  | .unc _ => True

/-- A query about the targets `T` under the constraints `C` at the row `r`, whose evidence is `Ev`: the
values of the constraints are categories where they have to, there is some evidence, and K rows have no
missing cells. -/
structure Asked (o : Knn) (r : Option Row) (T : List Col) (C Ev : Dict Col ℝ) : Prop where
  nodup : T.Nodup
  some : T ≠ []
  known : ∀ q ∈ T, q ∈ o.outputs
  constraints : Mv.Assigns o.outputs C
  proper : Proper o C
  disjoint : ∀ q ∈ T, q ∉ C.keys
  evidence : Mv.Evidence o.outputs o.rows r T C Ev
  given : Ev ≠ []
  enough : o.K ≤ (exemplars o (T ++ Ev.keys)).length

/-- The values of `qs` in a row. -/
noncomputable def cellsOf (o : Knn) (s : Row) (qs : List Col) : Dict Col ℝ :=
  qs.map fun q => (q, (cell o s q).getD 0)

/-- A query about the targets `T` at the row `r` for which there is no evidence. -/
structure Bare (o : Knn) (r : Option Row) (T : List Col) : Prop where
  nodup : T.Nodup
  some : T ≠ []
  known : ∀ q ∈ T, q ∈ o.outputs
  evidence : Mv.Evidence o.outputs o.rows r T [] []
  enough : o.K ≤ o.rows.data.length

/-- `a` is the logarithm of `p`. -/
def IsLog (a : Fl) (p : ℝ) : Prop :=
  a ≠ .nan ∧ Props.mass a = ENNReal.ofReal p

/-- The expected value of the density that `logpdf` reports. -/
noncomputable def density (kd : Knn.Tree) (o : Knn) (r : Option Row) (C T : Dict Col ℝ) : ℝ :=
  (Knn.logpdf kd o r (Mv.ofDict T) C []).expect fun a => (Props.mass a).toReal

end Cgpm.Spec.Knn
