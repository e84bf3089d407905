import Verif.Model.Forest
import Verif.Spec.Standalone
import Verif.Spec.Knn

/-!
Specification for C67: the distribution that a random forest stands for.

A category is uniform with probability alpha, else it has the probability that the forest gives it for
the inputs; before the forest has been fitted it is uniform.
-/
namespace Cgpm.Spec.Forest
open Cgpm

/-- A forest for rows of `p` inputs: its probabilities, one for each class, add up to one. -/
structure Proper (p : Nat) (c : Classifier) : Prop where
  nodup : c.classes.Nodup
  length : ∀ y : List ℝ, y.length = p → (c.proba y).length = c.classes.length
  nonneg : ∀ y : List ℝ, y.length = p → ∀ x ∈ c.proba y, 0 ≤ x
  sum : ∀ y : List ℝ, y.length = p → (c.proba y).sum = 1

/-- What is assumed of `fit(Y, X)`: given at least one row, and rows of equal length, it returns a forest
whose classes are among `X`. -/
def Fits (fit : List (List ℝ) → List Nat → Rand Classifier) : Prop :=
  ∀ (p : Nat) (Y : List (List ℝ)) (X : List Nat), X ≠ [] → Y.length = X.length → (∀ y ∈ Y, y.length = p) →
    Rand.Surely (fun c => Proper p c ∧ ∀ j ∈ c.classes, j ∈ X) (fit Y X)

/-- The probability that a forest gives to a category. -/
noncomputable def share (c : Classifier) (y : List ℝ) (x : Nat) : ℝ :=
  if x ∈ c.classes then (c.proba y).getD (c.classes.idxOf x) 0 else 0

/-- The probability of the category `x`, of `k`, for the inputs `y`. -/
noncomputable def chance (k : Nat) (alpha : ℝ) (clf : Option Classifier) (y : List ℝ) (x : Nat) : ℝ :=
  match clf with
  | none => 1 / k
  | some c => alpha * (1 / k) + (1 - alpha) * share c y x

/-- The same, for the parameters of a random forest. -/
noncomputable def density (o : RForest) (y : List ℝ) (x : Nat) : ℝ := chance o.g.k o.alpha o.clf y x

/-- The inputs of a query: all declared ones and no other one, without missing values. -/
structure Given (o : RForest) (ins : Vals) : Prop where
  nodup : ins.keys.Nodup
  same : ∀ c, c ∈ ins.keys ↔ c ∈ o.g.inputs
  value : ∀ c ∈ ins.keys, ∃ x : ℝ, ins.get? c = some (some x)

/-- The inputs, by increasing column. -/
noncomputable def covariates (ins : Vals) : List ℝ :=
  (ins.keys.mergeSort (· ≤ ·)).map fun c => ((ins.get? c).getD none).getD 0

/-- The rows. -/
def rows (o : RForest) : List Row := o.obj.rows.x.keys

/-- The category of a row. -/
def category (o : RForest) (r : Row) : Nat := (o.obj.rows.x.get? r).getD 0

/-- The inputs of a row. -/
noncomputable def inputsOf (o : RForest) (r : Row) : List ℝ :=
  ((o.obj.rows.Y.get? r).getD []).map fun v => v.getD 0

/-- The probability of the categories of all rows, if alpha is `a`. -/
noncomputable def likelihood (o : RForest) (a : ℝ) : ℝ :=
  ((rows o).map fun r => chance o.g.k a o.clf (inputsOf o r) (category o r)).prod

/-- A random forest that a history of calls leads to. -/
structure Valid (o : RForest) : Prop where
  inputs : o.g.p = o.g.inputs.length
  nodup : o.g.inputs.Nodup
  apart : o.g.output ∉ o.g.inputs
  k : 1 ≤ o.g.k
  counts : o.obj.counts.length = o.g.k
  alpha : 0 ≤ o.alpha ∧ o.alpha ≤ 1
  clf : ∀ c, o.clf = some c → Proper o.g.p c ∧ ∀ j ∈ c.classes, j < o.g.k
  rows : o.obj.rows.x.keys.Nodup
  keys : o.obj.rows.Y.keys = o.obj.rows.x.keys
  category : ∀ r x, o.obj.rows.x.get? r = some x → x < o.g.k
  width : ∀ r y, o.obj.rows.Y.get? r = some y → y.length = o.g.p

end Cgpm.Spec.Forest
