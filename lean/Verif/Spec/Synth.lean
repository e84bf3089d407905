import Verif.Model.Synth
import Verif.Spec.Primitives

/-! Specification vocabulary for C92. -/
namespace Cgpm.Props
open Cgpm Cgpm.Synth Cgpm.Comp

/-- SPEC. Samplers return values in the range of their distribution, when their parameters are
in range. -/
structure SamplerOk {Ω : Type} (S : Sampler Ω) : Prop where
  rand : ∀ ω, 0 ≤ S.rand ω ∧ S.rand ω < 1
  lognormal : ∀ m s ω, 0 < s → 0 < S.lognormal m s ω
  beta : ∀ a b ω, 0 < a → 0 < b → 0 < S.beta a b ω ∧ S.beta a b ω < 1
  vonmises : ∀ m k ω, 0 ≤ k → -Real.pi ≤ S.vonmises m k ω ∧ S.vonmises m k ω ≤ Real.pi
  exponential : ∀ m ω, 0 < m → 0 ≤ S.exponential m ω
  geometric : ∀ p ω, 0 < p → p ≤ 1 → 1 ≤ S.geometric p ω
  dirichlet : ∀ (a : List ℝ) ω, a ≠ [] → (∀ x ∈ a, 0 < x) → (S.dirichlet a ω).length = a.length ∧
    (∀ x ∈ S.dirichlet a ω, 0 ≤ x) ∧ (S.dirichlet a ω).sum = 1

/-- SPEC. Weights of the parts of a partition: positive numbers that add up to one. -/
structure Weights (w : List ℝ) : Prop where
  pos : ∀ x ∈ w, 0 < x
  sum : w.sum = 1

/-- SPEC. `Z` divides `n` things into `k` parts, none of them empty. -/
structure PartitionInto (Z : List ℕ) (n k : ℕ) : Prop where
  length : Z.length = n
  labels : ∀ c, c ∈ Z ↔ c < k

/-- SPEC. The draws of a call: uniform draws are in [0, 1), shuffling permutes. -/
structure DrawsOk {Ω : Type} (d : Draws Ω) : Prop where
  views : ∀ i, 0 ≤ d.views i ∧ d.views i < 1
  rows : ∀ v i, 0 ≤ d.rows v i ∧ d.rows v i < 1
  shuffleViews : ∀ l, (d.shuffleViews l).Perm l
  shuffleRows : ∀ v l, (d.shuffleRows v l).Perm l

/-- SPEC. A column of a type with a separation in (0, 1]; a nominal column has a code. -/
def ColumnOk (p : Prim) (sep : ℝ) : Prop :=
  0 < sep ∧ sep ≤ 1 ∧ match p with
    | .categorical k => 0 < k
    | _ => True

/-- SPEC. Generation may fail for truncated normal columns only. -/
def isTruncated : Prim → Prop
  | .normalTrunc .. => True
  | _ => False

/-- SPEC. Arguments of `gen_data_table` as documented: weights for the views and for the clusters of
each view, not more than there are columns and rows, or a partition of the columns in place of the
weights for the views; and columns with separations in (0, 1]. -/
structure TableArgs (n : ℕ) (vw : List ℝ) (cw : List (List ℝ)) (cols : List (Prim × ℝ))
    (vp : List ℕ) : Prop where
  clusters : ∀ w ∈ cw, Weights w ∧ w.length ≤ n
  columns : ∀ c ∈ cols, ColumnOk c.1 c.2
  views : (vp = [] ∧ Weights vw ∧ vw.length ≤ cols.length ∧ vw.length = cw.length) ∨
    (vp ≠ [] ∧ PartitionInto vp cols.length cw.length)

end Cgpm.Props
