import Verif.Model.Kde
import Verif.Spec.Rand
import Verif.Spec.MvRows
import Mathlib.Data.Set.Card

/-!
Specification for C65: the distribution that a kernel density estimate stands for.

Every row without missing cells among the variables of a query is an exemplar.  An exemplar is chosen
with probability proportional to the kernels of its cells at the constraints; each target is then drawn
from the kernel of the exemplar's cell.
-/
namespace Cgpm.Spec.Kde
open Cgpm MeasureTheory

/-- The type of a variable. -/
def typ (o : Kde) (q : Col) : KType := o.types.getD (o.outputs.idxOf q) .numerical

/-- The bandwidth of a variable. -/
noncomputable def band (o : Kde) (q : Col) : ℝ := o.bw.getD (o.outputs.idxOf q) 1

/-- The value of a variable in a row, if it is observed. -/
abbrev cell (o : Kde) : Row → Col → Option ℝ := Mv.cell o.outputs o.rows

/-- The exemplars: the rows without missing cells among `qs`. -/
abbrev exemplars (o : Kde) : List Col → List Row := Mv.exemplars o.outputs o.rows

open Classical in
/-- The kernel around `c`: a normal density with standard deviation `h`, or the probability `1 - h` of the
same category and `h / (k - 1)` of each other one. -/
noncomputable def kernel (t : KType) (h c v : ℝ) : ℝ :=
  match t with
  | .numerical => Rand.normalDensity c h v
  | .nominal k => if v = c then 1 - h else h / ((k : ℝ) - 1)

/-- The product of the kernels of a row at the values of `d`. -/
noncomputable def closeness (o : Kde) (r : Row) (d : Dict Col ℝ) : ℝ :=
  (d.map fun p => kernel (typ o p.1) (band o p.1) ((cell o r p.1).getD 0) p.2).prod

/-- The density of the targets `T` given the constraints `C`. -/
noncomputable def mixture (o : Kde) (T C : Dict Col ℝ) : ℝ :=
  ((exemplars o (T.keys ++ C.keys)).map fun r => closeness o r C * closeness o r T).sum
    / ((exemplars o (T.keys ++ C.keys)).map fun r => closeness o r C).sum

/-- The sum over the values of a variable: an integral, or a sum over the categories. -/
noncomputable def over (t : KType) (g : ℝ → ℝ) : ℝ :=
  match t with
  | .numerical => ∫ x, g x
  | .nominal k => ∑ i ∈ Finset.range k, g i

/-- The sum over all assignments of values to a list of variables, whose types are `typ`. -/
noncomputable def total (typ : Col → KType) : List Col → (Dict Col ℝ → ℝ) → ℝ
  | [], f => f []
  | q :: t, f => over (typ q) fun x => total typ t fun d => f ((q, x) :: d)

/-- A kernel density estimate as the constructor accepts it, with proper bandwidths, whose rows hold
categories that exist. -/
structure Valid (o : Kde) : Prop extends Mv.Full o.outputs o.rows where
  types : o.types.length = o.outputs.length
  bw : o.bw.length = o.outputs.length
  numerical : ∀ q ∈ o.outputs, typ o q = .numerical → 0 < band o q
  nominal : ∀ q ∈ o.outputs, ∀ k, typ o q = .nominal k → 2 ≤ k ∧ 0 < band o q ∧ band o q < 1
  cells : ∀ q ∈ o.outputs, ∀ k, typ o q = .nominal k → ∀ r v, cell o r q = some v →
    ∃ j : Nat, j < k ∧ v = j

/-- Every category of the variables `qs` occurs among the exemplars of `all`. -/
def Seen (o : Kde) (all qs : List Col) : Prop :=
  ∀ q ∈ qs, ∀ k, typ o q = .nominal k → ∀ j < k, ∃ r ∈ exemplars o all, cell o r q = some (j : ℝ)

/-- Bandwidths that are proper for the types of the variables. -/
def ProperBws (o : Kde) (bw : List ℝ) : Prop :=
  bw.length = o.outputs.length ∧ ∀ q ∈ o.outputs, match typ o q with
    | .numerical => 0 < bw.getD (o.outputs.idxOf q) 1
    | .nominal _ => 0 < bw.getD (o.outputs.idxOf q) 1 ∧ bw.getD (o.outputs.idxOf q) 1 < 1

/-- A call that observes categories that exist, or learns proper bandwidths. -/
def Allowed (o : Kde) : Kde.Op → Prop
  | .inc _ obs _ => ∀ q ∈ o.outputs, ∀ k v, typ o q = .nominal k → obs.get? q = some (some v) →
    ∃ j : Nat, j < k ∧ v = j
  | .unc _ => True
  | .learn bw => ProperBws o bw

/-- The observed cells of a row. -/
noncomputable def observed (o : Kde) (r : Row) : Dict Col ℝ :=
  o.outputs.filterMap fun q => (cell o r q).map fun v => (q, v)

/-- The number of values of a variable among the rows where it is observed. -/
noncomputable def distinct (o : Kde) (q : Col) : Nat :=
  Set.ncard {v | ∃ r, cell o r q = some v}

end Cgpm.Spec.Kde
