import Verif.Model.Primitives

/-!
Specification vocabulary for C05-C09, independent of the model's `prep`, `add`
and `sub`: the documented support of each distribution, and the row -> value map
obtained by replaying a history.
-/
namespace Cgpm.Props
open Cgpm Cgpm.Comp

/-- SPEC. The documented support of each distribution. -/
def support : Prim → ℝ → Prop
  | .bernoulli, x => x = 0 ∨ x = 1
  | .categorical k, x => ∃ n : ℕ, n < k ∧ x = n
  | .exponential, x => 0 ≤ x
  | .geometric, x => ∃ n : ℕ, x = n
  | .poisson, x => ∃ n : ℕ, x = n
  | .normal, _ => True
  | .lognormal, x => 0 < x
  | .vonmises _, x => 0 ≤ x ∧ x ≤ 2 * Real.pi
  | .normalTrunc l h _ _, x => l ≤ x ∧ x ≤ h
  | .beta _, x => 0 < x ∧ x < 1

/-- SPEC. The hyperparameter values each distribution accepts.  Two caveats, faithful to
the code: the concentration `k` of vonmises is not checked, and for the uncollapsed
normal_trunc and beta the values are current parameters, drawn and never checked. -/
def hypersValid : (p : Prim) → p.H → Prop
  | .bernoulli, h => 0 < BernoulliH.alpha h ∧ 0 < BernoulliH.beta h
  | .categorical _, h => 0 < CategoricalH.alpha h
  | .exponential, h => 0 < AbH.a h ∧ 0 < AbH.b h
  | .geometric, h => 0 < AbH.a h ∧ 0 < AbH.b h
  | .poisson, h => 0 < AbH.a h ∧ 0 < AbH.b h
  | .normal, h => 0 < NormalH.r h ∧ 0 < NormalH.s h ∧ 0 < NormalH.nu h
  | .lognormal, h => 0 < NormalH.r h ∧ 0 < NormalH.s h ∧ 0 < NormalH.nu h
  | .vonmises _, h => 0 < VonmisesH.a h ∧ 0 < VonmisesH.b h ∧ VonmisesH.b h ≤ 2 * Real.pi
  | .normalTrunc .., _ => True
  | .beta _, _ => True

/-- SPEC. The distributions on finitely or countably many values. -/
def discrete : Prim → Prop
  | .bernoulli => True
  | .categorical k => 0 < k
  | .geometric => True
  | .poisson => True
  | _ => False

/-- SPEC. Is `p` something other than the beta distribution? -/
def notBeta : Prim → Prop
  | .beta _ => False
  | _ => True

open Classical in
/-- SPEC. What a component remembers of a value: the value itself if it is in the
support; the beta component first moves values within the floating-point tolerance
of 0 (of 1) to .001 (to .999). -/
noncomputable def remembered : Prim → ℝ → Option ℝ
  | .beta _, x =>
    let y := if |x| ≤ 1 / 10 ^ 8 + 1 / 10 ^ 5 * |x| then 1 / 1000
      else if |1 - x| ≤ 1 / 10 ^ 8 + 1 / 10 ^ 5 * |x| then 999 / 1000 else x
    if 0 < y ∧ y < 1 then some y else none
  | p, x => if support p x then some x else none

/-- SPEC. Effect of one call on the abstract row -> value map: an unsupported value
or an already incorporated row leaves it alone. -/
noncomputable def cellStep (p : Prim) (m : Row → Option ℝ) : Op ℝ p.H → (Row → Option ℝ)
  | .inc r x => fun r' => if r' = r ∧ m r = none then remembered p x else m r'
  | .unc r => fun r' => if r' = r then none else m r'
  | .hyp _ => m

/-- SPEC. The abstract row -> value map after a history. -/
noncomputable def cells (p : Prim) (ops : List (Op ℝ p.H)) : Row → Option ℝ :=
  ops.foldl (cellStep p) (fun _ => none)

/-- SPEC. The log predictives met while observing the rows of `l` one after the
other, as the API reports them. -/
noncomputable def predictiveSum {S H : Type} (F : Family ℝ S H) (c : Comp ℝ S H) :
    List (Row × ℝ) → LogP
  | [] => 0
  | (r, x) :: l =>
    (match c.logpdf F (some r) x with | .ok v => v | .error _ => ⊥)
      + predictiveSum F (c.incorporate F r x).state l

/-- SPEC. Incorporate a list of rows. -/
def incAll {H : Type} (l : List (Row × ℝ)) : List (Op ℝ H) := l.map fun p => Op.inc p.1 p.2

end Cgpm.Props
