import Verif.Model.Py
import Mathlib.Data.Real.Basic
import Mathlib.Algebra.BigOperators.Group.List.Basic
import Mathlib.Data.List.Permutation

/-
Programs that draw from numpy's random number generator: a program ends with a value or an
exception, or asks the generator for a draw and goes on with its answer.  Nothing in this file
models a file of /repo; Spec/Rand says with which probability a program ends how.
-/
namespace Cgpm

/-- A program that draws random numbers. -/
inductive Rand (α : Type) : Type
  | pure (a : α)
  | raise (e : Exn)
  /-- `rng.choice(len(p), p=p)` -/
  | choice (p : List ℝ) (k : Nat → Rand α)
  /-- `rng.normal(loc, scale)` -/
  | normal (loc scale : ℝ) (k : ℝ → Rand α)

namespace Rand
variable {α β : Type}

/-- Sequencing. -/
def bind : Rand α → (α → Rand β) → Rand β
  | pure a, f => f a
  | raise e, _ => raise e
  | choice p k, f => choice p fun i => (k i).bind f
  | normal m s k, f => normal m s fun x => (k x).bind f

/-- A computation without draws. -/
def ofExcept : Except Exn α → Rand α
  | .ok a => pure a
  | .error e => raise e

open Classical in
/-- `rng.choice(len(p), p=p)`, which raises ValueError unless `p` is a probability vector. -/
noncomputable def draw (p : List ℝ) : Rand Nat :=
  if (∀ x ∈ p, 0 ≤ x) ∧ p.sum = 1 then choice p pure else raise .valueError

/-- `rng.choice(n)`: raises ValueError if `n` is 0. -/
noncomputable def uniform (n : Nat) : Rand Nat := draw (List.replicate n (1 / (n : ℝ)))

/-- `rng.choice(l, replace=False, size=k)`: numpy takes the first `k` of a random permutation. -/
noncomputable def sample (k : Nat) (l : List α) : Rand (List α) :=
  (uniform l.permutations.length).bind fun i => pure ((l.permutations.getD i []).take k)

/-- One computation for each element of a list, in order. -/
def traverse (f : α → Rand β) : List α → Rand (List β)
  | [] => pure []
  | a :: t => (f a).bind fun b => (traverse f t).bind fun bs => pure (b :: bs)

end Rand
end Cgpm
