import Verif.Model.Engine

/-
What a request for states of an Engine means, independently of the Engine's code.
-/
namespace Cgpm.Spec
open Cgpm

/-- The index `i` denotes position `k` of a list of `n` elements, as in Python: counted from the
front, or from the end if negative. -/
def Denotes (n : Nat) (i : Int) (k : Nat) : Prop := k < n ∧ (i = k ∨ i + n = k)

/-- The positions requested by `statenos`: all of them in order when it is not given. -/
def Requested (n : Nat) (statenos : Option (List Int)) (ks : List Nat) : Prop :=
  match statenos with
  | none => ks = List.range n
  | some l => l ≠ [] ∧ List.Forall₂ (Denotes n) l ks

/-- `as` are the answers of the states at positions `ks`, in order. -/
def Answers {σ α : Type} (f : σ → Res σ α) (L : List σ) (ks : List Nat) (as : List α) : Prop :=
  List.Forall₂ (fun k a => ∃ x x', L[k]? = some x ∧ f x = .ok a x') ks as

/-- A method raises. -/
def Raises {σ α : Type} (f : σ → Res σ α) (x : σ) : Prop := ∃ e x', f x = .err e x'

/-- A method leaves the object as it was. -/
def ReadOnly {σ α : Type} (f : σ → Res σ α) (x : σ) : Prop := (f x).state = x

end Cgpm.Spec
