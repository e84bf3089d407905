import Verif.Model.Neighbours

/-! Specification of the nearest-neighbour estimators (C88). -/
namespace Cgpm.Props
open Cgpm

/-- SPEC. No coordinate of `p` and `q` differs by more than `r`. -/
def Within (r : ℝ) (p q : List ℝ) : Prop := 0 ≤ r ∧ ∀ ab ∈ p.zip q, |ab.1 - ab.2| ≤ r

open Classical in
/-- SPEC. How many points of the sample are within `r` of `p`. -/
noncomputable def near (x : List (List ℝ)) (r : ℝ) (p : List ℝ) : Nat := x.countP fun q => decide (Within r p q)

/-- SPEC. `r` is the distance from `p` to its `m`-th nearest point in the sample: `m` points are within
`r`, and fewer are within any smaller distance. -/
def IsNearest (x : List (List ℝ)) (m : Nat) (p : List ℝ) (r : ℝ) : Prop :=
  m ≤ near x r p ∧ ∀ r' < r, near x r' p < m

/-- SPEC. A sample of vectors of dimension `d`. -/
def Sized (d : Nat) (x : List (List ℝ)) : Prop := ∀ p ∈ x, p.length = d

/-- SPEC. Every point moved by `v`. -/
noncomputable def moved (v : List ℝ) (x : List (List ℝ)) : List (List ℝ) :=
  x.map fun p => List.zipWith (· + ·) p v

/-- SPEC. Every point multiplied by `c`. -/
noncomputable def scaled (c : ℝ) (x : List (List ℝ)) : List (List ℝ) := x.map fun p => p.map (c * ·)

end Cgpm.Props
