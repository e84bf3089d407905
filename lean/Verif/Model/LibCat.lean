import Verif.Model.Dim
import Verif.Model.Primitives

/-
The catalogue of component types built from the ten univariate primitives of
src/primitives (src/utils/config.py:25-40).
-/
namespace Cgpm

namespace Prim

/-- A primitive as a component type of a column: statistics and hyperparameters are
tagged with the primitive they belong to.  A primitive asserts that it gets no inputs
(src/primitives/distribution.py:50-53, 55-59). -/
noncomputable def lift (p : Prim) : Family (ℝ × List ℝ) (Σ q : Prim, q.S) (Σ q : Prim, q.H) :=
  open Classical in
  { prep := fun o => if o.2 = [] then (match p.fam.prep o.1 with
      | .ok x => .ok (x, [])
      | .error e => .error e) else .error .assertion
    zero := ⟨p, p.fam.zero⟩
    add := fun s o => if e : s.1 = p then ⟨p, p.fam.add (e ▸ s.2) o.1⟩ else s
    sub := fun s o => if e : s.1 = p then ⟨p, p.fam.sub (e ▸ s.2) o.1⟩ else s
    hypOk := fun h => ∃ e : h.1 = p, p.fam.hypOk (e ▸ h.2)
    logpdf := fun h s o => if e : h.1 = p ∧ s.1 = p then
      p.fam.logpdf (e.1 ▸ h.2) (e.2 ▸ s.2) o.1 else ⊥
    score := fun h s => if e : h.1 = p ∧ s.1 = p then
      p.fam.score (e.1 ▸ h.2) (e.2 ▸ s.2) else 0 }

end Prim

/-- The component types satisfying `P`. -/
noncomputable def catOf (P : Prim → Prop) : Cat where
  V := ℝ
  ι := { p : Prim // P p }
  S := Σ q : Prim, q.S
  H := Σ q : Prim, q.H
  F := fun i => i.1.lift

/-- The ten primitives. -/
noncomputable abbrev libCat : Cat := catOf fun _ => True

end Cgpm
