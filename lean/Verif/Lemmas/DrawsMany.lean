import Verif.Lemmas.PrimSimulate
import Mathlib.MeasureTheory.Constructions.Pi

/-! Repeated calls of a program whose answers, seen through a function, have a law. -/
namespace Cgpm
open Cgpm MeasureTheory
open scoped ENNReal

/-- Seen through `φ`, the answers of the program have the law `Q`. -/
def Draws.HasLaw {α X : Type} [MeasurableSpace X] (m : Draws α) (φ : α → X) (Q : Measure X) : Prop :=
  ∀ g : X → ℝ≥0∞, Measurable g → (m.E fun a => g (φ a)) = ∫⁻ y, g y ∂Q

/-- The first `n` elements of a list, as a function. -/
def nths {α X : Type} [Inhabited X] (φ : α → X) (n : Nat) (l : List α) : Fin n → X :=
  fun i => (l[i.val]?.map φ).getD default

theorem nths_cons {α X : Type} [Inhabited X] (φ : α → X) (n : Nat) (a : α) (l : List α) :
    nths φ (n + 1) (a :: l) = Fin.cons (φ a) (nths φ n l) := by
  funext i
  refine Fin.cases ?_ (fun i => ?_) i
  · simp [nths]
  · simp [nths]

theorem Draws.HasLaw.many {α X : Type} [Inhabited X] [MeasurableSpace X] {m : Draws α} {φ : α → X}
    {Q : Measure X} [SigmaFinite Q] (h : m.HasLaw φ Q) (n : Nat) :
    (m.many n).HasLaw (nths φ n) (Measure.pi fun _ : Fin n => Q) := by
  induction n with
  | zero =>
    intro g hg
    simp only [Draws.many, Draws.E]
    rw [Measure.pi_of_empty (α := Fin 0) (x := nths φ 0 []), lintegral_dirac' _ hg]
  | succ n ih =>
    intro g hg
    simp only [Draws.many]
    rw [Draws.E_bind]
    have e := measurePreserving_piFinSuccAbove (fun _ : Fin (n + 1) => Q) 0
    have hcons : ∀ p : X × (Fin n → X),
        (MeasurableEquiv.piFinSuccAbove (fun _ : Fin (n + 1) => X) 0).symm p = Fin.cons p.1 p.2 := by
      intro p
      simp only [MeasurableEquiv.piFinSuccAbove_symm_apply, Fin.insertNthEquiv, Fin.insertNth_zero,
        Equiv.coe_fn_mk, Fin.zero_succAbove]
      rfl
    have hm : Measurable fun p : X × (Fin n → X) => g (Fin.cons p.1 p.2) := by
      refine hg.comp ?_
      have := (MeasurableEquiv.piFinSuccAbove (fun _ : Fin (n + 1) => X) 0).symm.measurable
      simpa only [funext hcons] using this
    have h1 : ∀ a, (((m.many n).bind fun l => Draws.pure (a :: l)).E fun l => g (nths φ (n + 1) l))
        = ∫⁻ z, g (Fin.cons (φ a) z) ∂(Measure.pi fun _ : Fin n => Q) := by
      intro a
      rw [Draws.E_bind]
      simp only [Draws.E, nths_cons]
      exact ih (fun z => g (Fin.cons (φ a) z)) (hm.comp measurable_prodMk_left)
    simp only [h1]
    rw [h (fun y => ∫⁻ z, g (Fin.cons y z) ∂(Measure.pi fun _ : Fin n => Q))
      hm.lintegral_prod_right']
    have h2 := e.symm.lintegral_comp hg
    rw [← h2]
    simp only [hcons]
    exact (lintegral_prod _ hm.aemeasurable).symm

end Cgpm
