import Verif.Lemmas.FlipAverage

/-! Latent structures that differ in one column. -/
namespace Cgpm.Spec
open Cgpm Cgpm.Props

namespace Latent
variable {cols : Finset Col} {rows : Finset Row}

/-- Two latent structures that differ in column `c` only. -/
structure Off (c : {c // c ∈ cols}) (L L' : Latent cols rows) : Prop where
  alpha : L.alpha = L'.alpha
  part : ∀ a b, a ≠ c → b ≠ c → (L.part.r a b ↔ L'.part.r a b)
  view : ∀ a, a ≠ c → L.view a = L'.view a

theorem Off.refl (c : {c // c ∈ cols}) (L : Latent cols rows) : Off c L L :=
  ⟨rfl, fun _ _ _ _ => Iff.rfl, fun _ _ => rfl⟩

theorem Off.symm {c : {c // c ∈ cols}} {L L' : Latent cols rows} (h : Off c L L') : Off c L' L :=
  ⟨h.alpha.symm, fun a b ha hb => (h.part a b ha hb).symm, fun a ha => (h.view a ha).symm⟩

theorem Off.trans {c : {c // c ∈ cols}} {L L' L'' : Latent cols rows} (h : Off c L L')
    (h' : Off c L' L'') : Off c L L'' :=
  ⟨h.alpha.trans h'.alpha, fun a b ha hb => (h.part a b ha hb).trans (h'.part a b ha hb),
    fun a ha => (h.view a ha).trans (h'.view a ha)⟩

theorem Off.ext {c : {c // c ∈ cols}} {L L' : Latent cols rows} (h : Off c L L')
    (hp : ∀ a, a ≠ c → (L.part.r a c ↔ L'.part.r a c)) (hv : L.view c = L'.view c) : L = L' := by
  refine Latent.ext h.alpha (Setoid.ext fun a b => ?_) (funext fun a => ?_)
  · show L.part.r a b ↔ L'.part.r a b
    by_cases ha : a = c
    · subst ha
      by_cases hb : b = a
      · subst hb; exact ⟨fun _ => L'.part.refl _, fun _ => L.part.refl _⟩
      · exact ⟨fun h => L'.part.symm ((hp b hb).mp (L.part.symm h)),
          fun h => L.part.symm ((hp b hb).mpr (L'.part.symm h))⟩
    · by_cases hb : b = c
      · subst hb; exact hp a ha
      · exact h.part a b ha hb
  · by_cases ha : a = c
    · subst ha; exact hv
    · exact h.view a ha

/-- Column `c` has a view of its own. -/
def Alone (c : {c // c ∈ cols}) (L : Latent cols rows) : Prop := ∀ a, L.part.r a c → a = c

open Classical in
/-- `L` with column `c` moved to a view of its own, with concentration and row partition `l`. -/
noncomputable def alone (c : {c // c ∈ cols}) (l : ℝ × RowPartition rows) (L : Latent cols rows) :
    Latent cols rows where
  alpha := L.alpha
  part :=
    { r := fun a b => a = b ∨ (a ≠ c ∧ b ≠ c ∧ L.part.r a b)
      iseqv := ⟨fun a => Or.inl rfl, by
        rintro a b (h | ⟨h1, h2, h3⟩)
        · exact Or.inl h.symm
        · exact Or.inr ⟨h2, h1, L.part.symm h3⟩, by
        rintro a b d (rfl | ⟨h1, h2, h3⟩) (rfl | ⟨g1, g2, g3⟩)
        · exact Or.inl rfl
        · exact Or.inr ⟨g1, g2, g3⟩
        · exact Or.inr ⟨h1, h2, h3⟩
        · exact Or.inr ⟨h1, g2, L.part.trans h3 g3⟩⟩ }
  view := Function.update L.view c l
  same := by
    rintro a b (rfl | ⟨h1, h2, h3⟩)
    · rfl
    · rw [Function.update_of_ne h1, Function.update_of_ne h2]; exact L.same a b h3

variable {c : {c // c ∈ cols}} {L L' : Latent cols rows} {l l' : ℝ × RowPartition rows}

theorem alone_off (c : {c // c ∈ cols}) (l : ℝ × RowPartition rows) (L : Latent cols rows) :
    Off c L (alone c l L) where
  alpha := rfl
  part := fun a b ha hb => ⟨fun h => Or.inr ⟨ha, hb, h⟩, by
    rintro (rfl | ⟨-, -, h⟩)
    · exact L.part.refl _
    · exact h⟩
  view := fun a ha => (Function.update_of_ne ha _ _).symm

theorem alone_alone (c : {c // c ∈ cols}) (l : ℝ × RowPartition rows) (L : Latent cols rows) :
    Alone c (alone c l L) := by
  rintro a (h | ⟨-, h, -⟩)
  · exact h
  · exact absurd rfl h

theorem alone_view (c : {c // c ∈ cols}) (l : ℝ × RowPartition rows) (L : Latent cols rows) :
    (alone c l L).view c = l := Function.update_self ..

theorem eq_alone (h : Off c L L') (ha : Alone c L') : L' = alone c (L'.view c) L := by
  refine Off.ext (h.symm.trans (alone_off c _ L)) (fun a hne => ?_) (alone_view ..).symm
  exact ⟨fun hr => absurd (ha a hr) hne, fun hr => absurd (alone_alone c _ L a hr) hne⟩

theorem alone_eq_iff (l : ℝ × RowPartition rows) : alone c l L = alone c l L' ↔ Off c L L' := by
  constructor
  · intro h
    exact (alone_off c l L).trans (h ▸ (alone_off c l L').symm)
  · intro h
    have := eq_alone (h.trans (alone_off c l L')) (alone_alone c l L')
    rw [alone_view] at this
    exact this.symm

theorem alone_alone_eq : alone c l (alone c l' L) = alone c l L :=
  (alone_eq_iff l).mpr (alone_off c l' L).symm

theorem mem_latents : L ∈ latents cols rows ↔ L.OnGrid := by
  simp [latents]

theorem Off.onGrid (h : Off c L L') (hL : L.OnGrid)
    (hv : (L'.view c).1 ∈ concentrations rows.card) : L'.OnGrid := by
  refine ⟨h.alpha ▸ hL.1, fun a => ?_⟩
  by_cases ha : a = c
  · subst ha; exact hv
  · rw [← h.view a ha]; exact hL.2 a

theorem alone_onGrid (hL : L.OnGrid) (hl : l.1 ∈ concentrations rows.card) :
    (alone c l L).OnGrid := (alone_off c l L).onGrid hL (by rw [alone_view]; exact hl)

/-- A column that is not alone shares its label with another column. -/
theorem Off.onGrid_of_not_alone (h : Off c L L') (hL : L.OnGrid) (hn : ¬ Alone c L') :
    L'.OnGrid := by
  refine h.onGrid hL ?_
  unfold Alone at hn
  push Not at hn
  obtain ⟨a, hr, hne⟩ := hn
  rw [← L'.same a c hr, ← h.view a hne]
  exact hL.2 a

end Latent

variable {cols : Finset Col} {n : ℕ}

open Classical in
/-- The expected value of `f` after the column `c` has been drawn again by Neal's algorithm 8 with
`k + 1` auxiliary views, with weights `W`. -/
noncomputable def colRedraw (W : Latent cols (Finset.range n) → ℝ) (c : {c // c ∈ cols}) (k : ℕ)
    (f : Latent cols (Finset.range n) → ℝ) (L : Latent cols (Finset.range n)) : ℝ :=
  if L.Alone c then Aux.iterSum (labels n) (labelLaw n) k fun ls =>
    Aux.step {y ∈ latents cols (Finset.range n) | L.Off c y ∧ ¬ y.Alone c} (fun l => L.alone c l) W
      (fun l => W (L.alone c l) / labelLaw n l) (k + 1) f (L.view c :: ls)
  else Aux.iterSum (labels n) (labelLaw n) (k + 1)
    (Aux.step {y ∈ latents cols (Finset.range n) | L.Off c y ∧ ¬ y.Alone c} (fun l => L.alone c l) W
      (fun l => W (L.alone c l) / labelLaw n l) (k + 1) f)

theorem colRedraw_lin (W : Latent cols (Finset.range n) → ℝ) (c : {c // c ∈ cols}) (k : ℕ)
    (f g : Latent cols (Finset.range n) → ℝ) (a b : ℝ) (L : Latent cols (Finset.range n)) :
    colRedraw W c k (fun x => a * f x + b * g x) L
      = a * colRedraw W c k f L + b * colRedraw W c k g L := by
  unfold colRedraw
  split
  · rw [← Aux.iterSum_mul, ← Aux.iterSum_mul, ← Aux.iterSum_add]
    exact Aux.iterSum_congr fun ls _ _ => Aux.step_lin ..
  · rw [← Aux.iterSum_mul, ← Aux.iterSum_mul, ← Aux.iterSum_add]
    exact Aux.iterSum_congr fun ls _ _ => Aux.step_lin ..

open Classical in
/-- This leaves invariant the distribution with weights `W`, and any restriction of it by a condition
that does not depend on column `c`. -/
theorem colRedraw_invariant (hn : 0 < n) {W χ : Latent cols (Finset.range n) → ℝ}
    {c : {c // c ∈ cols}} (hW : ∀ L ∈ latents cols (Finset.range n), 0 ≤ W L)
    (hpos : ∀ L ∈ latents cols (Finset.range n), L.Alone c → 0 < W L)
    (hχ : ∀ L ∈ latents cols (Finset.range n), ∀ L' ∈ latents cols (Finset.range n), L.Off c L' →
      χ L = χ L') (k : ℕ) (f : Latent cols (Finset.range n) → ℝ) :
    ∑ L ∈ latents cols (Finset.range n), χ L * W L * colRedraw W c k f L
      = ∑ L ∈ latents cols (Finset.range n), χ L * W L * f L := by
  have hcard : (Finset.range n).card = n := Finset.card_range n
  obtain ⟨l0⟩ : Nonempty (ℝ × RowPartition (Finset.range n)) := ⟨(0, ⊥)⟩
  have h := Aux.classes_invariant (labelLaw_sum hn) (fun l hl => labelLaw_pos hl)
    (latents cols (Finset.range n)) (fun L => L.alone c l0) (fun L l => L.alone c l)
    (fun L => L.Alone c) (fun L => L.view c) W χ
    (by
      intro y hy l hl
      have hl' := mem_labels.mp hl
      have hl'' : l.1 ∈ concentrations (Finset.range n).card := hcard.symm ▸ hl'
      simp only [Latent.alone_alone_eq]
      exact ⟨Latent.mem_latents.mpr (Latent.alone_onGrid (Latent.mem_latents.mp hy) hl''), trivial,
        Latent.alone_alone _ _ _, Latent.alone_view ..⟩)
    (by
      intro y hy hown
      have := (Latent.mem_latents.mp hy).2 c
      rw [hcard] at this
      refine ⟨mem_labels.mpr this, ?_⟩
      rw [Latent.alone_alone_eq]
      exact (Latent.eq_alone (Latent.Off.refl c y) hown).symm)
    hW
    (by
      intro y hy l hl
      have hl' := mem_labels.mp hl
      have hl'' : l.1 ∈ concentrations (Finset.range n).card := hcard.symm ▸ hl'
      simp only [Latent.alone_alone_eq]
      exact hpos _ (Latent.mem_latents.mpr (Latent.alone_onGrid (Latent.mem_latents.mp hy) hl''))
        (Latent.alone_alone _ _ _))
    (by
      intro y hy y' hy' e
      exact hχ y hy y' hy' ((Latent.alone_eq_iff l0).mp e))
    k f
  rw [← h]
  refine Finset.sum_congr rfl fun L hL => ?_
  have e1 : ∀ y : Latent cols (Finset.range n), y.alone c l0 = L.alone c l0 ↔ L.Off c y :=
    fun y => (Latent.alone_eq_iff l0).trans ⟨Latent.Off.symm, Latent.Off.symm⟩
  simp only [colRedraw, Latent.alone_alone_eq, e1]

end Cgpm.Spec
