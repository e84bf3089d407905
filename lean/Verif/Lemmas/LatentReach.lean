import Verif.Lemmas.Mixing
import Verif.Lemmas.TransitionViews

/-! Which latent structures the kernels reach, and with what probability at least. -/
namespace Cgpm.Mix
variable {ι : Type}

/-- From `x` the chain `P` moves to `y` with probability at least `ε`. -/
def Reaches (S : Finset ι) (P : (ι → ℝ) → ι → ℝ) (ε : ℝ) (x y : ι) : Prop :=
  ∀ f, (∀ z ∈ S, 0 ≤ f z) → ε * f y ≤ P f x

theorem Reaches.mono {S : Finset ι} {P : (ι → ℝ) → ι → ℝ} {ε ε' : ℝ} {x y : ι}
    (h : Reaches S P ε x y) (hy : y ∈ S) (he : ε' ≤ ε) : Reaches S P ε' x y := fun f hf =>
  (mul_le_mul_of_nonneg_right he (hf y hy)).trans (h f hf)

end Cgpm.Mix

namespace Cgpm.State
open Cgpm.View Cgpm.Spec Cgpm.Props Cgpm.Mix
variable {cols : Finset Col} {rows : Finset Row}

/-! ### The concentration of the column partition -/

theorem alphaRedraw_reaches {U : Latent cols rows → ℝ} (hU : ∀ L ∈ latents cols rows, 0 < U L) :
    ∃ ε : ℝ, 0 < ε ∧ ε ≤ 1 ∧ ∀ L ∈ latents cols rows, ∀ a ∈ concentrations cols.card,
      Reaches (latents cols rows) (alphaRedraw U) ε L (withAlpha L a) := by
  classical
  have hmem : ∀ L ∈ latents cols rows, ∀ a ∈ concentrations cols.card,
      withAlpha L a ∈ latents cols rows := fun L hL a ha =>
    Latent.mem_latents.mpr ⟨ha, (Latent.mem_latents.mp hL).2⟩
  obtain ⟨ε, h0, h1, h2⟩ := exists_lower (latents cols rows ×ˢ (concentrations cols.card).toFinset)
    (fun x ε => withAlpha x.1 x.2 ∈ latents cols rows →
      Reaches (latents cols rows) (alphaRedraw U) ε x.1 (withAlpha x.1 x.2))
    (fun x ε ε' _ he h hm => (h hm).mono hm he) (by
      rintro ⟨L, a⟩ hx
      obtain ⟨hL, ha⟩ := Finset.mem_product.mp hx
      have hpos : ∀ b ∈ (concentrations cols.card).toFinset, 0 < U (withAlpha L b) := fun b hb =>
        hU _ (hmem L hL b (List.mem_toFinset.mp hb))
      have hZ : 0 < ∑ b ∈ (concentrations cols.card).toFinset, U (withAlpha L b) :=
        Finset.sum_pos hpos ⟨a, ha⟩
      refine ⟨U (withAlpha L a) / ∑ b ∈ (concentrations cols.card).toFinset, U (withAlpha L b),
        div_pos (hpos a ha) hZ, fun _ f hf => ?_⟩
      exact Finset.single_le_sum (f := fun a => U (withAlpha L a) /
        (∑ b ∈ (concentrations cols.card).toFinset, U (withAlpha L b)) * f (withAlpha L a))
        (fun b hb => mul_nonneg (div_nonneg (hpos b hb).le hZ.le)
          (hf _ (hmem L hL b (List.mem_toFinset.mp hb)))) ha)
  exact ⟨ε, h0, h1, fun L hL a ha => h2 (L, a)
    (Finset.mem_product.mpr ⟨hL, List.mem_toFinset.mpr ha⟩) (hmem L hL a ha)⟩

/-! ### Kernels of the views -/

theorem atBlocks_nonneg {κ : Local cols rows} (hκ : ∀ p c, ∀ l ∈ blockLabels rows,
    ∀ l' ∈ blockLabels rows, 0 ≤ κ p c l l') (cs : List {c // c ∈ cols}) {f : Latent cols rows → ℝ}
    (hf : ∀ L ∈ latents cols rows, 0 ≤ f L) : ∀ L ∈ latents cols rows, 0 ≤ atBlocks κ cs f L := by
  induction cs with
  | nil => exact hf
  | cons c cs ih =>
    intro L hL
    exact Finset.sum_nonneg fun l hl => mul_nonneg (hκ _ _ _ (Latent.view_mem hL c) _ hl)
      (ih _ (Latent.mem_latents_setView hL hl))

theorem atBlocks_reaches {κ : Local cols rows} (hκ : ∀ p c, ∀ l ∈ blockLabels rows,
    ∀ l' ∈ blockLabels rows, 0 ≤ κ p c l l') {R : ℝ × RowPartition rows → ℝ × RowPartition rows → Prop}
    {ε : ℝ} (h0 : 0 < ε) (hR : ∀ p c, ∀ l ∈ blockLabels rows, ∀ l' ∈ blockLabels rows, R l l' →
      ε ≤ κ p c l l') {L' : Latent cols rows} (hL' : L' ∈ latents cols rows)
    (cs : List {c // c ∈ cols}) {L : Latent cols rows} (hL : L ∈ latents cols rows)
    (ha : L.alpha = L'.alpha) (hp : L.part = L'.part) (hd : cs.Pairwise fun a b => ¬ L.part.r a b)
    (hc : ∀ c ∈ cs, R (L.view c) (L'.view c))
    (hoff : ∀ b, (∀ c ∈ cs, ¬ L.part.r b c) → L.view b = L'.view b) :
    Reaches (latents cols rows) (atBlocks κ cs) (ε ^ cs.length) L L' := by
  induction cs generalizing L with
  | nil =>
    intro f _
    have : L = L' := Latent.ext ha hp (funext fun b => hoff b (by simp))
    subst this
    simp [atBlocks]
  | cons c cs ih =>
    intro f hf
    have hvl := Latent.view_mem hL' c
    have hm := Latent.mem_latents_setView (c := c) hL hvl
    rw [List.pairwise_cons] at hd
    have h1 := ih hm ha hp hd.2 (fun c' hc' => by
      rw [Latent.setView_off fun h => hd.1 c' hc' (L.part.symm h)]
      exact hc c' (by simp [hc'])) (fun b hb => by
        by_cases hr : L.part.r b c
        · rw [Latent.setView_rel hr]
          exact L'.same c b (hp ▸ L.part.symm hr)
        · rw [Latent.setView_off hr]
          refine hoff b fun c' hc' => ?_
          rcases List.mem_cons.mp hc' with e | e
          · subst e; exact hr
          · exact hb c' e) f hf
    have h2 := Finset.single_le_sum (s := blockLabels rows) (f := fun l =>
      κ L.part c (L.view c) l * atBlocks κ cs f (L.setView c l))
      (fun l hl => mul_nonneg (hκ _ _ _ (Latent.view_mem hL c) _ hl)
        (atBlocks_nonneg hκ cs hf _ (Latent.mem_latents_setView hL hl))) hvl
    refine le_trans ?_ h2
    have h3 := hR L.part c _ (Latent.view_mem hL c) _ hvl (hc c (by simp))
    rw [List.length_cons, pow_succ, mul_comm (ε ^ _) ε, mul_assoc]
    exact mul_le_mul h3 h1 (mul_nonneg (pow_pos h0 _).le (hf L' hL')) (h0.le.trans h3)

/-- The views are set, one after the other. -/
theorem atAll_reaches {κ : Local cols rows} (hκ : ∀ p c, ∀ l ∈ blockLabels rows,
    ∀ l' ∈ blockLabels rows, 0 ≤ κ p c l l') {R : ℝ × RowPartition rows → ℝ × RowPartition rows → Prop}
    {ε : ℝ} (h0 : 0 < ε) (h1 : ε ≤ 1) (hR : ∀ p c, ∀ l ∈ blockLabels rows,
      ∀ l' ∈ blockLabels rows, R l l' → ε ≤ κ p c l l') {sel : {c // c ∈ cols} → Prop}
    (hsel : ∀ c, sel c) {L L' : Latent cols rows} (hL : L ∈ latents cols rows)
    (hL' : L' ∈ latents cols rows) (ha : L.alpha = L'.alpha) (hp : L.part = L'.part)
    (hc : ∀ c, R (L.view c) (L'.view c)) :
    Reaches (latents cols rows) (atAll κ sel) (ε ^ cols.card) L L' := by
  classical
  intro f hf
  unfold atAll
  have hlen : (repsOf sel L.part).length ≤ cols.card := by
    unfold repsOf
    rw [Finset.length_toList]
    exact (Finset.card_le_univ _).trans_eq (Fintype.card_coe cols)
  have h2 := atBlocks_reaches hκ h0 hR hL' (repsOf sel L.part) hL ha hp ?_ (fun c _ => hc c) ?_ f hf
  · exact (mul_le_mul_of_nonneg_right (pow_le_pow_of_le_one h0.le h1 hlen) (hf L' hL')).trans h2
  · refine List.Pairwise.imp_of_mem (R := fun a b => a ≠ b) (fun {a b} ha hb hne hr => hne ?_)
      (Finset.nodup_toList _)
    have ha' := (Finset.mem_filter.mp (Finset.mem_toList.mp ha)).2.1
    have hb' := (Finset.mem_filter.mp (Finset.mem_toList.mp hb)).2.1
    rw [← ha', ← hb']
    exact (repOf_eq _ _ _).mpr hr
  · intro b hb
    refine absurd ?_ (hb (repOf L.part b) ?_)
    · exact L.part.symm (repOf_rel _ _)
    · refine Finset.mem_toList.mpr (Finset.mem_filter.mpr ⟨Finset.mem_univ _, ?_, b, hsel b, ?_⟩)
      · exact (repOf_eq _ _ _).mpr (repOf_rel _ _)
      · exact L.part.symm (repOf_rel _ _)

theorem finite_setoid (cols : Finset Col) : Finite (Setoid {c // c ∈ cols}) :=
  Finite.of_injective (fun q : Setoid {c // c ∈ cols} => fun a b => q.r a b)
    (fun q q' h => Setoid.ext fun a b => by rw [show q.r a b = q'.r a b from congrFun₂ h a b])

section
variable {w : Setoid {c // c ∈ cols} → {c // c ∈ cols} → ℝ × RowPartition rows → ℝ}

theorem alphaLocal_nonneg (hw : ∀ p c, ∀ l ∈ blockLabels rows, 0 < w p c l)
    (p : Setoid {c // c ∈ cols}) (c : {c // c ∈ cols}) {l l' : ℝ × RowPartition rows}
    (hl' : l' ∈ blockLabels rows) :
    0 ≤ alphaLocal w p c l l' ∧ (l'.2 = l.2 → 0 < alphaLocal w p c l l') := by
  classical
  have hpos : ∀ a ∈ (concentrations rows.card).toFinset, 0 < w p c (a, l.2) := fun a ha =>
    hw p c _ (mem_blockLabels.mpr (List.mem_toFinset.mp ha))
  have hZ : 0 < ∑ a ∈ (concentrations rows.card).toFinset, w p c (a, l.2) :=
    Finset.sum_pos hpos ⟨l'.1, List.mem_toFinset.mpr (mem_blockLabels.mp hl')⟩
  unfold alphaLocal
  have := div_pos (hw p c l' hl') hZ
  split
  · exact ⟨this.le, fun _ => this⟩
  · exact ⟨le_rfl, fun h => absurd h ‹_›⟩

theorem alphaLocal_reaches (hw : ∀ p c, ∀ l ∈ blockLabels rows, 0 < w p c l) :
    (∀ p c, ∀ l ∈ blockLabels rows, ∀ l' ∈ blockLabels rows,
      0 ≤ (alphaLocal w).mul (alphaLocal w) p c l l') ∧
    ∃ ε : ℝ, 0 < ε ∧ ε ≤ 1 ∧ ∀ p c, ∀ l ∈ blockLabels rows, ∀ l' ∈ blockLabels rows, l'.2 = l.2 →
      ε ≤ (alphaLocal w).mul (alphaLocal w) p c l l' := by
  classical
  have hnn : ∀ p c, ∀ l l' : ℝ × RowPartition rows, l' ∈ blockLabels rows →
      ∀ x ∈ blockLabels rows, 0 ≤ alphaLocal w p c l x * alphaLocal w p c x l' :=
    fun p c l l' hl' x hx => mul_nonneg (alphaLocal_nonneg hw p c hx).1 (alphaLocal_nonneg hw p c hl').1
  refine ⟨fun p c l _ l' hl' => Finset.sum_nonneg (hnn p c l l' hl'), ?_⟩
  have := finite_setoid cols
  have : Fintype (Setoid {c // c ∈ cols}) := Fintype.ofFinite _
  obtain ⟨ε, h0, h1, h2⟩ := exists_lower
    ((Finset.univ : Finset (Setoid {c // c ∈ cols})) ×ˢ (Finset.univ : Finset {c // c ∈ cols}) ×ˢ
      blockLabels rows ×ˢ blockLabels rows)
    (fun x ε => x.2.2.2.2 = x.2.2.1.2 → ε ≤ (alphaLocal w).mul (alphaLocal w) x.1 x.2.1 x.2.2.1 x.2.2.2)
    (fun x ε ε' _ he h hm => he.trans (h hm)) (by
      rintro ⟨p, c, l, l'⟩ hx
      simp only [Finset.mem_product, Finset.mem_univ, true_and] at hx
      by_cases he : l'.2 = l.2
      · refine ⟨alphaLocal w p c l l * alphaLocal w p c l l',
          mul_pos ((alphaLocal_nonneg hw p c hx.1).2 rfl) ((alphaLocal_nonneg hw p c hx.2).2 he),
          fun _ => ?_⟩
        exact Finset.single_le_sum (f := fun x => alphaLocal w p c l x * alphaLocal w p c x l')
          (hnn p c l l' hx.2) hx.1
      · exact ⟨1, one_pos, fun h => absurd h he⟩)
  exact ⟨ε, h0, h1, fun p c l hl l' hl' he => h2 (p, c, l, l') (by simp [hl, hl']) he⟩

theorem rowLocal_reaches (hw : ∀ p c, ∀ l ∈ blockLabels rows, 0 < w p c l) (n : ℕ) :
    ∃ ε : ℝ, 0 < ε ∧ ε ≤ 1 ∧ ∀ orders : Finset Col → List Row,
      (∀ B, (∀ r ∈ rows, r ∈ orders B) ∧ (orders B).length ≤ n) →
      (∀ p c, ∀ l ∈ blockLabels rows, ∀ l' ∈ blockLabels rows, 0 ≤ rowLocal w orders p c l l') ∧
      ∀ p c, ∀ l ∈ blockLabels rows, ∀ l' ∈ blockLabels rows, l'.1 = l.1 →
        ε ≤ rowLocal w orders p c l l' := by
  classical
  have := finite_setoid cols
  have : Fintype (Setoid {c // c ∈ cols}) := Fintype.ofFinite _
  obtain ⟨ε, h0, h1, h2⟩ := exists_lower
    ((Finset.univ : Finset (Setoid {c // c ∈ cols})) ×ˢ (Finset.univ : Finset {c // c ∈ cols}) ×ˢ
      blockLabels rows)
    (fun x ε => ∀ order : List Row, (∀ r ∈ rows, r ∈ order) → order.length ≤ n →
      ∀ q q', ε ≤ rowMatrix (fun q => w x.1 x.2.1 (x.2.2.1, q) / concentrationPrior rows.card x.2.2.1)
        order q q')
    (fun x ε ε' _ he h o ho hl q q' => he.trans (h o ho hl q q')) (by
      rintro ⟨p, c, l⟩ hx
      simp only [Finset.mem_product, Finset.mem_univ, true_and] at hx
      have hl := mem_blockLabels.mp hx
      obtain ⟨d, d0, d1, hd⟩ := redraws_lower
        (W := fun q => w p c (l.1, q) / concentrationPrior rows.card l.1)
        (fun q => div_pos (hw p c _ (mem_blockLabels.mpr hl)) (concentrationPrior_pos hl))
      refine ⟨d ^ n, pow_pos d0 _, fun order ho hlen q q' => ?_⟩
      have := hd order ho (fun x => if x = q' then 1 else 0) (fun x => by split <;> norm_num) q q'
      rw [if_pos rfl, mul_one] at this
      exact (pow_le_pow_of_le_one d0.le d1 hlen).trans this)
  refine ⟨ε, h0, h1, fun orders ho => ?_⟩
  have key : ∀ p c, ∀ l ∈ blockLabels rows, ∀ l' ∈ blockLabels rows, l'.1 = l.1 →
      ε ≤ rowLocal w orders p c l l' := fun p c l hl l' hl' he => by
    unfold rowLocal
    rw [if_pos he]
    exact h2 (p, c, l) (by simp [hl]) _ (ho _).1 (ho _).2 _ _
  refine ⟨fun p c l hl l' hl' => ?_, key⟩
  by_cases he : l'.1 = l.1
  · exact h0.le.trans (key p c l hl l' hl' he)
  · unfold rowLocal; rw [if_neg he]

end

end Cgpm.State
