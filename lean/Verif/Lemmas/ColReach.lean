import Verif.Lemmas.LatentReach

/-! Which latent structures inference over columns reaches. -/
namespace Cgpm.Aux
variable {Λ ι : Type} {S : Finset Λ} {p : Λ → ℝ}

theorem iterSum_nonneg (hp : ∀ l ∈ S, 0 ≤ p l) (k : ℕ) {F : List Λ → ℝ}
    (hF : ∀ ls : List Λ, (∀ l ∈ ls, l ∈ S) → 0 ≤ F ls) : 0 ≤ iterSum S p k F := by
  induction k generalizing F with
  | zero => exact hF [] (by simp)
  | succ k ih =>
    exact Finset.sum_nonneg fun l hl => mul_nonneg (hp l hl)
      (ih fun ls hls => hF _ (by simpa [hl] using hls))

/-- The lists that start with `l` for `l0` again and again. -/
theorem iterSum_lower (hp : ∀ l ∈ S, 0 ≤ p l) (k : ℕ) {F : List Λ → ℝ}
    (hF : ∀ ls : List Λ, (∀ l ∈ ls, l ∈ S) → 0 ≤ F ls) {l0 : Λ} (hl0 : l0 ∈ S) :
    p l0 ^ k * F (List.replicate k l0) ≤ iterSum S p k F := by
  induction k generalizing F with
  | zero => simp [iterSum]
  | succ k ih =>
    have hF' : ∀ l ∈ S, ∀ ls : List Λ, (∀ l ∈ ls, l ∈ S) → 0 ≤ F (l :: ls) := fun l hl ls hls =>
      hF _ (by simpa [hl] using hls)
    have h1 := ih (hF' l0 hl0)
    have h2 := Finset.single_le_sum (s := S) (f := fun l => p l * iterSum S p k fun ls => F (l :: ls))
      (fun l hl => mul_nonneg (hp l hl) (iterSum_nonneg hp k (hF' l hl))) hl0
    refine le_trans ?_ h2
    rw [pow_succ, mul_comm (p l0 ^ k), mul_assoc, List.replicate_succ]
    exact mul_le_mul_of_nonneg_left h1 (hp l0 hl0)

variable {J : Finset ι} {N : Λ → ι} {W : ι → ℝ} {R : Λ → ℝ} {m : ℕ} {f : ι → ℝ} {ls : List Λ}

theorem step_nonneg (hW : ∀ y ∈ J, 0 ≤ W y) (hR : ∀ l ∈ ls, 0 ≤ R l) (hJ : ∀ y ∈ J, 0 ≤ f y)
    (hN : ∀ l ∈ ls, 0 ≤ f (N l)) : 0 ≤ step J N W R m f ls := by
  have hm : (0 : ℝ) ≤ m := Nat.cast_nonneg m
  refine div_nonneg (add_nonneg (Finset.sum_nonneg fun y hy => mul_nonneg (hW y hy) (hJ y hy)) ?_)
    (add_nonneg (Finset.sum_nonneg hW) ?_)
  · refine List.sum_nonneg fun x hx => ?_
    obtain ⟨l, hl, rfl⟩ := List.mem_map.mp hx
    exact mul_nonneg (div_nonneg (hR l hl) hm) (hN l hl)
  · refine List.sum_nonneg fun x hx => ?_
    obtain ⟨l, hl, rfl⟩ := List.mem_map.mp hx
    exact div_nonneg (hR l hl) hm

/-- A step reaches the states of `J` of positive weight. -/
theorem step_lower_old (hW : ∀ y ∈ J, 0 ≤ W y) (hR : ∀ l ∈ ls, 0 ≤ R l) {y : ι} (hy : y ∈ J)
    (hy0 : 0 < W y) : ∃ ε, 0 < ε ∧ ∀ f : ι → ℝ, (∀ y ∈ J, 0 ≤ f y) → (∀ l ∈ ls, 0 ≤ f (N l)) →
      ε * f y ≤ step J N W R m f ls := by
  have hm : (0 : ℝ) ≤ m := Nat.cast_nonneg m
  have hs : ∀ g : Λ → ℝ, (∀ l ∈ ls, 0 ≤ g l) → 0 ≤ (ls.map g).sum := fun g hg =>
    List.sum_nonneg fun x hx => by obtain ⟨l, hl, rfl⟩ := List.mem_map.mp hx; exact hg l hl
  have hD : 0 < ∑ y ∈ J, W y + (ls.map fun l => R l / m).sum :=
    add_pos_of_pos_of_nonneg (Finset.sum_pos' hW ⟨y, hy, hy0⟩)
      (hs _ fun l hl => div_nonneg (hR l hl) hm)
  refine ⟨W y / (∑ y ∈ J, W y + (ls.map fun l => R l / m).sum), div_pos hy0 hD, fun f hJ hN => ?_⟩
  rw [step, div_mul_eq_mul_div]
  refine div_le_div_of_nonneg_right ?_ hD.le
  have h1 := Finset.single_le_sum (f := fun y => W y * f y) (fun z hz => mul_nonneg (hW z hz) (hJ z hz)) hy
  have h2 := hs (fun l => R l / m * f (N l)) fun l hl =>
    mul_nonneg (div_nonneg (hR l hl) hm) (hN l hl)
  linarith

/-- A step reaches the new states in the list. -/
theorem step_lower_new (hm : 0 < m) (hW : ∀ y ∈ J, 0 ≤ W y) (hR : ∀ l ∈ ls, 0 < R l) {l : Λ}
    (hl : l ∈ ls) : ∃ ε, 0 < ε ∧ ∀ f : ι → ℝ, (∀ y ∈ J, 0 ≤ f y) → (∀ l ∈ ls, 0 ≤ f (N l)) →
      ε * f (N l) ≤ step J N W R m f ls := by
  have hm' : (0 : ℝ) < m := Nat.cast_pos.mpr hm
  have hs : ∀ g : Λ → ℝ, (∀ l ∈ ls, 0 ≤ g l) → g l ≤ (ls.map g).sum := fun g hg =>
    List.single_le_sum (fun x hx => by
      obtain ⟨l, hl, rfl⟩ := List.mem_map.mp hx; exact hg l hl) _ (List.mem_map.mpr ⟨l, hl, rfl⟩)
  have hpos := div_pos (hR l hl) hm'
  have hD : 0 < ∑ y ∈ J, W y + (ls.map fun l => R l / m).sum :=
    add_pos_of_nonneg_of_pos (Finset.sum_nonneg hW)
      (hpos.trans_le (hs (fun l => R l / m) fun l hl => (div_pos (hR l hl) hm').le))
  refine ⟨R l / m / (∑ y ∈ J, W y + (ls.map fun l => R l / m).sum), div_pos hpos hD,
    fun f hJ hN => ?_⟩
  rw [step, div_mul_eq_mul_div]
  refine div_le_div_of_nonneg_right ?_ hD.le
  have h1 := Finset.sum_nonneg (f := fun y => W y * f y) fun z hz => mul_nonneg (hW z hz) (hJ z hz)
  have h2 := hs (fun l => R l / m * f (N l)) fun l hl =>
    mul_nonneg (div_pos (hR l hl) hm').le (hN l hl)
  linarith

end Cgpm.Aux

namespace Cgpm.State
open Cgpm.View Cgpm.Spec Cgpm.Props Cgpm.Mix
variable {cols : Finset Col} {n : ℕ}

theorem colRedraw_nonneg {W : Latent cols (Finset.range n) → ℝ} (c : {c // c ∈ cols})
    (hW : ∀ L ∈ latents cols (Finset.range n), 0 ≤ W L) (k : ℕ)
    {f : Latent cols (Finset.range n) → ℝ} (hf : ∀ L ∈ latents cols (Finset.range n), 0 ≤ f L)
    {L : Latent cols (Finset.range n)} (hL : L ∈ latents cols (Finset.range n)) :
    0 ≤ colRedraw W c k f L := by
  classical
  have hcard : (Finset.range n).card = n := Finset.card_range n
  have hal : ∀ l ∈ labels n, L.alone c l ∈ latents cols (Finset.range n) := fun l hl =>
    Latent.mem_latents.mpr (Latent.alone_onGrid (Latent.mem_latents.mp hL)
      (by rw [hcard]; exact mem_labels.mp hl))
  have hstep : ∀ ls : List (ℝ × RowPartition (Finset.range n)), (∀ l ∈ ls, l ∈ labels n) →
      0 ≤ Aux.step {y ∈ latents cols (Finset.range n) | L.Off c y ∧ ¬ y.Alone c}
        (fun l => L.alone c l) W (fun l => W (L.alone c l) / labelLaw n l) (k + 1) f ls :=
    fun ls hls => Aux.step_nonneg (fun y hy => hW y (Finset.mem_filter.mp hy).1)
      (fun l hl => div_nonneg (hW _ (hal l (hls l hl))) (labelLaw_pos (hls l hl)).le)
      (fun y hy => hf y (Finset.mem_filter.mp hy).1) (fun l hl => hf _ (hal l (hls l hl)))
  have hp : ∀ l ∈ labels n, 0 ≤ labelLaw n l := fun l hl => (labelLaw_pos hl).le
  unfold colRedraw
  split
  · refine Aux.iterSum_nonneg hp k fun ls hls => hstep _ fun l hl => ?_
    rcases List.mem_cons.mp hl with e | e
    · rw [e]
      have := (Latent.mem_latents.mp hL).2 c
      rw [hcard] at this
      exact mem_labels.mpr this
    · exact hls l e
  · exact Aux.iterSum_nonneg hp (k + 1) fun ls hls => hstep _ hls

/-- The transition of a column reaches every structure of positive weight that differs in this column
only, unless the column has a view of its own before and after. -/
theorem colRedraw_reaches_one {W : Latent cols (Finset.range n) → ℝ} {c : {c // c ∈ cols}}
    (hW : ∀ L ∈ latents cols (Finset.range n), 0 ≤ W L)
    (hpos : ∀ L ∈ latents cols (Finset.range n), L.Alone c → 0 < W L) (k : ℕ)
    {L L' : Latent cols (Finset.range n)} (hL : L ∈ latents cols (Finset.range n))
    (hL' : L' ∈ latents cols (Finset.range n)) (ho : L.Off c L') (h0 : 0 < W L')
    (ha : L.Alone c → L'.Alone c → L' = L) :
    ∃ ε, 0 < ε ∧ Reaches (latents cols (Finset.range n)) (colRedraw W c k) ε L L' := by
  classical
  have hcard : (Finset.range n).card = n := Finset.card_range n
  have hlab : ∀ l, l ∈ labels n ↔ l.1 ∈ concentrations n := fun l => mem_labels
  have hview : ∀ L ∈ latents cols (Finset.range n), L.view c ∈ labels n := fun L hL => by
    have := (Latent.mem_latents.mp hL).2 c
    rw [hcard] at this
    exact mem_labels.mpr this
  have hal : ∀ l ∈ labels n, L.alone c l ∈ latents cols (Finset.range n) := fun l hl =>
    Latent.mem_latents.mpr (Latent.alone_onGrid (Latent.mem_latents.mp hL)
      (by rw [hcard]; exact mem_labels.mp hl))
  have hp : ∀ l ∈ labels n, 0 ≤ labelLaw n l := fun l hl => (labelLaw_pos hl).le
  have hRpos : ∀ l ∈ labels n, 0 < W (L.alone c l) / labelLaw n l := fun l hl =>
    div_pos (hpos _ (hal l hl) (Latent.alone_alone _ _ _)) (labelLaw_pos hl)
  set J := ({y ∈ latents cols (Finset.range n) | L.Off c y ∧ ¬ y.Alone c} :
    Finset (Latent cols (Finset.range n))) with hJ
  have hJm : ∀ y ∈ J, y ∈ latents cols (Finset.range n) := fun y hy => (Finset.mem_filter.mp hy).1
  have hJW : ∀ y ∈ J, 0 ≤ W y := fun y hy => hW y (hJm y hy)
  have hstep : ∀ f : Latent cols (Finset.range n) → ℝ, (∀ z ∈ latents cols (Finset.range n), 0 ≤ f z) →
      ∀ ls : List (ℝ × RowPartition (Finset.range n)), (∀ l ∈ ls, l ∈ labels n) →
      0 ≤ Aux.step J (fun l => L.alone c l) W (fun l => W (L.alone c l) / labelLaw n l) (k + 1) f ls :=
    fun f hf ls hls => Aux.step_nonneg hJW (fun l hl => (hRpos l (hls l hl)).le)
      (fun y hy => hf y (hJm y hy)) (fun l hl => hf _ (hal l (hls l hl)))
  have hrep : ∀ l ∈ labels n, ∀ x ∈ List.replicate k l, x ∈ labels n := fun l hl x hx => by
    rw [List.eq_of_mem_replicate hx]; exact hl
  by_cases hA : L.Alone c
  · -- the list is the view of `L` and others drawn from the prior
    have hv := hview L hL
    have hls : ∀ l ∈ L.view c :: List.replicate k (L.view c), l ∈ labels n := fun l hl => by
      rcases List.mem_cons.mp hl with e | e
      · rw [e]; exact hv
      · exact hrep _ hv l e
    obtain ⟨ε, e0, e1⟩ : ∃ ε, 0 < ε ∧ ∀ f : Latent cols (Finset.range n) → ℝ,
        (∀ y ∈ J, 0 ≤ f y) → (∀ l ∈ L.view c :: List.replicate k (L.view c), 0 ≤ f (L.alone c l)) →
        ε * f L' ≤ Aux.step J (fun l => L.alone c l) W (fun l => W (L.alone c l) / labelLaw n l)
          (k + 1) f (L.view c :: List.replicate k (L.view c)) := by
      by_cases hA' : L'.Alone c
      · rw [ha hA hA']
        obtain ⟨ε, e0, e1⟩ := Aux.step_lower_new (J := J) (N := fun l => L.alone c l) (W := W)
          (R := fun l => W (L.alone c l) / labelLaw n l) (m := k + 1) (Nat.succ_pos k) hJW
          (fun l hl => hRpos l (hls l hl)) (l := L.view c) (by simp)
        refine ⟨ε, e0, fun f h1 h2 => ?_⟩
        have := e1 f h1 h2
        rwa [← Latent.eq_alone (Latent.Off.refl c L) hA] at this
      · exact Aux.step_lower_old hJW (fun l hl => (hRpos l (hls l hl)).le)
          (Finset.mem_filter.mpr ⟨hL', ho, hA'⟩) h0
    refine ⟨labelLaw n (L.view c) ^ k * ε, mul_pos (pow_pos (labelLaw_pos hv) _) e0, fun f hf => ?_⟩
    unfold colRedraw
    rw [if_pos hA, mul_assoc]
    refine le_trans ?_ (Aux.iterSum_lower (l0 := L.view c) hp k (fun ls hls => hstep f hf _ (by
      simpa [hv] using hls)) hv)
    exact mul_le_mul_of_nonneg_left (e1 f (fun y hy => hf y (hJm y hy))
      (fun l hl => hf _ (hal l (hls l hl)))) (pow_pos (labelLaw_pos hv) _).le
  · obtain ⟨l0, hl0, hle⟩ : ∃ l0 ∈ labels n, L'.Alone c → L' = L.alone c l0 :=
      ⟨L'.view c, hview L' hL', fun hA' => Latent.eq_alone ho hA'⟩
    have hls : ∀ l ∈ List.replicate (k + 1) l0, l ∈ labels n := fun l hl => by
      rw [List.eq_of_mem_replicate hl]; exact hl0
    obtain ⟨ε, e0, e1⟩ : ∃ ε, 0 < ε ∧ ∀ f : Latent cols (Finset.range n) → ℝ,
        (∀ y ∈ J, 0 ≤ f y) → (∀ l ∈ List.replicate (k + 1) l0, 0 ≤ f (L.alone c l)) →
        ε * f L' ≤ Aux.step J (fun l => L.alone c l) W (fun l => W (L.alone c l) / labelLaw n l)
          (k + 1) f (List.replicate (k + 1) l0) := by
      by_cases hA' : L'.Alone c
      · rw [hle hA']
        exact Aux.step_lower_new (J := J) (N := fun l => L.alone c l) (W := W)
          (R := fun l => W (L.alone c l) / labelLaw n l) (m := k + 1) (Nat.succ_pos k) hJW
          (fun l hl => hRpos l (hls l hl)) (l := l0) (by simp)
      · exact Aux.step_lower_old hJW (fun l hl => (hRpos l (hls l hl)).le)
          (Finset.mem_filter.mpr ⟨hL', ho, hA'⟩) h0
    refine ⟨labelLaw n l0 ^ (k + 1) * ε, mul_pos (pow_pos (labelLaw_pos hl0) _) e0, fun f hf => ?_⟩
    unfold colRedraw
    rw [if_neg hA, mul_assoc]
    refine le_trans ?_ (Aux.iterSum_lower (l0 := l0) hp (k + 1) (fun ls hls => hstep f hf _ hls) hl0)
    exact mul_le_mul_of_nonneg_left (e1 f (fun y hy => hf y (hJm y hy))
      (fun l hl => hf _ (hal l (hls l hl)))) (pow_pos (labelLaw_pos hl0) _).le

/-- The same with one bound for all structures. -/
theorem colRedraw_reaches {W : Latent cols (Finset.range n) → ℝ} {c : {c // c ∈ cols}}
    (hW : ∀ L ∈ latents cols (Finset.range n), 0 ≤ W L)
    (hpos : ∀ L ∈ latents cols (Finset.range n), L.Alone c → 0 < W L) (k : ℕ) :
    ∃ ε : ℝ, 0 < ε ∧ ε ≤ 1 ∧ ∀ L ∈ latents cols (Finset.range n),
      ∀ L' ∈ latents cols (Finset.range n), L.Off c L' → 0 < W L' →
      (L.Alone c → L'.Alone c → L' = L) →
      Reaches (latents cols (Finset.range n)) (colRedraw W c k) ε L L' := by
  obtain ⟨ε, h0, h1, h2⟩ := exists_lower
    (latents cols (Finset.range n) ×ˢ latents cols (Finset.range n))
    (fun x ε => x.2 ∈ latents cols (Finset.range n) → x.1.Off c x.2 → 0 < W x.2 →
      (x.1.Alone c → x.2.Alone c → x.2 = x.1) →
      Reaches (latents cols (Finset.range n)) (colRedraw W c k) ε x.1 x.2)
    (fun x ε ε' _ he h hm a1 a2 a3 => (h hm a1 a2 a3).mono hm he) (by
      rintro ⟨L, L'⟩ hx
      obtain ⟨hL, hL'⟩ := Finset.mem_product.mp hx
      by_cases h : L.Off c L' ∧ 0 < W L' ∧ (L.Alone c → L'.Alone c → L' = L)
      · obtain ⟨ε, e0, e1⟩ := colRedraw_reaches_one hW hpos k hL hL' h.1 h.2.1 h.2.2
        exact ⟨ε, e0, fun _ _ _ _ => e1⟩
      · exact ⟨1, one_pos, fun _ a1 a2 a3 => absurd ⟨a1, a2, a3⟩ h⟩)
  exact ⟨ε, h0, h1, fun L hL L' hL' => h2 (L, L') (Finset.mem_product.mpr ⟨hL, hL'⟩) hL'⟩

/-! ### A pass over columns -/

/-- The columns of a list, one after another. -/
noncomputable def colPasses (Ci : Pairs) (U : Latent cols (Finset.range n) → ℝ) (k : ℕ) :
    List {c // c ∈ cols} → (Latent cols (Finset.range n) → ℝ) → Latent cols (Finset.range n) → ℝ
  | [], f => f
  | c :: cs, f => colRedraw (apartWeight Ci U c) c k (colPasses Ci U k cs f)

/-- `L` with column `c` moved to the view of column `a`. -/
def join {rows : Finset Row} (c a : {c // c ∈ cols}) (L : Latent cols rows) : Latent cols rows where
  alpha := L.alpha
  part := L.part.comap fun x => if x = c then a else x
  view := fun x => L.view (if x = c then a else x)
  same := fun x y h => L.same _ _ h

theorem join_off {rows : Finset Row} (c a : {c // c ∈ cols}) (L : Latent cols rows) :
    L.Off c (join c a L) := by
  refine ⟨rfl, fun x y hx hy => ?_, fun x hx => ?_⟩
  · show L.part.r x y ↔ L.part.r (if x = c then a else x) (if y = c then a else y)
    rw [if_neg hx, if_neg hy]
  · show L.view x = L.view (if x = c then a else x)
    rw [if_neg hx]

theorem join_rel {rows : Finset Row} {c a : {c // c ∈ cols}} {L : Latent cols rows}
    {x : {c // c ∈ cols}} (hx : x ≠ c) : (join c a L).part.r x c ↔ L.part.r x a := by
  show L.part.r (if x = c then a else x) (if c = c then a else c) ↔ _
  rw [if_neg hx, if_pos rfl]

section
variable {Ci : Pairs} {U : Latent cols (Finset.range n) → ℝ}

theorem apartWeight_nonneg (hU : ∀ L ∈ latents cols (Finset.range n), 0 < U L) (c : {c // c ∈ cols}) :
    ∀ L ∈ latents cols (Finset.range n), 0 ≤ apartWeight Ci U c L := fun L hL => by
  unfold apartWeight
  split
  · exact (hU L hL).le
  · exact le_rfl

theorem apartWeight_pos (hU : ∀ L ∈ latents cols (Finset.range n), 0 < U L) {c : {c // c ∈ cols}}
    {L : Latent cols (Finset.range n)} (hL : L ∈ latents cols (Finset.range n))
    (h : ApartAt Ci c L) : 0 < apartWeight Ci U c L := by
  unfold apartWeight; rw [if_pos h]; exact hU L hL

theorem colPasses_nonneg (hU : ∀ L ∈ latents cols (Finset.range n), 0 < U L) (k : ℕ)
    (cs : List {c // c ∈ cols}) {f : Latent cols (Finset.range n) → ℝ}
    (hf : ∀ L ∈ latents cols (Finset.range n), 0 ≤ f L) :
    ∀ L ∈ latents cols (Finset.range n), 0 ≤ colPasses Ci U k cs f L := by
  induction cs with
  | nil => exact hf
  | cons c cs ih => exact fun L hL => colRedraw_nonneg c (apartWeight_nonneg hU c) k ih hL

theorem colPasses_cons_reaches (hU : ∀ L ∈ latents cols (Finset.range n), 0 < U L) {k : ℕ}
    {c : {c // c ∈ cols}} {cs : List {c // c ∈ cols}} {ε : ℝ} (h0 : 0 < ε)
    {L L1 L2 : Latent cols (Finset.range n)}
    (h1 : Reaches (latents cols (Finset.range n)) (colRedraw (apartWeight Ci U c) c k) ε L L1)
    (h2 : Reaches (latents cols (Finset.range n)) (colPasses Ci U k cs) (ε ^ cs.length) L1 L2) :
    Reaches (latents cols (Finset.range n)) (colPasses Ci U k (c :: cs)) (ε ^ (c :: cs).length) L L2 := by
  intro f hf
  have := h1 (colPasses Ci U k cs f) (colPasses_nonneg hU k cs hf)
  refine le_trans ?_ this
  rw [List.length_cons, pow_succ, mul_comm (ε ^ _) ε, mul_assoc]
  exact mul_le_mul_of_nonneg_left (h2 f hf) h0.le

/-- A pass over the columns can leave them as they are, if the columns declared independent are
apart; and it can arrange them in any way in which these are apart. -/
theorem colPasses_reaches (hU : ∀ L ∈ latents cols (Finset.range n), 0 < U L) (k : ℕ) :
    ∃ ε : ℝ, 0 < ε ∧ ε ≤ 1 ∧
    (∀ cs : List {c // c ∈ cols}, ∀ L ∈ latents cols (Finset.range n), Apart Ci L →
      Reaches (latents cols (Finset.range n)) (colPasses Ci U k cs) (ε ^ cs.length) L L) ∧
    ∀ cs : List {c // c ∈ cols}, cs.Nodup → (∀ c, c ∈ cs) → ∀ L ∈ latents cols (Finset.range n),
      ∀ p : Setoid {c // c ∈ cols}, (∀ a b, (a.1, b.1) ∈ Ci → a ≠ b → ¬ p.r a b) →
      ∃ L1 ∈ latents cols (Finset.range n), L1.part = p ∧ L1.alpha = L.alpha ∧
        Reaches (latents cols (Finset.range n)) (colPasses Ci U k cs) (ε ^ cs.length) L L1 := by
  classical
  obtain ⟨ε, h0, h1, h2⟩ := exists_lower (Finset.univ : Finset {c // c ∈ cols})
    (fun c ε => ∀ L ∈ latents cols (Finset.range n), ∀ L' ∈ latents cols (Finset.range n),
      L.Off c L' → 0 < apartWeight Ci U c L' → (L.Alone c → L'.Alone c → L' = L) →
      Reaches (latents cols (Finset.range n)) (colRedraw (apartWeight Ci U c) c k) ε L L')
    (fun c ε ε' _ he h L hL L' hL' a1 a2 a3 => (h L hL L' hL' a1 a2 a3).mono hL' he)
    (fun c _ => by
      obtain ⟨ε, e0, -, e2⟩ := colRedraw_reaches (c := c) (apartWeight_nonneg (Ci := Ci) hU c)
        (fun L hL ha => apartWeight_pos hU hL (apartAt_alone ha)) k
      exact ⟨ε, e0, e2⟩)
  have h2' := fun c => h2 c (Finset.mem_univ c)
  refine ⟨ε, h0, h1, fun cs => ?_, ?_⟩
  · induction cs with
    | nil => intro L _ _ f _; simp [colPasses]
    | cons c cs ih =>
      intro L hL hA
      refine colPasses_cons_reaches hU h0 (h2' c L hL L hL (Latent.Off.refl c L) ?_ fun _ _ => rfl)
        (ih L hL hA)
      exact apartWeight_pos hU hL (apart_iff.mp hA).1
  · -- `D`: the columns that have been arranged
    have main : ∀ (cs : List {c // c ∈ cols}) (D : {c // c ∈ cols} → Prop), cs.Nodup →
        (∀ c ∈ cs, ¬ D c) → (∀ c, D c ∨ c ∈ cs) → ∀ L ∈ latents cols (Finset.range n),
        ∀ p : Setoid {c // c ∈ cols}, (∀ a b, (a.1, b.1) ∈ Ci → a ≠ b → ¬ p.r a b) →
        (∀ a b, D a → ¬ D b → ¬ L.part.r a b) → (∀ a b, D a → D b → (L.part.r a b ↔ p.r a b)) →
        ∃ L1 ∈ latents cols (Finset.range n), L1.part = p ∧ L1.alpha = L.alpha ∧
          Reaches (latents cols (Finset.range n)) (colPasses Ci U k cs) (ε ^ cs.length) L L1 := by
      intro cs
      induction cs with
      | nil =>
        intro D _ _ hall L hL p _ _ hin
        have hD : ∀ c, D c := fun c => by simpa using hall c
        exact ⟨L, hL, Setoid.ext fun a b => hin a b (hD a) (hD b), rfl, fun f _ => by
          simp [colPasses]⟩
      | cons c cs ih =>
        intro D hnd hcs hall L hL p hp hout hin
        rw [List.nodup_cons] at hnd
        have hcD : ¬ D c := hcs c (by simp)
        -- the move of column `c`
        obtain ⟨L1, hL1, ho, hw, hal, hrel⟩ : ∃ L1 ∈ latents cols (Finset.range n), L.Off c L1 ∧
            ApartAt Ci c L1 ∧ (L.Alone c → L1.Alone c → L1 = L) ∧
            ∀ a, a ≠ c → (L1.part.r a c ↔ D a ∧ p.r a c) := by
          by_cases hj : ∃ a, D a ∧ p.r a c
          · obtain ⟨a, ha, hpa⟩ := hj
            have hac : a ≠ c := fun e => hcD (e ▸ ha)
            have hr : ∀ x, x ≠ c → ((join c a L).part.r x c ↔ D x ∧ p.r x c) := fun x hx => by
              rw [join_rel hx]
              constructor
              · intro h
                have hDx : D x := by
                  by_contra hn
                  exact hout a x ha hn (L.part.symm h)
                exact ⟨hDx, p.trans ((hin x a hDx ha).mp h) hpa⟩
              · rintro ⟨hDx, hpx⟩
                exact (hin x a hDx ha).mpr (p.trans hpx (p.symm hpa))
            have hna : ¬ (join c a L).Alone c := fun h =>
              hac (h a ((hr a hac).mpr ⟨ha, hpa⟩))
            refine ⟨join c a L, Latent.mem_latents.mpr ((join_off c a L).onGrid_of_not_alone
              (Latent.mem_latents.mp hL) hna), join_off c a L, fun b hb hrb => ?_,
              fun _ h => absurd h hna, hr⟩
            obtain ⟨hbc, hb2⟩ := mem_avoid.mp hb
            have hbc' : b ≠ c := fun e => hbc (congrArg Subtype.val e)
            have hpb := ((hr b hbc').mp hrb).2
            rcases hb2 with h | h
            · exact hp b c h hbc' hpb
            · exact hp c b h hbc'.symm (p.symm hpb)
          · by_cases hA : L.Alone c
            · refine ⟨L, hL, Latent.Off.refl c L, apartAt_alone hA, fun _ _ => rfl, fun a hac => ?_⟩
              exact ⟨fun h => absurd (hA a h) hac, fun h => absurd ⟨a, h⟩ hj⟩
            · refine ⟨L.alone c (L.view c), Latent.mem_latents.mpr (Latent.alone_onGrid
                (Latent.mem_latents.mp hL) ((Latent.mem_latents.mp hL).2 c)),
                Latent.alone_off _ _ _, apartAt_alone (Latent.alone_alone _ _ _),
                fun h => absurd h hA, fun a hac => ?_⟩
              exact ⟨fun h => absurd (Latent.alone_alone _ _ _ a h) hac, fun h => absurd ⟨a, h⟩ hj⟩
        have hD1 : ∀ a b, (D a ∨ a = c) → ¬ (D b ∨ b = c) → ¬ L1.part.r a b := by
          intro a b ha hb hr
          have hbc : b ≠ c := fun e => hb (Or.inr e)
          by_cases hac : a = c
          · rw [hac] at hr
            exact hb (Or.inl ((hrel b hbc).mp (L1.part.symm hr)).1)
          · exact hout a b (ha.resolve_right hac) (fun h => hb (Or.inl h))
              ((ho.part a b hac hbc).mpr hr)
        have hD2 : ∀ a b, (D a ∨ a = c) → (D b ∨ b = c) → (L1.part.r a b ↔ p.r a b) := by
          intro a b ha hb
          by_cases hac : a = c
          · by_cases hbc : b = c
            · rw [hac, hbc]; exact ⟨fun _ => p.refl c, fun _ => L1.part.refl c⟩
            · rw [hac]
              have hDb := hb.resolve_right hbc
              exact ⟨fun h => p.symm ((hrel b hbc).mp (L1.part.symm h)).2,
                fun h => L1.part.symm ((hrel b hbc).mpr ⟨hDb, p.symm h⟩)⟩
          · have hDa := ha.resolve_right hac
            by_cases hbc : b = c
            · rw [hbc]
              exact ⟨fun h => ((hrel a hac).mp h).2, fun h => (hrel a hac).mpr ⟨hDa, h⟩⟩
            · rw [← ho.part a b hac hbc]
              exact hin a b hDa (hb.resolve_right hbc)
        obtain ⟨L2, hL2, e1, e2, e3⟩ := ih (fun x => D x ∨ x = c) hnd.2 (fun x hx hDx => by
            rcases hDx with h | h
            · exact hcs x (by simp [hx]) h
            · exact hnd.1 (h ▸ hx)) (fun x => by
            rcases hall x with h | h
            · exact Or.inl (Or.inl h)
            · rcases List.mem_cons.mp h with h | h
              · exact Or.inl (Or.inr h)
              · exact Or.inr h) L1 hL1 p hp hD1 hD2
        exact ⟨L2, hL2, e1, e2.trans ho.alpha.symm, colPasses_cons_reaches hU h0
          (h2' c L hL L1 hL1 ho (apartWeight_pos hU hL1 hw) hal) e3⟩
    intro cs hnd hall L hL p hp
    exact main cs (fun _ => False) hnd (fun _ _ h => h) (fun c => Or.inr (hall c)) L hL p hp
      (fun _ _ h => absurd h id) (fun _ _ h => absurd h id)

end

end Cgpm.State
