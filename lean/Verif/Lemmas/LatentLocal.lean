import Verif.Lemmas.Latent
import Verif.Lemmas.ColExists
import Mathlib.Tactic.FieldSimp

/-! Kernels on latent structures that redraw the concentration and the row partition of one block of
columns after another. -/
namespace Cgpm.Spec
open Cgpm Cgpm.Props Cgpm.State

variable {cols : Finset Col} {rows : Finset Row}

open Classical in
/-- The concentrations of the grid, with the row partitions. -/
noncomputable def blockLabels (rows : Finset Row) : Finset (ℝ × RowPartition rows) :=
  (concentrations rows.card).toFinset ×ˢ Finset.univ

theorem mem_blockLabels {l : ℝ × RowPartition rows} : l ∈ blockLabels rows ↔ l.1 ∈ concentrations rows.card := by
  simp [blockLabels]

namespace Latent

open Classical in
/-- `L` with the concentration and the row partition of the block of `c` set to `l`. -/
noncomputable def setView (L : Latent cols rows) (c : {c // c ∈ cols}) (l : ℝ × RowPartition rows) :
    Latent cols rows where
  alpha := L.alpha
  part := L.part
  view := fun b => if L.part.r b c then l else L.view b
  same := fun a b h => by
    have : L.part.r a c ↔ L.part.r b c :=
      ⟨fun g => L.part.trans (L.part.symm h) g, fun g => L.part.trans h g⟩
    simp only [this, L.same a b h]

variable {L : Latent cols rows} {c c' : {c // c ∈ cols}} {l l' : ℝ × RowPartition rows}

@[simp] theorem setView_part : (L.setView c l).part = L.part := rfl
@[simp] theorem setView_alpha : (L.setView c l).alpha = L.alpha := rfl

theorem setView_rel (h : L.part.r c' c) : (L.setView c l).view c' = l := by
  simp only [setView]; rw [if_pos h]

@[simp] theorem setView_view : (L.setView c l).view c = l := setView_rel (L.part.refl c)

theorem setView_off (h : ¬ L.part.r c' c) : (L.setView c l).view c' = L.view c' := by
  simp only [setView]; rw [if_neg h]

theorem setView_self : L.setView c (L.view c) = L := by
  refine Latent.ext rfl rfl (funext fun b => ?_)
  by_cases h : L.part.r b c
  · rw [setView_rel h]; exact (L.same b c h).symm
  · rw [setView_off h]

theorem setView_setView : (L.setView c l).setView c l' = L.setView c l' := by
  refine Latent.ext rfl rfl (funext fun b => ?_)
  by_cases h : L.part.r b c
  · rw [setView_rel h, setView_rel (L := L.setView c l) h]
  · rw [setView_off h, setView_off (L := L.setView c l) h, setView_off h]

theorem setView_congr (h : L.part.r c c') : L.setView c l = L.setView c' l := by
  refine Latent.ext rfl rfl (funext fun b => ?_)
  by_cases g : L.part.r b c
  · rw [setView_rel g, setView_rel (L.part.trans g h)]
  · rw [setView_off g, setView_off (fun g' => g (L.part.trans g' (L.part.symm h)))]

theorem setView_comm (h : ¬ L.part.r c c') :
    (L.setView c l).setView c' l' = (L.setView c' l').setView c l := by
  refine Latent.ext rfl rfl (funext fun b => ?_)
  by_cases g : L.part.r b c
  · have g' : ¬ L.part.r b c' := fun g' => h (L.part.trans (L.part.symm g) g')
    rw [setView_off (L := L.setView c l) g', setView_rel g,
      setView_rel (L := L.setView c' l') g]
  · rw [setView_off (L := L.setView c' l') g]
    by_cases g' : L.part.r b c'
    · rw [setView_rel (L := L.setView c l) g', setView_rel g']
    · rw [setView_off (L := L.setView c l) g', setView_off g, setView_off g']

theorem mem_latents_setView (hL : L ∈ latents cols rows) (hl : l ∈ blockLabels rows) :
    L.setView c l ∈ latents cols rows := by
  have h := mem_latents.mp hL
  refine mem_latents.mpr ⟨h.1, fun b => ?_⟩
  by_cases g : L.part.r b c
  · rw [setView_rel g]; exact mem_blockLabels.mp hl
  · rw [setView_off g]; exact h.2 b

theorem view_mem (hL : L ∈ latents cols rows) (c : {c // c ∈ cols}) : L.view c ∈ blockLabels rows :=
  mem_blockLabels.mpr ((mem_latents.mp hL).2 c)

end Latent

/-- For each block of columns (named by the column partition and a column of the block), the
probability of each new concentration and row partition given the old one. -/
abbrev Local (cols : Finset Col) (rows : Finset Row) :=
  Setoid {c // c ∈ cols} → {c // c ∈ cols} → ℝ × RowPartition rows → ℝ × RowPartition rows → ℝ

/-- The kernel does not depend on the column that names the block. -/
def Local.Ok (κ : Local cols rows) : Prop := ∀ p c c', p.r c c' → κ p c = κ p c'

/-- One kernel after the other. -/
noncomputable def Local.mul (κ κ' : Local cols rows) : Local cols rows := fun p c l l'' =>
  ∑ l' ∈ blockLabels rows, κ p c l l' * κ' p c l' l''

/-- Redraw the block of `c`. -/
noncomputable def atBlock (κ : Local cols rows) (c : {c // c ∈ cols}) (f : Latent cols rows → ℝ)
    (L : Latent cols rows) : ℝ :=
  ∑ l ∈ blockLabels rows, κ L.part c (L.view c) l * f (L.setView c l)

/-- Redraw the blocks of the columns of a list, one after another. -/
noncomputable def atBlocks (κ : Local cols rows) :
    List {c // c ∈ cols} → (Latent cols rows → ℝ) → Latent cols rows → ℝ
  | [], f => f
  | c :: cs, f => atBlock κ c (atBlocks κ cs f)

variable {κ κ' : Local cols rows}

theorem Local.Ok.mul (h : κ.Ok) (h' : κ'.Ok) : (κ.mul κ').Ok := fun p c c' hr => by
  funext l l''
  simp only [Local.mul, h p c c' hr, h' p c c' hr]

theorem atBlock_mul (c : {c // c ∈ cols}) (f : Latent cols rows → ℝ) (L : Latent cols rows) :
    atBlock κ c (atBlock κ' c f) L = atBlock (κ.mul κ') c f L := by
  simp only [atBlock, Local.mul, Latent.setView_view, Latent.setView_part, Latent.setView_setView,
    Finset.mul_sum, Finset.sum_mul]
  rw [Finset.sum_comm]
  simp only [mul_assoc]

theorem atBlock_congr {c : {c // c ∈ cols}} {f f' : Latent cols rows → ℝ} {L : Latent cols rows}
    (h : ∀ l ∈ blockLabels rows, f (L.setView c l) = f' (L.setView c l)) :
    atBlock κ c f L = atBlock κ c f' L :=
  Finset.sum_congr rfl fun l hl => by rw [h l hl]

theorem atBlock_rel (hκ : κ.Ok) {c c' : {c // c ∈ cols}} {f : Latent cols rows → ℝ}
    {L : Latent cols rows} (h : L.part.r c c') : atBlock κ c f L = atBlock κ c' f L := by
  refine Finset.sum_congr rfl fun l _ => ?_
  rw [hκ _ _ _ h, L.same _ _ h, Latent.setView_congr h]

theorem atBlock_comm {c c' : {c // c ∈ cols}} {f : Latent cols rows → ℝ} {L : Latent cols rows}
    (h : ¬ L.part.r c c') : atBlock κ c (atBlock κ c' f) L = atBlock κ c' (atBlock κ c f) L := by
  have h' : ¬ L.part.r c' c := fun g => h (L.part.symm g)
  simp only [atBlock, Latent.setView_part, Finset.mul_sum]
  rw [Finset.sum_comm]
  refine Finset.sum_congr rfl fun l _ => Finset.sum_congr rfl fun l' _ => ?_
  rw [Latent.setView_off h', Latent.setView_off h, Latent.setView_comm h]
  ring

theorem atBlocks_perm {p : Setoid {c // c ∈ cols}} {cs cs' : List {c // c ∈ cols}}
    (hp : cs.Perm cs') (hd : cs.Pairwise fun a b => ¬ p.r a b) (f : Latent cols rows → ℝ)
    {L : Latent cols rows} (hL : L.part = p) : atBlocks κ cs f L = atBlocks κ cs' f L := by
  induction hp generalizing L with
  | nil => rfl
  | cons c _ ih => exact atBlock_congr fun l _ => ih (List.pairwise_cons.mp hd).2 hL
  | swap a b cs =>
    refine atBlock_comm fun h => ?_
    rw [hL] at h
    exact (List.pairwise_cons.mp hd).1 a (by simp) h
  | trans h1 _ ih1 ih2 =>
    rw [ih1 hd hL, ih2 ((List.Perm.pairwise_iff (fun h g => h (p.symm g)) h1).mp hd) hL]

theorem atBlocks_rep (hκ : κ.Ok) {p : Setoid {c // c ∈ cols}} (cs : List {c // c ∈ cols})
    (f : Latent cols rows → ℝ) {L : Latent cols rows} (hL : L.part = p) :
    atBlocks κ cs f L = atBlocks κ (cs.map (repOf p)) f L := by
  induction cs generalizing L with
  | nil => rfl
  | cons c cs ih =>
    show atBlock κ c _ L = atBlock κ (repOf p c) _ L
    rw [atBlock_rel hκ (c' := repOf p c) (L := L) (by
      rw [hL]; exact p.symm (repOf_rel p c))]
    exact atBlock_congr fun l _ => ih hL

open Classical in
/-- A column of each block that meets `sel`. -/
noncomputable def repsOf (sel : {c // c ∈ cols} → Prop) (p : Setoid {c // c ∈ cols}) :
    List {c // c ∈ cols} :=
  (Finset.univ.filter fun b => repOf p b = b ∧ ∃ a, sel a ∧ p.r a b).toList

/-- Redraw every block that meets `sel`. -/
noncomputable def atAll (κ : Local cols rows) (sel : {c // c ∈ cols} → Prop)
    (f : Latent cols rows → ℝ) (L : Latent cols rows) : ℝ :=
  atBlocks κ (repsOf sel L.part) f L

theorem atBlocks_lin (κ : Local cols rows) (cs : List {c // c ∈ cols}) (f g : Latent cols rows → ℝ)
    (a b : ℝ) (L : Latent cols rows) : atBlocks κ cs (fun x => a * f x + b * g x) L
      = a * atBlocks κ cs f L + b * atBlocks κ cs g L := by
  induction cs generalizing L with
  | nil => rfl
  | cons c cs ih =>
    show atBlock κ c _ L = a * atBlock κ c _ L + b * atBlock κ c _ L
    unfold atBlock
    rw [Finset.mul_sum, Finset.mul_sum, ← Finset.sum_add_distrib]
    exact Finset.sum_congr rfl fun y _ => by rw [ih]; ring

theorem atAll_lin (κ : Local cols rows) (sel : {c // c ∈ cols} → Prop) (f g : Latent cols rows → ℝ)
    (a b : ℝ) (L : Latent cols rows) : atAll κ sel (fun x => a * f x + b * g x) L
      = a * atAll κ sel f L + b * atAll κ sel g L := atBlocks_lin κ _ f g a b L

/-- The order does not matter. -/
theorem atBlocks_eq (hκ : κ.Ok) {sel : {c // c ∈ cols} → Prop} {cs : List {c // c ∈ cols}}
    {L : Latent cols rows} (hd : cs.Pairwise fun a b => ¬ L.part.r a b)
    (hm : ∀ b, (∃ c ∈ cs, L.part.r c b) ↔ ∃ a, sel a ∧ L.part.r a b) (f : Latent cols rows → ℝ) :
    atBlocks κ cs f L = atAll κ sel f L := by
  classical
  have hrr : ∀ b, repOf L.part (repOf L.part b) = repOf L.part b := fun b =>
    (repOf_eq _ _ _).mpr (repOf_rel _ _)
  rw [atBlocks_rep hκ cs f rfl]
  refine atBlocks_perm (p := L.part) ?_ ?_ f rfl
  · refine (List.perm_ext_iff_of_nodup ?_ (Finset.nodup_toList _)).mpr fun b => ?_
    · rw [List.Nodup, List.pairwise_map]
      exact hd.imp fun {a b} h e => h ((repOf_eq _ _ _).mp e)
    · rw [List.mem_map, Finset.mem_toList, Finset.mem_filter]
      constructor
      · rintro ⟨c, hc, rfl⟩
        exact ⟨Finset.mem_univ _, hrr c, (hm _).mp ⟨c, hc, L.part.symm (repOf_rel _ c)⟩⟩
      · rintro ⟨-, e, h⟩
        obtain ⟨c, hc, hr⟩ := (hm b).mpr h
        exact ⟨c, hc, by rw [← e]; exact (repOf_eq _ _ _).mpr hr⟩
  · rw [List.pairwise_map]
    refine hd.imp fun {a b} h g => h ?_
    exact L.part.trans (L.part.symm (repOf_rel _ a)) (L.part.trans g (repOf_rel _ b))

/-! ### The invariant distribution -/

/-- `w` gives the weights of the concentrations and row partitions of a block: `W` is proportional
to it, and `κ` leaves it invariant. -/
structure Local.Balanced (κ : Local cols rows) (w : Setoid {c // c ∈ cols} → {c // c ∈ cols} →
    ℝ × RowPartition rows → ℝ) : Prop where
  inv : ∀ p c, ∀ l' ∈ blockLabels rows, ∑ l ∈ blockLabels rows, w p c l * κ p c l l' = w p c l'

theorem Local.Balanced.mul {w : Setoid {c // c ∈ cols} → {c // c ∈ cols} →
    ℝ × RowPartition rows → ℝ} (h : κ.Balanced w) (h' : κ'.Balanced w) :
    (κ.mul κ').Balanced w := by
  refine ⟨fun p c l' hl' => ?_⟩
  simp only [Local.mul, Finset.mul_sum]
  rw [Finset.sum_comm, ← h'.inv p c l' hl']
  refine Finset.sum_congr rfl fun l hl => ?_
  rw [← h.inv p c l hl, Finset.sum_mul]
  exact Finset.sum_congr rfl fun x _ => (mul_assoc _ _ _).symm

/-- The weights of the blocks are factors of the weight of the latent structure. -/
structure IsFactor (W : Latent cols rows → ℝ) (w : Setoid {c // c ∈ cols} → {c // c ∈ cols} →
    ℝ × RowPartition rows → ℝ) : Prop where
  pos : ∀ p c, ∀ l ∈ blockLabels rows, 0 < w p c l
  factor : ∀ L ∈ latents cols rows, ∀ c, ∀ l ∈ blockLabels rows,
    W (L.setView c l) * w L.part c (L.view c) = W L * w L.part c l

variable {W : Latent cols rows → ℝ}
  {w : Setoid {c // c ∈ cols} → {c // c ∈ cols} → ℝ × RowPartition rows → ℝ}

open Classical in
theorem sum_setView (p : Setoid {c // c ∈ cols}) (c : {c // c ∈ cols}) (F : Latent cols rows → ℝ) :
    ∑ L ∈ latents cols rows with L.part = p, ∑ l ∈ blockLabels rows, F (L.setView c l)
      = (blockLabels rows).card * ∑ L ∈ latents cols rows with L.part = p, F L := by
  rw [Finset.mul_sum]
  have : ∀ L : Latent cols rows, ((blockLabels rows).card : ℝ) * F L = ∑ _l ∈ blockLabels rows, F L := by
    intro L; rw [Finset.sum_const, nsmul_eq_mul]
  rw [Finset.sum_congr rfl fun L _ => this L, ← Finset.sum_product', ← Finset.sum_product']
  refine Finset.sum_bij' (i := fun x _ => (x.1.setView c x.2, x.1.view c))
    (j := fun x _ => (x.1.setView c x.2, x.1.view c)) ?_ ?_ ?_ ?_ ?_
  · rintro ⟨L, l⟩ hx
    simp only [Finset.mem_product, Finset.mem_filter] at hx ⊢
    exact ⟨⟨Latent.mem_latents_setView hx.1.1 hx.2, hx.1.2⟩, Latent.view_mem hx.1.1 c⟩
  · rintro ⟨L, l⟩ hx
    simp only [Finset.mem_product, Finset.mem_filter] at hx ⊢
    exact ⟨⟨Latent.mem_latents_setView hx.1.1 hx.2, hx.1.2⟩, Latent.view_mem hx.1.1 c⟩
  · rintro ⟨L, l⟩ _
    simp only [Latent.setView_setView, Latent.setView_self, Latent.setView_view]
  · rintro ⟨L, l⟩ _
    simp only [Latent.setView_setView, Latent.setView_self, Latent.setView_view]
  · rintro ⟨L, l⟩ _; rfl

open Classical in
theorem atBlock_invariant (hF : IsFactor W w) (hκ : κ.Balanced w) (p : Setoid {c // c ∈ cols})
    (c : {c // c ∈ cols}) (f : Latent cols rows → ℝ) :
    ∑ L ∈ latents cols rows with L.part = p, W L * atBlock κ c f L
      = ∑ L ∈ latents cols rows with L.part = p, W L * f L := by
  by_cases hne : (latents cols rows).filter (fun L => L.part = p) = ∅
  · rw [hne]; rfl
  obtain ⟨L0, hL0⟩ := Finset.nonempty_iff_ne_empty.mpr hne
  have hcard : ((blockLabels rows).card : ℝ) ≠ 0 := by
    rw [Finset.mem_filter] at hL0
    exact Nat.cast_ne_zero.mpr (Finset.card_ne_zero_of_mem (Latent.view_mem hL0.1 c))
  refine mul_left_cancel₀ hcard ?_
  rw [← sum_setView p c, ← sum_setView p c]
  refine Finset.sum_congr rfl fun L hL => ?_
  obtain ⟨hL1, rfl⟩ := Finset.mem_filter.mp hL
  have hv := Latent.view_mem hL1 c
  have hw := hF.pos L.part c _ hv
  have hset : ∀ l ∈ blockLabels rows, W (L.setView c l)
      = W L / w L.part c (L.view c) * w L.part c l := fun l hl => by
    rw [div_mul_eq_mul_div, eq_div_iff hw.ne']; exact hF.factor L hL1 c l hl
  simp only [atBlock, Latent.setView_part, Latent.setView_view, Latent.setView_setView]
  have e1 : ∀ l ∈ blockLabels rows, W (L.setView c l) *
      ∑ l' ∈ blockLabels rows, κ L.part c l l' * f (L.setView c l') = ∑ l' ∈ blockLabels rows,
        W L / w L.part c (L.view c) * (w L.part c l * κ L.part c l l') * f (L.setView c l') :=
    fun l hl => by
      rw [hset l hl, Finset.mul_sum]
      exact Finset.sum_congr rfl fun l' _ => by ring
  rw [Finset.sum_congr rfl e1, Finset.sum_comm]
  refine Finset.sum_congr rfl fun l' hl' => ?_
  rw [hset l' hl', ← hκ.inv L.part c l' hl', Finset.mul_sum, Finset.sum_mul]

theorem atAll_invariant (hF : IsFactor W w) (hκ : κ.Balanced w)
    (sel : {c // c ∈ cols} → Prop) (f : Latent cols rows → ℝ) :
    ∑ L ∈ latents cols rows, W L * atAll κ sel f L = ∑ L ∈ latents cols rows, W L * f L := by
  classical
  have hf : Finite (Setoid {c // c ∈ cols}) :=
    Finite.of_injective (fun q : Setoid {c // c ∈ cols} => fun a b => q.r a b)
      (fun q q' h => Setoid.ext fun a b => by rw [show q.r a b = q'.r a b from congrFun₂ h a b])
  have : Fintype (Setoid {c // c ∈ cols}) := Fintype.ofFinite _
  have key : ∀ (p : Setoid {c // c ∈ cols}) (cs : List {c // c ∈ cols}) (f : Latent cols rows → ℝ),
      ∑ L ∈ latents cols rows with L.part = p, W L * atBlocks κ cs f L
        = ∑ L ∈ latents cols rows with L.part = p, W L * f L := by
    intro p cs f
    induction cs with
    | nil => rfl
    | cons c cs ih => rw [← ih]; exact atBlock_invariant hF hκ p c _
  rw [← Finset.sum_fiberwise (latents cols rows) (fun L => L.part),
    ← Finset.sum_fiberwise (latents cols rows) (fun L => L.part)]
  refine Finset.sum_congr rfl fun p _ => ?_
  rw [← key p (repsOf sel p) f]
  refine Finset.sum_congr rfl fun L hL => ?_
  obtain ⟨-, rfl⟩ := Finset.mem_filter.mp hL
  rfl

end Cgpm.Spec
