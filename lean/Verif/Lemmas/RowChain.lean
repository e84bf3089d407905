import Verif.Spec.RowGibbs
import Mathlib.Algebra.Order.BigOperators.Group.Finset
import Mathlib.Tactic.Linarith
import Mathlib.Tactic.FieldSimp
import Mathlib.Tactic.Ring

/-! Redrawing the block of one row after another, on partitions: the invariant distribution, and
convergence to it. -/
namespace Cgpm.Spec
open Cgpm

variable {rows : Finset Row}

theorem AgreeOff.refl (r : Row) (q : RowPartition rows) : AgreeOff r q q := fun _ _ _ _ => Iff.rfl

theorem AgreeOff.symm {r : Row} {q q' : RowPartition rows} (h : AgreeOff r q q') :
    AgreeOff r q' q := fun a b ha hb => (h a b ha hb).symm

theorem AgreeOff.trans {r : Row} {q q' q'' : RowPartition rows} (h : AgreeOff r q q')
    (h' : AgreeOff r q' q'') : AgreeOff r q q'' :=
  fun a b ha hb => (h a b ha hb).trans (h' a b ha hb)

theorem agreeOff_congr {r : Row} {q q' : RowPartition rows} (h : AgreeOff r q q')
    (p : RowPartition rows) : AgreeOff r q p ↔ AgreeOff r q' p :=
  ⟨fun g => h.symm.trans g, fun g => h.trans g⟩

section
variable (W : RowPartition rows → ℝ)

open Classical in
/-- The total weight of the partitions that agree with `q` off `r`. -/
noncomputable def massOff (r : Row) (q : RowPartition rows) : ℝ := ∑ q' with AgreeOff r q q', W q'

theorem massOff_congr {r : Row} {q q' : RowPartition rows} (h : AgreeOff r q q') :
    massOff W r q = massOff W r q' := by
  unfold massOff
  refine Finset.sum_congr ?_ fun _ _ => rfl
  ext p
  simp [agreeOff_congr h]

variable {W}

theorem massOff_pos (hW : ∀ q, 0 < W q) (r : Row) (q : RowPartition rows) : 0 < massOff W r q := by
  classical
  exact Finset.sum_pos (fun p _ => hW p) ⟨q, by simp [AgreeOff.refl]⟩

open Classical in
theorem redraw_eq (r : Row) (f : RowPartition rows → ℝ) (q : RowPartition rows) :
    redraw W r f q = ∑ q' with AgreeOff r q q', W q' / massOff W r q * f q' := rfl

/-- The posterior is invariant under redrawing one row. -/
theorem redraw_invariant (hW : ∀ q, 0 < W q) (r : Row) (f : RowPartition rows → ℝ) :
    ∑ q, W q * redraw W r f q = ∑ q, W q * f q := by
  classical
  have h1 : ∀ q, W q * redraw W r f q
      = ∑ q', if AgreeOff r q q' then W q * (W q' / massOff W r q' * f q') else 0 := by
    intro q
    rw [redraw_eq, Finset.mul_sum, Finset.sum_filter]
    refine Finset.sum_congr rfl fun q' _ => ?_
    split
    · rename_i h; rw [massOff_congr W h]
    · rfl
  rw [Finset.sum_congr rfl fun q _ => h1 q, Finset.sum_comm]
  refine Finset.sum_congr rfl fun q' _ => ?_
  have h2 : ∀ q, (if AgreeOff r q q' then W q * (W q' / massOff W r q' * f q') else 0)
      = (if AgreeOff r q' q then W q else 0) * (W q' / massOff W r q' * f q') := by
    intro q
    by_cases h : AgreeOff r q q'
    · rw [if_pos h, if_pos h.symm]
    · rw [if_neg h, if_neg (fun g => h g.symm), zero_mul]
  rw [Finset.sum_congr rfl fun q _ => h2 q, ← Finset.sum_mul, ← Finset.sum_filter]
  change massOff W r q' * _ = _
  have := (massOff_pos hW r q').ne'
  field_simp

theorem redraw_const (hW : ∀ q, 0 < W q) (r : Row) (c : ℝ) (q : RowPartition rows) :
    redraw W r (fun _ => c) q = c := by
  classical
  rw [redraw_eq, ← Finset.sum_mul, ← Finset.sum_div]
  change massOff W r q / massOff W r q * c = c
  rw [div_self (massOff_pos hW r q).ne', one_mul]

theorem redraw_add (r : Row) (f g : RowPartition rows → ℝ) (q : RowPartition rows) :
    redraw W r (fun p => f p + g p) q = redraw W r f q + redraw W r g q := by
  classical
  simp only [redraw_eq, mul_add, Finset.sum_add_distrib]

theorem redraw_neg (r : Row) (f : RowPartition rows → ℝ) (q : RowPartition rows) :
    redraw W r (fun p => - f p) q = - redraw W r f q := by
  classical
  simp only [redraw_eq, mul_neg, Finset.sum_neg_distrib]

/-- The least probability of a move. -/
theorem redraw_lower (hW : ∀ q, 0 < W q) : ∃ c : ℝ, 0 < c ∧ c ≤ 1 ∧
    ∀ r (f : RowPartition rows → ℝ), (∀ q, 0 ≤ f q) → ∀ q q', AgreeOff r q q' →
      c * f q' ≤ redraw W r f q := by
  classical
  obtain ⟨q0, -, h0⟩ := Finset.exists_min_image Finset.univ W ⟨(⊥ : RowPartition rows), by simp⟩
  have hT : 0 < ∑ q, W q := Finset.sum_pos (fun q _ => hW q) ⟨q0, by simp⟩
  refine ⟨W q0 / ∑ q, W q, div_pos (hW _) hT, ?_, ?_⟩
  · rw [div_le_one hT]
    exact Finset.single_le_sum (f := W) (fun q _ => (hW q).le) (Finset.mem_univ q0)
  · intro r f hf q q' h
    rw [redraw_eq]
    have hm := massOff_pos hW r q
    refine le_trans ?_ (Finset.single_le_sum
      (f := fun q' => W q' / massOff W r q * f q') (s := Finset.univ.filter (AgreeOff r q)) ?_
      (a := q') (by simpa using h))
    · refine mul_le_mul_of_nonneg_right ?_ (hf q')
      refine div_le_div₀ (hW _).le (h0 q' (by simp)) hm ?_
      exact Finset.sum_le_sum_of_subset_of_nonneg (Finset.filter_subset _ _)
        (fun p _ _ => (hW p).le)
    · intro p _
      exact mul_nonneg (div_nonneg (hW p).le hm.le) (hf p)

variable (W) in
/-- Redrawing the rows of a list, one after another. -/
noncomputable def redraws : List Row → (RowPartition rows → ℝ) → RowPartition rows → ℝ
  | [], f => f
  | r :: order, f => redraw W r (redraws order f)

theorem redraws_append (o o' : List Row) (f : RowPartition rows → ℝ) :
    redraws W (o ++ o') f = redraws W o (redraws W o' f) := by
  induction o with
  | nil => rfl
  | cons r o ih => simp [redraws, ih]

theorem redraws_invariant (hW : ∀ q, 0 < W q) (order : List Row) (f : RowPartition rows → ℝ) :
    ∑ q, W q * redraws W order f q = ∑ q, W q * f q := by
  induction order with
  | nil => rfl
  | cons r order ih => rw [← ih, redraws]; exact redraw_invariant hW r _

theorem redraws_const (hW : ∀ q, 0 < W q) (order : List Row) (c : ℝ) :
    redraws W order (fun _ : RowPartition rows => c) = fun _ => c := by
  induction order with
  | nil => rfl
  | cons r order ih => funext q; rw [redraws, ih, redraw_const hW]

theorem redraws_add (order : List Row) (f g : RowPartition rows → ℝ) :
    redraws W order (fun p => f p + g p) = fun p => redraws W order f p + redraws W order g p := by
  induction order with
  | nil => rfl
  | cons r order ih => funext q; rw [redraws, ih, redraw_add]; rfl

theorem redraws_neg (order : List Row) (f : RowPartition rows → ℝ) :
    redraws W order (fun p => - f p) = fun p => - redraws W order f p := by
  induction order with
  | nil => rfl
  | cons r order ih => funext q; rw [redraws, ih, redraw_neg]; rfl

/-- The rows of `S` arranged as in `q'`, the others as in `q`. -/
def mixed (S : Row → Prop) (q q' : RowPartition rows) : RowPartition rows where
  r a b := (S a.1 ∧ S b.1 ∧ q'.r a b) ∨ (¬ S a.1 ∧ ¬ S b.1 ∧ q.r a b)
  iseqv := by
    refine ⟨fun a => ?_, fun {a b} h => ?_, fun {a b c} h h' => ?_⟩
    · by_cases hs : S a.1
      · exact Or.inl ⟨hs, hs, q'.refl a⟩
      · exact Or.inr ⟨hs, hs, q.refl a⟩
    · rcases h with ⟨h1, h2, h3⟩ | ⟨h1, h2, h3⟩
      · exact Or.inl ⟨h2, h1, q'.symm h3⟩
      · exact Or.inr ⟨h2, h1, q.symm h3⟩
    · rcases h with ⟨h1, h2, h3⟩ | ⟨h1, h2, h3⟩ <;> rcases h' with ⟨g1, g2, g3⟩ | ⟨g1, g2, g3⟩
      · exact Or.inl ⟨h1, g2, q'.trans h3 g3⟩
      · exact absurd h2 g1
      · exact absurd g1 h2
      · exact Or.inr ⟨h1, g2, q.trans h3 g3⟩

theorem mixed_none {S : Row → Prop} (hS : ∀ r ∈ rows, ¬ S r) (q q' : RowPartition rows) :
    mixed S q q' = q := by
  refine Setoid.ext fun a b => ?_
  change ((S a.1 ∧ S b.1 ∧ q'.r a b) ∨ (¬ S a.1 ∧ ¬ S b.1 ∧ q.r a b)) ↔ q.r a b
  simp [hS a.1 a.2, hS b.1 b.2]

theorem mixed_all {S : Row → Prop} (hS : ∀ r ∈ rows, S r) (q q' : RowPartition rows) :
    mixed S q q' = q' := by
  refine Setoid.ext fun a b => ?_
  change ((S a.1 ∧ S b.1 ∧ q'.r a b) ∨ (¬ S a.1 ∧ ¬ S b.1 ∧ q.r a b)) ↔ q'.r a b
  simp [hS a.1 a.2, hS b.1 b.2]

theorem mixed_agree (S : Row → Prop) (r : Row) (q q' : RowPartition rows) :
    AgreeOff r (mixed S q q') (mixed (fun x => S x ∨ x = r) q q') := by
  intro a b ha hb
  change ((S a.1 ∧ S b.1 ∧ q'.r a b) ∨ (¬ S a.1 ∧ ¬ S b.1 ∧ q.r a b)) ↔
    (((S a.1 ∨ a.1 = r) ∧ (S b.1 ∨ b.1 = r) ∧ q'.r a b) ∨
      (¬ (S a.1 ∨ a.1 = r) ∧ ¬ (S b.1 ∨ b.1 = r) ∧ q.r a b))
  simp [ha, hb]

/-- A pass over all rows can turn any partition into any other. -/
theorem redraws_lower (hW : ∀ q, 0 < W q) : ∃ c : ℝ, 0 < c ∧ c ≤ 1 ∧
    ∀ order : List Row, (∀ r ∈ rows, r ∈ order) →
    ∀ (f : RowPartition rows → ℝ), (∀ q, 0 ≤ f q) → ∀ q q',
      c ^ order.length * f q' ≤ redraws W order f q := by
  obtain ⟨c, h0, h1, hc⟩ := redraw_lower hW
  refine ⟨c, h0, h1, ?_⟩
  have main : ∀ (order : List Row) (S : Row → Prop), (∀ r ∈ rows, S r ∨ r ∈ order) →
      ∀ (f : RowPartition rows → ℝ), (∀ q, 0 ≤ f q) → ∀ q q',
        (∀ p, 0 ≤ redraws W order f p) ∧
        c ^ order.length * f q' ≤ redraws W order f (mixed S q q') := by
    intro order
    induction order with
    | nil =>
      intro S hS f hf q q'
      refine ⟨hf, ?_⟩
      rw [mixed_all (fun r hr => by simpa using hS r hr)]
      simp [redraws]
    | cons r order ih =>
      intro S hS f hf q q'
      obtain ⟨h2, h3⟩ := ih (fun x => S x ∨ x = r) (fun x hx => by
        rcases hS x hx with h | h
        · exact Or.inl (Or.inl h)
        · rcases List.mem_cons.mp h with h | h
          · exact Or.inl (Or.inr h)
          · exact Or.inr h) f hf q q'
      refine ⟨fun p => le_trans ?_ (hc r (redraws W order f) h2 p p (AgreeOff.refl r p)), ?_⟩
      · exact mul_nonneg h0.le (h2 p)
      · refine le_trans ?_ (hc r (redraws W order f) h2 _ _ (mixed_agree S r q q'))
        rw [List.length_cons, pow_succ, mul_comm (c ^ _) c, mul_assoc]
        exact mul_le_mul_of_nonneg_left h3 h0.le
  intro order ho f hf q q'
  have := (main order (fun _ => False) (fun r hr => Or.inr (ho r hr)) f hf q q').2
  rwa [mixed_none (fun _ _ h => h)] at this

theorem sumW_pos (hW : ∀ q, 0 < W q) : 0 < ∑ q, W q :=
  Finset.sum_pos (fun q _ => hW q) ⟨(⊥ : RowPartition rows), by simp⟩

theorem le_expectation (hW : ∀ q, 0 < W q) {f : RowPartition rows → ℝ} {x : ℝ}
    (h : ∀ q, x ≤ f q) : x ≤ expectation W f := by
  rw [expectation, le_div_iff₀ (sumW_pos hW), Finset.mul_sum]
  exact Finset.sum_le_sum fun q _ => by
    rw [mul_comm]; exact mul_le_mul_of_nonneg_left (h q) (hW q).le

theorem expectation_le (hW : ∀ q, 0 < W q) {f : RowPartition rows → ℝ} {x : ℝ}
    (h : ∀ q, f q ≤ x) : expectation W f ≤ x := by
  rw [expectation, div_le_iff₀ (sumW_pos hW), Finset.mul_sum]
  exact Finset.sum_le_sum fun q _ => by
    rw [mul_comm x]; exact mul_le_mul_of_nonneg_left (h q) (hW q).le

theorem expectation_add_const (hW : ∀ q, 0 < W q) (f : RowPartition rows → ℝ) (c : ℝ) :
    expectation W (fun q => f q + c) = expectation W f + c := by
  have := (sumW_pos hW).ne'
  unfold expectation
  simp only [mul_add, Finset.sum_add_distrib, ← Finset.sum_mul]
  field_simp

theorem expectation_neg (f : RowPartition rows → ℝ) :
    expectation W (fun q => - f q) = - expectation W f := by
  unfold expectation
  simp only [mul_neg, Finset.sum_neg_distrib, neg_div]

theorem expectation_redraws (hW : ∀ q, 0 < W q) (order : List Row) (f : RowPartition rows → ℝ) :
    expectation W (redraws W order f) = expectation W f := by
  unfold expectation; rw [redraws_invariant hW]

/-- One pass contracts the distance to the posterior expectation. -/
theorem redraws_contract (hW : ∀ q, 0 < W q) : ∃ c : ℝ, 0 < c ∧ c ≤ 1 ∧
    ∀ order : List Row, (∀ r ∈ rows, r ∈ order) →
    ∀ (f : RowPartition rows → ℝ) (D : ℝ), (∀ q, |f q - expectation W f| ≤ D) →
      ∀ q, |redraws W order f q - expectation W f| ≤ (1 - c ^ order.length) * D := by
  obtain ⟨c, h0, h1, hc⟩ := redraws_lower hW
  refine ⟨c, h0, h1, fun order ho f D hD => ?_⟩
  set ε := c ^ order.length with hε
  have hε0 : 0 < ε := pow_pos h0 _
  have low : ∀ (g : RowPartition rows → ℝ), (∀ q, - D ≤ g q - expectation W g) →
      ∀ q, - ((1 - ε) * D) ≤ redraws W order g q - expectation W g := by
    intro g hg q
    have hpos : ∀ p, 0 ≤ g p + (D - expectation W g) := fun p => by have := hg p; linarith
    have h2 : ∀ p, ε * (g p + (D - expectation W g))
        ≤ redraws W order (fun p => g p + (D - expectation W g)) q :=
      fun p => hc order ho _ hpos q p
    have h3 : expectation W (fun p => g p + (D - expectation W g))
        ≤ redraws W order (fun p => g p + (D - expectation W g)) q / ε := by
      refine expectation_le hW fun p => ?_
      rw [le_div_iff₀ hε0, mul_comm]
      exact h2 p
    rw [expectation_add_const hW, redraws_add, redraws_const hW, le_div_iff₀ hε0] at h3
    simp only at h3
    linarith
  intro q
  rw [abs_le]
  constructor
  · exact low f (fun p => (abs_le.mp (hD p)).1) q
  · have := low (fun p => - f p) (fun p => by
      rw [expectation_neg]; have := (abs_le.mp (hD p)).2; linarith) q
    rw [redraws_neg, expectation_neg] at this
    simp only at this
    linarith

/-- Passes over all rows converge to the posterior expectation, geometrically. -/
theorem redraws_converge (hW : ∀ q, 0 < W q) (n : ℕ) : ∃ ε : ℝ, 0 < ε ∧ ε ≤ 1 ∧
    ∀ orders : List (List Row), (∀ o ∈ orders, (∀ r ∈ rows, r ∈ o) ∧ o.length ≤ n) →
    ∀ (f : RowPartition rows → ℝ) (D : ℝ), (∀ q, |f q - expectation W f| ≤ D) →
      ∀ q, |redraws W orders.flatten f q - expectation W f| ≤ (1 - ε) ^ orders.length * D := by
  obtain ⟨c, h0, h1, hc⟩ := redraws_contract hW
  have he1 : c ^ n ≤ 1 := pow_le_one₀ h0.le h1
  refine ⟨c ^ n, pow_pos h0 _, he1, fun orders => ?_⟩
  induction orders with
  | nil => intro _ f D hD q; simpa [redraws] using hD q
  | cons o orders ih =>
    intro ho f D hD q
    have hD0 : 0 ≤ D := le_trans (abs_nonneg _) (hD q)
    have h2 := ih (fun o' h => ho o' (by simp [h])) f D hD
    obtain ⟨h3, h4⟩ := ho o (by simp)
    rw [List.flatten_cons, redraws_append]
    have h5 := hc o h3 (redraws W orders.flatten f) ((1 - c ^ n) ^ orders.length * D)
      (fun p => by rw [expectation_redraws hW]; exact h2 p) q
    rw [expectation_redraws hW] at h5
    refine h5.trans ?_
    rw [List.length_cons, pow_succ', mul_assoc]
    refine mul_le_mul_of_nonneg_right ?_ (mul_nonneg (pow_nonneg (sub_nonneg.mpr he1) _) hD0)
    have : c ^ n ≤ c ^ o.length := pow_le_pow_of_le_one h0.le h1 h4
    linarith

end
end Cgpm.Spec
