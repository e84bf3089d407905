import Mathlib.Algebra.BigOperators.Ring.Finset
import Mathlib.Algebra.Order.BigOperators.Group.Finset
import Mathlib.Data.Real.Basic
import Mathlib.Tactic.Linarith
import Mathlib.Tactic.FieldSimp
import Mathlib.Tactic.Ring

/-! Gibbs sampling with auxiliary values drawn from their prior. -/
namespace Cgpm.Aux

variable {Λ ι : Type}

/-- The expected value of `F` over lists of `k` independent values with law `p` on `S`. -/
noncomputable def iterSum (S : Finset Λ) (p : Λ → ℝ) : ℕ → (List Λ → ℝ) → ℝ
  | 0, F => F []
  | k + 1, F => ∑ l ∈ S, p l * iterSum S p k fun ls => F (l :: ls)

variable {S : Finset Λ} {p : Λ → ℝ}

theorem iterSum_congr {k : ℕ} {F G : List Λ → ℝ}
    (h : ∀ ls : List Λ, ls.length = k → (∀ l ∈ ls, l ∈ S) → F ls = G ls) :
    iterSum S p k F = iterSum S p k G := by
  induction k generalizing F G with
  | zero => exact h [] rfl (by simp)
  | succ k ih =>
    refine Finset.sum_congr rfl fun l hl => ?_
    rw [ih fun ls hls hm => h (l :: ls) (by simp [hls]) (by simpa [hl] using hm)]

theorem iterSum_add (k : ℕ) (F G : List Λ → ℝ) :
    iterSum S p k (fun ls => F ls + G ls) = iterSum S p k F + iterSum S p k G := by
  induction k generalizing F G with
  | zero => rfl
  | succ k ih => simp only [iterSum, ih, mul_add, Finset.sum_add_distrib]

theorem iterSum_mul (k : ℕ) (c : ℝ) (F : List Λ → ℝ) :
    iterSum S p k (fun ls => c * F ls) = c * iterSum S p k F := by
  induction k generalizing F with
  | zero => rfl
  | succ k ih =>
    simp only [iterSum, ih, Finset.mul_sum]
    exact Finset.sum_congr rfl fun _ _ => by ring

theorem iterSum_const (hp : ∑ l ∈ S, p l = 1) (k : ℕ) (c : ℝ) :
    iterSum S p k (fun _ => c) = c := by
  induction k with
  | zero => rfl
  | succ k ih => simp only [iterSum, ih, ← Finset.sum_mul, hp, one_mul]

theorem iterSum_sum {κ : Type} (T : Finset κ) (k : ℕ) (F : κ → List Λ → ℝ) :
    iterSum S p k (fun ls => ∑ x ∈ T, F x ls) = ∑ x ∈ T, iterSum S p k (F x) := by
  classical
  induction T using Finset.induction_on with
  | empty =>
    simp only [Finset.sum_empty]
    have := iterSum_mul (S := S) (p := p) k 0 fun _ => (0 : ℝ)
    simpa using this
  | insert a T ha ih => simp only [Finset.sum_insert ha, iterSum_add, ih]

/-- For a symmetric function the sum over the list may be replaced by a multiple of the first
term. -/
theorem iterSum_head {F : List Λ → ℝ} (hF : ∀ a b : List Λ, a.Perm b → F a = F b) (g : Λ → ℝ)
    (k : ℕ) : iterSum S p (k + 1) (fun ls => (ls.map g).sum * F ls)
      = (k + 1) * ∑ l ∈ S, p l * (g l * iterSum S p k fun ls => F (l :: ls)) := by
  induction k generalizing F with
  | zero => simp [iterSum]
  | succ k ih =>
    have h1 : iterSum S p (k + 1 + 1) (fun ls => (ls.map g).sum * F ls)
        = ∑ l ∈ S, p l * (g l * iterSum S p (k + 1) fun ls => F (l :: ls))
          + ∑ l ∈ S, p l * iterSum S p (k + 1) fun ls => (ls.map g).sum * F (l :: ls) := by
      rw [← Finset.sum_add_distrib]
      rw [iterSum]
      refine Finset.sum_congr rfl fun l _ => ?_
      rw [← mul_add, ← iterSum_mul (c := g l), ← iterSum_add]
      congr 1
      refine iterSum_congr fun ls _ _ => ?_
      simp only [List.map_cons, List.sum_cons]; ring
    have h2 : ∑ l ∈ S, p l * iterSum S p (k + 1) (fun ls => (ls.map g).sum * F (l :: ls))
        = (k + 1) * ∑ l ∈ S, p l * (g l * iterSum S p (k + 1) fun ls => F (l :: ls)) := by
      have : ∀ l, iterSum S p (k + 1) (fun ls => (ls.map g).sum * F (l :: ls))
          = (k + 1) * ∑ l' ∈ S, p l' * (g l' * iterSum S p k fun ls => F (l :: l' :: ls)) :=
        fun l => ih (F := fun ls => F (l :: ls)) fun a b hab => hF _ _ (hab.cons l)
      rw [Finset.sum_congr rfl fun l _ => by rw [this l]]
      simp only [iterSum, Finset.mul_sum]
      rw [Finset.sum_comm]
      refine Finset.sum_congr rfl fun l _ => Finset.sum_congr rfl fun l' _ => ?_
      rw [show iterSum S p k (fun ls => F (l' :: l :: ls))
        = iterSum S p k (fun ls => F (l :: l' :: ls)) from
        iterSum_congr fun ls _ _ => hF _ _ (List.Perm.swap _ _ _)]
      ring
    rw [h1, h2]
    push_cast
    ring

/-! ### The transition -/

/-- The expected value of `f` when the next state is drawn from the states `J`, with weights `W`,
and the states `N l` for `l` in the list, with weights `R l / m`. -/
noncomputable def step (J : Finset ι) (N : Λ → ι) (W : ι → ℝ) (R : Λ → ℝ) (m : ℕ) (f : ι → ℝ)
    (ls : List Λ) : ℝ :=
  (∑ y ∈ J, W y * f y + (ls.map fun l => R l / m * f (N l)).sum)
    / (∑ y ∈ J, W y + (ls.map fun l => R l / m).sum)

theorem step_perm (J : Finset ι) (N : Λ → ι) (W : ι → ℝ) (R : Λ → ℝ) (m : ℕ) (f : ι → ℝ)
    {a b : List Λ} (h : a.Perm b) : step J N W R m f a = step J N W R m f b := by
  unfold step
  rw [(h.map _).sum_eq, (h.map fun l => R l / m).sum_eq]

theorem step_lin (J : Finset ι) (N : Λ → ι) (W : ι → ℝ) (R : Λ → ℝ) (m : ℕ) (f g : ι → ℝ)
    (a b : ℝ) (ls : List Λ) : step J N W R m (fun x => a * f x + b * g x) ls
      = a * step J N W R m f ls + b * step J N W R m g ls := by
  have h1 : ∑ y ∈ J, W y * (a * f y + b * g y)
      = a * ∑ y ∈ J, W y * f y + b * ∑ y ∈ J, W y * g y := by
    rw [Finset.mul_sum, Finset.mul_sum, ← Finset.sum_add_distrib]
    exact Finset.sum_congr rfl fun y _ => by ring
  have h2 : (ls.map fun l => R l / m * (a * f (N l) + b * g (N l))).sum
      = a * (ls.map fun l => R l / m * f (N l)).sum
        + b * (ls.map fun l => R l / m * g (N l)).sum := by
    induction ls with
    | nil => simp
    | cons l ls ih => simp only [List.map_cons, List.sum_cons, ih]; ring
  simp only [step, h1, h2]
  ring

/-- A transition with `k + 1` auxiliary values leaves `W` invariant: from a state of `J` all of
them are drawn from `p`; from the state `N l` one of them is `l` and the others are drawn. -/
theorem step_invariant (hp : ∑ l ∈ S, p l = 1) (J : Finset ι) (N : Λ → ι) {W : ι → ℝ}
    (hW : ∀ y ∈ J, 0 ≤ W y) {R : Λ → ℝ} (hR : ∀ l ∈ S, 0 < R l) (k : ℕ) (f : ι → ℝ) :
    ∑ y ∈ J, W y * iterSum S p (k + 1) (step J N W R (k + 1) f)
      + ∑ l ∈ S, p l * R l * iterSum S p k (fun ls => step J N W R (k + 1) f (l :: ls))
    = ∑ y ∈ J, W y * f y + ∑ l ∈ S, p l * R l * f (N l) := by
  have hk : ((k + 1 : ℕ) : ℝ) ≠ 0 := by positivity
  have hk' : (k : ℝ) + 1 ≠ 0 := by positivity
  have e1 : ∑ l ∈ S, p l * R l * iterSum S p k (fun ls => step J N W R (k + 1) f (l :: ls))
      = iterSum S p (k + 1) fun ls =>
          (ls.map fun l => R l / (k + 1 : ℕ)).sum * step J N W R (k + 1) f ls := by
    rw [iterSum_head (fun a b h => step_perm J N W R (k + 1) f h), Finset.mul_sum]
    refine Finset.sum_congr rfl fun l _ => ?_
    push_cast
    field_simp
  rw [e1, ← Finset.sum_mul, ← iterSum_mul, ← iterSum_add]
  have e2 : iterSum S p (k + 1) (fun ls => (∑ y ∈ J, W y) * step J N W R (k + 1) f ls
        + (ls.map fun l => R l / (k + 1 : ℕ)).sum * step J N W R (k + 1) f ls)
      = iterSum S p (k + 1) fun ls => ∑ y ∈ J, W y * f y
        + (ls.map fun l => R l / (k + 1 : ℕ) * f (N l)).sum * 1 := by
    refine iterSum_congr fun ls hls hm => ?_
    rw [← add_mul, mul_one]
    unfold step
    have h0 : 0 < ∑ y ∈ J, W y + (ls.map fun l => R l / (k + 1 : ℕ)).sum := by
      have : 0 < (ls.map fun l => R l / (k + 1 : ℕ)).sum := by
        refine List.sum_pos _ (fun x hx => ?_) (fun e => ?_)
        · obtain ⟨l, hl, rfl⟩ := List.mem_map.mp hx
          exact div_pos (hR l (hm l hl)) (by positivity)
        · have := congrArg List.length e
          simp at this
          rw [this] at hls; simp at hls
      have := Finset.sum_nonneg hW
      linarith
    rw [mul_div_cancel₀ _ h0.ne']
  rw [e2, iterSum_add, iterSum_const hp, iterSum_head (F := fun _ => 1) (fun _ _ _ => rfl)
    (fun l => R l / (k + 1 : ℕ) * f (N l)) k]
  congr 1
  rw [Finset.mul_sum]
  refine Finset.sum_congr rfl fun l _ => ?_
  rw [iterSum_const hp]
  push_cast
  field_simp

/-- Values that are not used do not matter. -/
theorem iterSum_take (hp : ∑ l ∈ S, p l = 1) (k : ℕ) (F : List Λ → ℝ) :
    iterSum S p (k + 1) (fun ls => F (ls.take k)) = iterSum S p k F := by
  induction k generalizing F with
  | zero => simp [iterSum, ← Finset.sum_mul, hp]
  | succ k ih =>
    rw [iterSum, iterSum]
    refine Finset.sum_congr rfl fun l _ => ?_
    rw [← ih fun ls => F (l :: ls)]
    simp only [List.take_succ_cons]

/-- Summing `step_invariant` over the classes of states that the transition connects.  `key` names
the class of a state, `N k l` is the state of class `k` with the value `l`; the states of this form
satisfy `own`.  `χ` is constant on classes. -/
theorem classes_invariant [DecidableEq ι] (hp : ∑ l ∈ S, p l = 1) (hp0 : ∀ l ∈ S, 0 < p l)
    (T : Finset ι) (key : ι → ι) (N : ι → Λ → ι) (own : ι → Prop) [DecidablePred own]
    (lab : ι → Λ) (W : ι → ℝ) (χ : ι → ℝ)
    (hkey : ∀ y ∈ T, ∀ l ∈ S, N (key y) l ∈ T ∧ key (N (key y) l) = key y ∧ own (N (key y) l) ∧
      lab (N (key y) l) = l)
    (hown : ∀ y ∈ T, own y → lab y ∈ S ∧ N (key y) (lab y) = y)
    (hW : ∀ y ∈ T, 0 ≤ W y) (hWN : ∀ y ∈ T, ∀ l ∈ S, 0 < W (N (key y) l))
    (hχ : ∀ y ∈ T, ∀ y' ∈ T, key y = key y' → χ y = χ y') (k : ℕ) (f : ι → ℝ) :
    ∑ y ∈ T, χ y * W y * (
        if own y then iterSum S p k fun ls => step {y' ∈ T | key y' = key y ∧ ¬ own y'} (N (key y)) W
          (fun l => W (N (key y) l) / p l) (k + 1) f (lab y :: ls)
        else iterSum S p (k + 1) (step {y' ∈ T | key y' = key y ∧ ¬ own y'} (N (key y)) W
          (fun l => W (N (key y) l) / p l) (k + 1) f))
      = ∑ y ∈ T, χ y * W y * f y := by
  have hmaps : ∀ y ∈ T, key y ∈ T.image key := fun y hy => Finset.mem_image_of_mem _ hy
  rw [← Finset.sum_fiberwise_of_maps_to hmaps, ← Finset.sum_fiberwise_of_maps_to (g := key) hmaps]
  refine Finset.sum_congr rfl fun κ hκ => ?_
  obtain ⟨y0, hy0, rfl⟩ := Finset.mem_image.mp hκ
  set J : Finset ι := {y' ∈ T | key y' = key y0 ∧ ¬ own y'} with hJ
  have hsplit : ∀ g : ι → ℝ, ∑ y ∈ T with key y = key y0, g y
      = ∑ y ∈ J, g y + ∑ l ∈ S, g (N (key y0) l) := by
    intro g
    rw [← Finset.sum_filter_add_sum_filter_not _ (fun y => ¬ own y)]
    congr 1
    · rw [Finset.filter_filter]
    · symm
      refine Finset.sum_nbij' (N (key y0)) lab ?_ ?_ ?_ ?_ ?_
      · intro l hl
        obtain ⟨h1, h2, h3, -⟩ := hkey y0 hy0 l hl
        simp [h1, h2, h3]
      · intro y hy
        simp only [Finset.mem_filter, not_not] at hy
        exact (hown y hy.1.1 hy.2).1
      · intro l hl
        exact (hkey y0 hy0 l hl).2.2.2
      · intro y hy
        simp only [Finset.mem_filter, not_not] at hy
        rw [← hy.1.2]
        exact (hown y hy.1.1 hy.2).2
      · intro l _; rfl
  rw [hsplit, hsplit]
  have e1 : ∀ y ∈ J, χ y * W y * (
        if own y then iterSum S p k fun ls => step {y' ∈ T | key y' = key y ∧ ¬ own y'} (N (key y)) W
          (fun l => W (N (key y) l) / p l) (k + 1) f (lab y :: ls)
        else iterSum S p (k + 1) (step {y' ∈ T | key y' = key y ∧ ¬ own y'} (N (key y)) W
          (fun l => W (N (key y) l) / p l) (k + 1) f))
      = χ y0 * (W y * iterSum S p (k + 1) (step J (N (key y0)) W
          (fun l => W (N (key y0) l) / p l) (k + 1) f)) := by
    intro y hy
    simp only [hJ, Finset.mem_filter] at hy
    rw [if_neg hy.2.2, hy.2.1, hχ y hy.1 y0 hy0 hy.2.1, mul_assoc]
  have e2 : ∀ l ∈ S, χ (N (key y0) l) * W (N (key y0) l) * (
        if own (N (key y0) l) then iterSum S p k fun ls =>
          step {y' ∈ T | key y' = key (N (key y0) l) ∧ ¬ own y'} (N (key (N (key y0) l))) W
          (fun l' => W (N (key (N (key y0) l)) l') / p l') (k + 1) f (lab (N (key y0) l) :: ls)
        else iterSum S p (k + 1) (step {y' ∈ T | key y' = key (N (key y0) l) ∧ ¬ own y'}
          (N (key (N (key y0) l))) W
          (fun l' => W (N (key (N (key y0) l)) l') / p l') (k + 1) f))
      = χ y0 * (p l * (W (N (key y0) l) / p l) * iterSum S p k fun ls => step J (N (key y0)) W
          (fun l => W (N (key y0) l) / p l) (k + 1) f (l :: ls)) := by
    intro l hl
    obtain ⟨h1, h2, h3, h4⟩ := hkey y0 hy0 l hl
    rw [if_pos h3, h2, h4, hχ _ h1 y0 hy0 h2, mul_assoc, mul_div_cancel₀ _ (hp0 l hl).ne']
  have e3 : ∀ l ∈ S, χ (N (key y0) l) * W (N (key y0) l) * f (N (key y0) l)
      = χ y0 * (p l * (W (N (key y0) l) / p l) * f (N (key y0) l)) := by
    intro l hl
    obtain ⟨h1, h2, -, -⟩ := hkey y0 hy0 l hl
    rw [hχ _ h1 y0 hy0 h2, mul_assoc, mul_div_cancel₀ _ (hp0 l hl).ne']
  have e4 : ∀ y ∈ J, χ y * W y * f y = χ y0 * (W y * f y) := by
    intro y hy
    simp only [hJ, Finset.mem_filter] at hy
    rw [hχ y hy.1 y0 hy0 hy.2.1, mul_assoc]
  rw [Finset.sum_congr rfl e1, Finset.sum_congr rfl e2, Finset.sum_congr rfl e3,
    Finset.sum_congr rfl e4, ← Finset.mul_sum, ← Finset.mul_sum, ← Finset.mul_sum, ← Finset.mul_sum,
    ← mul_add, ← mul_add]
  congr 1
  exact step_invariant hp J (N (key y0)) (fun y hy => hW y (Finset.mem_filter.mp hy).1)
    (fun l hl => div_pos (hWN y0 hy0 l hl) (hp0 l hl)) k f

end Cgpm.Aux
