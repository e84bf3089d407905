import Verif.Spec.LogSpace
import Mathlib.Algebra.BigOperators.Group.List.Basic
import Mathlib.Algebra.Order.BigOperators.Group.List

namespace Cgpm
open Classical Props

theorem Fl.mass_inj {a b : Fl} (ha : a ≠ .nan) (hb : b ≠ .nan) (h : mass a = mass b) : a = b := by
  cases a <;> cases b <;> simp_all [mass]
  · rename_i x; exact absurd h (by simpa using (Real.exp_pos x))
  · rename_i x; exact absurd h (by simpa using (Real.exp_pos x))
  · have := (ENNReal.ofReal_eq_ofReal_iff (Real.exp_pos _).le (Real.exp_pos _).le).mp h
    exact Real.exp_injective this

theorem flFold_max (t : List Fl) (x : Fl) (hx : x ≠ .nan) (ht : Fl.nan ∉ t) :
    let m := t.foldl (fun b a => if b.lt a then a else b) x
    m ∈ x :: t ∧ m ≠ .nan ∧ ∀ a ∈ x :: t, a.toE ≤ m.toE := by
  induction t generalizing x with
  | nil => simp [hx]
  | cons y t ih =>
    have hy : y ≠ .nan := fun h => ht (by simp [h])
    have ht' : Fl.nan ∉ t := fun h => ht (by simp [h])
    simp only [List.foldl_cons]
    by_cases hl : x.lt y
    · rw [if_pos hl]
      obtain ⟨h1, h2, h3⟩ := ih y hy ht'
      refine ⟨by simp only [List.mem_cons] at h1 ⊢; tauto, h2, fun a ha => ?_⟩
      rcases List.mem_cons.mp ha with rfl | ha
      · exact hl.2.2.le.trans (h3 y (by simp))
      · exact h3 a ha
    · rw [if_neg hl]
      obtain ⟨h1, h2, h3⟩ := ih x hx ht'
      refine ⟨by simp only [List.mem_cons] at h1 ⊢; tauto, h2, fun a ha => ?_⟩
      rcases List.mem_cons.mp ha with rfl | ha
      · exact h3 a (by simp)
      · rcases List.mem_cons.mp ha with rfl | ha
        · have : a.toE ≤ x.toE := by
            by_contra hc
            exact hl ⟨hx, hy, not_le.mp hc⟩
          exact this.trans (h3 x (by simp))
        · exact h3 a (by simp [ha])

theorem flFold_min (t : List Fl) (x : Fl) (hx : x ≠ .nan) (ht : Fl.nan ∉ t) :
    let m := t.foldl (fun b a => if a.lt b then a else b) x
    m ∈ x :: t ∧ m ≠ .nan ∧ ∀ a ∈ x :: t, m.toE ≤ a.toE := by
  induction t generalizing x with
  | nil => simp [hx]
  | cons y t ih =>
    have hy : y ≠ .nan := fun h => ht (by simp [h])
    have ht' : Fl.nan ∉ t := fun h => ht (by simp [h])
    simp only [List.foldl_cons]
    by_cases hl : y.lt x
    · rw [if_pos hl]
      obtain ⟨h1, h2, h3⟩ := ih y hy ht'
      refine ⟨by simp only [List.mem_cons] at h1 ⊢; tauto, h2, fun a ha => ?_⟩
      rcases List.mem_cons.mp ha with rfl | ha
      · exact (h3 y (by simp)).trans hl.2.2.le
      · exact h3 a ha
    · rw [if_neg hl]
      obtain ⟨h1, h2, h3⟩ := ih x hx ht'
      refine ⟨by simp only [List.mem_cons] at h1 ⊢; tauto, h2, fun a ha => ?_⟩
      rcases List.mem_cons.mp ha with rfl | ha
      · exact h3 a (by simp)
      · rcases List.mem_cons.mp ha with rfl | ha
        · have : x.toE ≤ a.toE := by
            by_contra hc
            exact hl ⟨hy, hx, not_le.mp hc⟩
          exact (h3 x (by simp)).trans this
        · exact h3 a (by simp [ha])

theorem flMax_spec {l : List Fl} (h : l ≠ []) (hn : Fl.nan ∉ l) :
    flMax l ∈ l ∧ ∀ a ∈ l, a.toE ≤ (flMax l).toE := by
  cases l with
  | nil => exact absurd rfl h
  | cons x t =>
    have := flFold_max t x (fun e => hn (by simp [e])) (fun e => hn (by simp [e]))
    exact ⟨this.1, this.2.2⟩

theorem flMin_spec {l : List Fl} (h : l ≠ []) (hn : Fl.nan ∉ l) :
    flMin l ∈ l ∧ ∀ a ∈ l, (flMin l).toE ≤ a.toE := by
  cases l with
  | nil => exact absurd rfl h
  | cons x t =>
    have := flFold_min t x (fun e => hn (by simp [e])) (fun e => hn (by simp [e]))
    exact ⟨this.1, this.2.2⟩

theorem Fl.toE_top {a : Fl} (h : (⊤ : EReal) ≤ a.toE) : a = .pinf := by
  cases a <;> simp_all [Fl.toE]

theorem Fl.toE_bot {a : Fl} (h : a.toE ≤ (⊥ : EReal)) : a = .ninf := by
  cases a <;> simp_all [Fl.toE]

theorem flFold_fin (xs : List ℝ) (s : ℝ) :
    (xs.map Fl.fin).foldl Fl.add (.fin s) = .fin (s + xs.sum) := by
  induction xs generalizing s with
  | nil => simp
  | cons x t ih => simp [Fl.add, ih, add_assoc]

theorem flSum_fin (xs : List ℝ) : flSum (xs.map Fl.fin) = .fin xs.sum := by
  simpa [flSum] using flFold_fin xs 0

theorem Fl.add_nan (a : Fl) : a.add .nan = .nan := by cases a <;> rfl

theorem flFold_nan_start (l : List Fl) : l.foldl Fl.add .nan = .nan := by
  induction l with
  | nil => rfl
  | cons x t ih => simpa [Fl.add] using ih

theorem flSum_nan {l : List Fl} (h : Fl.nan ∈ l) : flSum l = .nan := by
  suffices ∀ s, l.foldl Fl.add s = .nan from this _
  induction l with
  | nil => cases h
  | cons x t ih =>
    intro s
    simp only [List.foldl_cons]
    rcases List.mem_cons.mp h with rfl | h
    · rw [Fl.add_nan, flFold_nan_start]
    · exact ih h _

/-- `exp (a - m)` for a finite `m`. -/
noncomputable def Fl.rel (m : ℝ) : Fl → ℝ
  | .fin x => Real.exp (x - m)
  | _ => 0

theorem Fl.exp_sub {a : Fl} (m : ℝ) (h1 : a ≠ .nan) (h2 : a ≠ .pinf) :
    (a.sub (.fin m)).exp = .fin (Fl.rel m a) := by
  cases a <;> simp_all [Fl.sub, Fl.neg, Fl.add, Fl.exp, Fl.rel, sub_eq_add_neg]

theorem Fl.rel_nonneg (m : ℝ) (a : Fl) : 0 ≤ Fl.rel m a := by
  cases a <;> simp [Fl.rel, (Real.exp_pos _).le]

theorem Fl.mass_eq_rel {a : Fl} (m : ℝ) (h2 : a ≠ .pinf) :
    mass a = ENNReal.ofReal (Real.exp m * Fl.rel m a) := by
  cases a <;> simp_all [mass, Fl.rel]
  rw [← Real.exp_add]; ring_nf

theorem total_eq_rel {l : List Fl} (m : ℝ) (h2 : Fl.pinf ∉ l) :
    total l = ENNReal.ofReal (Real.exp m * (l.map (Fl.rel m)).sum) := by
  induction l with
  | nil => simp [total]
  | cons a t ih =>
    have ha : a ≠ .pinf := fun e => h2 (by simp [e])
    have ht := ih fun e => h2 (by simp [e])
    have hs : 0 ≤ (t.map (Fl.rel m)).sum := List.sum_nonneg (by
      intro x hx; obtain ⟨a, -, rfl⟩ := List.mem_map.mp hx; exact Fl.rel_nonneg m a)
    simp only [total, List.map_cons, List.sum_cons] at ht ⊢
    rw [ht, Fl.mass_eq_rel m ha, mul_add, ENNReal.ofReal_add]
    · exact mul_nonneg (Real.exp_pos _).le (Fl.rel_nonneg m a)
    · exact mul_nonneg (Real.exp_pos _).le hs

theorem total_pinf {l : List Fl} (h : Fl.pinf ∈ l) : total l = ⊤ := by
  have : mass .pinf ≤ total l := List.single_le_sum (by simp) _ (List.mem_map_of_mem h)
  simpa [mass] using this

theorem total_ninf {l : List Fl} (h : ∀ a ∈ l, a = .ninf) : total l = 0 := by
  have : ∀ a ∈ l.map mass, a = 0 := by
    intro a ha; obtain ⟨b, hb, rfl⟩ := List.mem_map.mp ha; rw [h b hb]; rfl
  exact List.sum_eq_zero this

/-- The three ways `logsumexp` can go. -/
theorem logsumexpT_cases {l : List Fl} (h : l ≠ []) (hn : Fl.nan ∉ l) :
    (flMax l = .ninf ∧ (∀ a ∈ l, a = .ninf) ∧ logsumexpT l = (.ok .ninf, [])) ∨
    (flMax l = .pinf ∧ .pinf ∈ l ∧ .ninf ∉ l ∧ logsumexpT l = (.ok .pinf, [])) ∨
    (flMax l = .pinf ∧ .pinf ∈ l ∧ .ninf ∈ l ∧ (logsumexpT l).1 = .ok .nan) ∨
    (∃ m : ℝ, flMax l = .fin m ∧ .fin m ∈ l ∧ .pinf ∉ l ∧
      logsumexpT l = (.ok (.fin (m + Real.log (l.map (Fl.rel m)).sum)),
        l.map fun a => a.sub (.fin m)) ∧ 1 ≤ (l.map (Fl.rel m)).sum) := by
  obtain ⟨hm, hle⟩ := flMax_spec h hn
  obtain ⟨hk, hge⟩ := flMin_spec h hn
  have hl : l.length ≠ 0 := by simpa using h
  have hall : ∀ a ∈ l, a ≠ .nan := fun a ha e => hn (e ▸ ha)
  cases hM : flMax l with
  | nan => exact absurd (hM ▸ hm) hn
  | ninf =>
    left
    have hz : ∀ a ∈ l, a = .ninf := fun a ha => Fl.toE_bot (by simpa [hM, Fl.toE] using hle a ha)
    refine ⟨rfl, hz, ?_⟩
    have : flMin l = .ninf := hz _ hk
    unfold logsumexpT
    rw [if_neg hl]; simp only [hM]
    rw [if_pos ⟨trivial, by rw [this]; simp [Fl.neg], hall⟩]
  | pinf =>
    right
    have hp : Fl.pinf ∈ l := hM ▸ hm
    by_cases hb : Fl.ninf ∈ l
    · right; left
      refine ⟨rfl, hp, hb, ?_⟩
      have : flMin l = .ninf := Fl.toE_bot (by simpa [Fl.toE] using hge _ hb)
      unfold logsumexpT
      rw [if_neg hl]; simp only [hM]
      rw [if_neg (by rw [this]; simp [Fl.neg])]
      have : Fl.nan ∈ (l.map fun a => a.sub .pinf).map Fl.exp := by
        simp only [List.map_map, List.mem_map]
        exact ⟨.pinf, hp, rfl⟩
      rw [flSum_nan this]; rfl
    · left
      refine ⟨rfl, hp, hb, ?_⟩
      have : flMin l ≠ .ninf := fun e => hb (e ▸ hk)
      unfold logsumexpT
      rw [if_neg hl]; simp only [hM]
      rw [if_pos ⟨trivial, by simpa [Fl.neg] using this, hall⟩]
  | fin m =>
    right; right; right
    have hmm : Fl.fin m ∈ l := hM ▸ hm
    have hp : Fl.pinf ∉ l := by
      intro hp
      have := hle _ hp
      rw [hM] at this
      simp [Fl.toE] at this
    have hs : 1 ≤ (l.map (Fl.rel m)).sum := by
      have : Fl.rel m (.fin m) ≤ (l.map (Fl.rel m)).sum := List.single_le_sum (by
        intro x hx; obtain ⟨a, -, rfl⟩ := List.mem_map.mp hx; exact Fl.rel_nonneg m a) _
        (List.mem_map_of_mem hmm)
      simpa [Fl.rel] using this
    refine ⟨m, rfl, hmm, hp, ?_, hs⟩
    unfold logsumexpT
    rw [if_neg hl]; simp only [hM]
    rw [if_neg (by simp [Fl.isInf])]
    have : (l.map fun a => a.sub (.fin m)).map Fl.exp = (l.map (Fl.rel m)).map Fl.fin := by
      simp only [List.map_map]
      refine List.map_congr_left fun a ha => ?_
      simp only [Function.comp]
      exact Fl.exp_sub m (hall a ha) (fun e => hp (e ▸ ha))
    rw [this, flSum_fin]
    simp only [Fl.log]
    rw [if_pos (by linarith)]
    rfl

theorem mass_sub_fin {a : Fl} (s : ℝ) (ha : a ≠ .nan) :
    mass (a.sub (.fin s)) * ENNReal.ofReal (Real.exp s) = mass a ∧ a.sub (.fin s) ≠ .nan := by
  cases a <;> simp_all [Fl.sub, Fl.neg, Fl.add, mass]
  · rw [← ENNReal.ofReal_mul (Real.exp_pos _).le, ← Real.exp_add]; ring_nf
  · exact ENNReal.top_mul (by simpa using Real.exp_pos s)

theorem mass_add {a b : Fl} (ha : a ≠ .nan) (hb : b ≠ .nan) (ha' : a ≠ .pinf) (hb' : b ≠ .pinf) :
    mass (a.add b) = mass a * mass b ∧ a.add b ≠ .nan ∧ a.add b ≠ .pinf := by
  cases a <;> cases b <;> simp_all [Fl.add, mass]
  rw [Real.exp_add, ENNReal.ofReal_mul (Real.exp_pos _).le]

/-- `logsumexp` is the logarithm of the total mass. -/
theorem logsumexp_spec {l : List Fl} (hn : Fl.nan ∉ l) (h : ¬ (Fl.pinf ∈ l ∧ Fl.ninf ∈ l)) :
    ∃ r, logsumexp l = .ok r ∧ r ≠ .nan ∧ mass r = total l := by
  by_cases hl : l = []
  · subst hl
    exact ⟨.ninf, by simp [logsumexp, logsumexpT], by simp, by simp [mass, total]⟩
  unfold logsumexp
  rcases logsumexpT_cases hl hn with ⟨-, h0, h1⟩ | ⟨-, hp, -, h1⟩ | ⟨-, hp, hb, -⟩ | ⟨m, -, -, hp, h1, hs⟩
  · exact ⟨.ninf, by rw [h1], by simp, by rw [total_ninf h0]; rfl⟩
  · exact ⟨.pinf, by rw [h1], by simp, by rw [total_pinf hp]; rfl⟩
  · exact absurd ⟨hp, hb⟩ h
  · refine ⟨_, by rw [h1], by simp, ?_⟩
    rw [total_eq_rel m hp]
    simp only [mass]
    rw [Real.exp_add, Real.exp_log (by linarith)]

end Cgpm
