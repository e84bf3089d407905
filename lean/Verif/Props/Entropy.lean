import Verif.Lemmas.Entropy
import Mathlib.Analysis.Convex.SpecificFunctions.Basic

/-! C49: the discrete estimators are the information measures of the empirical distribution. -/
namespace Cgpm.Props
open Cgpm.Entropy Cgpm.Spec
variable {K L M : Type} [DecidableEq K] [DecidableEq L] [DecidableEq M]

/-- The histogram lists the relative frequency of each distinct value once (in some order); all are
positive and they sum to 1. -/
theorem C49_hist (sx : List K) (h : sx ≠ []) :
    (hist sx).Perm (sx.dedup.map (freq sx)) ∧ (∀ p ∈ hist sx, 0 < p ∧ p ≤ 1) ∧ (hist sx).sum = 1 := by
  refine ⟨hist_perm sx, fun p hp => ?_, ?_⟩
  · obtain ⟨a, ha, rfl⟩ := List.mem_map.1 ((hist_perm sx).mem_iff.1 hp)
    exact ⟨freq_pos (List.mem_dedup.1 ha), freq_le_one sx a⟩
  · rw [(hist_perm sx).sum_eq, sum_dedup, sum_freq h]

/-- The estimate is Shannon's entropy of the empirical distribution, in the unit of the base. -/
theorem C49_entropy (sx : List K) (base : ℝ) : entropyd sx base = shannon sx / Real.log base :=
  entropyd_eq sx base

/-- It depends neither on the order of the sample nor on the names of the values. -/
theorem C49_invariant (sx sy : List K) (f : K → L) (hf : f.Injective) (base : ℝ) (h : sx.Perm sy) :
    entropyd sx base = entropyd sy base ∧ entropyd (sx.map f) base = entropyd sx base := by
  simp only [entropyd_eq, shannon_perm h, shannon_map hf, and_self]

theorem shannon_nonneg (sx : List K) : 0 ≤ shannon sx :=
  Finset.sum_nonneg fun a ha => by
    have := Real.negMulLog_nonneg (freq_pos (List.mem_toFinset.1 ha)).le (freq_le_one sx a)
    rw [Real.negMulLog] at this; linarith

theorem shannon_le (sx : List K) (h : sx ≠ []) : shannon sx ≤ Real.log sx.dedup.length := by
  have hc : sx.toFinset.card = sx.dedup.length := List.card_toFinset sx
  have hpos : 0 < sx.toFinset.card := by
    rw [Finset.card_pos]; obtain ⟨a, ha⟩ := List.exists_mem_of_ne_nil sx h
    exact ⟨a, List.mem_toFinset.2 ha⟩
  have hne : (sx.toFinset.card : ℝ) ≠ 0 := by positivity
  -- concavity of the logarithm, at the points 1 / p with weights p
  have key : ∀ a ∈ sx.toFinset, -(freq sx a * Real.log (freq sx a)) - freq sx a * Real.log sx.toFinset.card
      ≤ 1 / sx.toFinset.card - freq sx a := by
    intro a ha
    have hp := freq_pos (List.mem_toFinset.1 ha)
    have hpos' : (0 : ℝ) < sx.toFinset.card := by exact_mod_cast hpos
    have := Real.log_le_sub_one_of_pos (x := 1 / (freq sx a * sx.toFinset.card)) (by positivity)
    rw [one_div, Real.log_inv, Real.log_mul hp.ne' hne] at this
    have := mul_le_mul_of_nonneg_left this hp.le
    have e : freq sx a * ((freq sx a * (sx.toFinset.card : ℝ))⁻¹ - 1) = 1 / sx.toFinset.card - freq sx a := by
      field_simp
    linarith
  have := Finset.sum_le_sum key
  rw [Finset.sum_sub_distrib, Finset.sum_sub_distrib, ← Finset.sum_mul, sum_freq h, Finset.sum_const,
    nsmul_eq_mul, hc] at this
  have e : (sx.dedup.length : ℝ) * (1 / sx.dedup.length) = 1 := by
    rw [← hc]; field_simp
  rw [e] at this
  unfold shannon; linarith

theorem shannon_zero (sx : List K) : shannon sx = 0 ↔ ∀ a ∈ sx, ∀ b ∈ sx, a = b := by
  have hterm : ∀ a ∈ sx.toFinset, 0 ≤ -(freq sx a * Real.log (freq sx a)) := fun a ha => by
    have := Real.negMulLog_nonneg (freq_pos (List.mem_toFinset.1 ha)).le (freq_le_one sx a)
    rw [Real.negMulLog] at this; linarith
  constructor
  · intro h a ha b hb
    rw [shannon, Finset.sum_eq_zero_iff_of_nonneg hterm] at h
    have h1 : freq sx a = 1 := by
      have hp := freq_pos ha
      have := h a (List.mem_toFinset.2 ha)
      have h0 : Real.log (freq sx a) = 0 := by
        rcases mul_eq_zero.1 (neg_eq_zero.1 this) with h | h
        · exact absurd h hp.ne'
        · exact h
      rcases Real.log_eq_zero.1 h0 with h | h | h <;> linarith
    by_contra hab
    have := sum_freq (List.ne_nil_of_mem ha)
    have hle : freq sx a + freq sx b ≤ 1 := by
      rw [← this, ← Finset.sum_pair hab]
      refine Finset.sum_le_sum_of_subset_of_nonneg ?_ fun c hc _ => (freq_pos (List.mem_toFinset.1 hc)).le
      intro c hc; rcases Finset.mem_insert.1 hc with rfl | hc
      · exact List.mem_toFinset.2 ha
      · rw [Finset.mem_singleton.1 hc]; exact List.mem_toFinset.2 hb
    have := freq_pos hb
    linarith
  · intro h
    refine Finset.sum_eq_zero fun a ha => ?_
    have ha := List.mem_toFinset.1 ha
    have : sx.count a = sx.length := List.count_eq_length.2 fun b hb => h a ha b hb
    have hn : (sx.length : ℝ) ≠ 0 := by
      have := List.length_pos_of_mem ha; positivity
    simp [freq, this, hn]

/-- It lies between 0 and the logarithm of the number of distinct values, and is 0 exactly when all
samples agree. -/
theorem C49_range (sx : List K) (base : ℝ) (hb : 1 < base) :
    0 ≤ entropyd sx base ∧ (sx ≠ [] → entropyd sx base ≤ Real.log sx.dedup.length / Real.log base) ∧
    (entropyd sx base = 0 ↔ ∀ a ∈ sx, ∀ b ∈ sx, a = b) := by
  have hl := Real.log_pos hb
  rw [entropyd_eq]
  refine ⟨div_nonneg (shannon_nonneg sx) hl.le, fun h => ?_, ?_⟩
  · exact div_le_div_of_nonneg_right (shannon_le sx h) hl.le
  · rw [div_eq_zero_iff, ← shannon_zero sx]
    exact ⟨fun h => h.resolve_right hl.ne', Or.inl⟩

omit [DecidableEq K] [DecidableEq L] [DecidableEq M] in
theorem map_zip_outer (x : List K) (y : List L) (z : List M) (h1 : x.length = y.length)
    (h2 : y.length = z.length) : (x.zip (y.zip z)).map (fun m => (m.1, m.2.2)) = x.zip z := by
  induction x generalizing y z with
  | nil => simp
  | cons a x ih =>
    cases y with
    | nil => simp at h1
    | cons b y =>
      cases z with
      | nil => simp at h2
      | cons c z =>
        simp only [List.zip_cons_cons, List.map_cons]
        rw [ih y z (by simpa using h1) (by simpa using h2)]

theorem cmidd_eq (x : List K) (y : List L) (z : List M) (base : ℝ) (h1 : x.length = y.length)
    (h2 : y.length = z.length) : cmidd x y z base = cmi (x.zip (y.zip z)) / Real.log base := by
  unfold cmidd cmi
  simp only [entropyd_eq]
  have e1 : (x.zip (y.zip z)).map (fun m => (m.2.1, m.2.2)) = y.zip z := by
    have : (fun m : K × L × M => (m.2.1, m.2.2)) = Prod.snd := rfl
    rw [this, List.map_snd_zip]; simp; omega
  have e2 : (x.zip (y.zip z)).map (fun m => m.2.2) = z := by
    have : (fun m : K × L × M => m.2.2) = Prod.snd ∘ Prod.snd := rfl
    rw [this, ← List.map_map, List.map_snd_zip, List.map_snd_zip]
    · omega
    · simp; omega
  rw [e1, e2, map_zip_outer x y z h1 h2]
  ring

theorem shannon_unit (n : Nat) : shannon (List.replicate n ()) = 0 :=
  (shannon_zero _).2 fun _ _ _ _ => rfl

theorem midd_cmidd (x : List K) (y : List L) (base : ℝ) (h : x.length = y.length) :
    midd x y base = cmidd x y (List.replicate y.length ()) base := by
  have e1 : ∀ {N : Type} (l : List N) (n : Nat), l.length = n →
      l.zip (List.replicate n ()) = l.map fun a => (a, ()) := by
    intro N l
    induction l with
    | nil => simp
    | cons a l ih =>
      intro n hn; subst hn
      simp only [List.length_cons, List.replicate_succ, List.zip_cons_cons, List.map_cons]
      rw [ih _ rfl]
  have e2 : x.zip (y.map fun a => (a, ())) = (x.zip y).map fun p => (p.1, p.2, ()) := by
    rw [List.zip_map_right]; rfl
  unfold midd cmidd
  rw [e1 y _ rfl, e1 x _ h, e2]
  simp only [entropyd_eq, shannon_unit]
  rw [shannon_map (f := fun a : L => (a, ())) (fun a b h => by simpa using h),
    shannon_map (f := fun a : K => (a, ())) (fun a b h => by simpa using h),
    shannon_map (f := fun p : K × L => (p.1, p.2, ())) (fun a b h => by
      obtain ⟨a1, a2⟩ := a; obtain ⟨b1, b2⟩ := b; simpa using h)]
  ring

/-- The conditional mutual information is not negative, 0 exactly when the first two coordinates
are independent given the third in the sample, and does not depend on their order. -/
theorem C49_cmi (x : List K) (y : List L) (z : List M) (base : ℝ) (hb : 1 < base)
    (h1 : x.length = y.length) (h2 : y.length = z.length) :
    0 ≤ cmidd x y z base ∧
    (x ≠ [] → (cmidd x y z base = 0 ↔ EmpiricallyIndependentGiven x y z)) ∧
    cmidd x y z base = cmidd y x z base := by
  have hl := Real.log_pos hb
  have e := cmidd_eq x y z base h1 h2
  obtain ⟨k1, k2⟩ := cmi_nonneg (x.zip (y.zip z))
  refine ⟨e ▸ div_nonneg k1 hl.le, fun hx => ?_, ?_⟩
  · have hn : (x.length : ℝ) ≠ 0 := by simpa using hx
    have hne : x.zip (y.zip z) ≠ [] := by
      intro h; have := congrArg List.length h
      simp [h1, ← h2] at this; simp [this] at h1; exact hx h1
    have l1 : (x.zip (y.zip z)).length = x.length := by simp [h1, h2]
    have l2 : (x.zip z).length = x.length := by simp [h1, h2]
    have l3 : (y.zip z).length = x.length := by simp [h1, h2]
    have l4 : z.length = x.length := by omega
    rw [e, div_eq_zero_iff, or_iff_left hl.ne', k2 hne]
    have e1 : (x.zip (y.zip z)).map (fun m => (m.2.1, m.2.2)) = y.zip z := by
      have : (fun m : K × L × M => (m.2.1, m.2.2)) = Prod.snd := rfl
      rw [this, List.map_snd_zip]; simp; omega
    have e2 : (x.zip (y.zip z)).map (fun m => m.2.2) = z := by
      have : (fun m : K × L × M => m.2.2) = Prod.snd ∘ Prod.snd := rfl
      rw [this, ← List.map_map, List.map_snd_zip, List.map_snd_zip]
      · omega
      · simp; omega
    have e3 := map_zip_outer x y z h1 h2
    have zero : ∀ a c, cnt z c = 0 → cnt (x.zip z) (a, c) = 0 := fun a c hc =>
      cnt_zero fun hm => by
        have := cnt_pos.2 (List.of_mem_zip hm).2; linarith
    have zero3 : ∀ a b c, cnt z c = 0 → cnt (x.zip (y.zip z)) (a, b, c) = 0 := fun a b c hc =>
      cnt_zero fun hm => by
        have := cnt_pos.2 (List.of_mem_zip (List.of_mem_zip hm).2).2; linarith
    have cell : ∀ a b c, (cnt (x.zip (y.zip z)) (a, b, c) = cellMean (x.zip (y.zip z)) (a, b, c)) ↔
        freq (x.zip (y.zip z)) (a, b, c) * freq z c
          = freq (x.zip z) (a, c) * freq (y.zip z) (b, c) := by
      intro a b c
      simp only [cellMean, e1, e2, e3, freq_eq, l1, l2, l3, l4]
      rcases eq_or_ne (cnt z c) 0 with hc | hc
      · simp [hc, zero a c hc, zero3 a b c hc]
      · rw [eq_div_iff hc]
        field_simp
    exact ⟨fun h a b c => (cell a b c).1 (h (a, b, c)), fun h m => (cell m.1 m.2.1 m.2.2).2 (h _ _ _)⟩
  · have e4 : (x.zip (y.zip z)).map (fun m => (m.2.1, m.1, m.2.2)) = y.zip (x.zip z) := by
      clear e k1 k2
      induction x generalizing y z with
      | nil => cases y <;> simp at h1 ⊢
      | cons a x ih =>
        cases y with
        | nil => simp at h1
        | cons b y =>
          cases z with
          | nil => simp at h2
          | cons c z =>
            simp only [List.zip_cons_cons, List.map_cons]
            rw [ih y z (by simpa using h1) (by simpa using h2)]
    unfold cmidd
    simp only [entropyd_eq]
    rw [← e4, shannon_map (f := fun m : K × L × M => (m.2.1, m.1, m.2.2)) (fun a b h => by
      obtain ⟨a1, a2, a3⟩ := a; obtain ⟨b1, b2, b3⟩ := b; simp at h ⊢; tauto)]
    ring

/-- The mutual information of two coordinates does not depend on their order, nor on the order of
the sample. -/
theorem C49_mi_symmetric (x : List K) (y : List L) (base : ℝ) : midd x y base = midd y x base := by
  unfold midd
  have : entropyd (x.zip y) base = entropyd (y.zip x) base := by
    rw [entropyd_eq, entropyd_eq, ← List.zip_swap x y, shannon_map Prod.swap_injective]
  rw [this]; ring

theorem midd_self (x : List K) (base : ℝ) : midd x x base = entropyd x base := by
  have : x.zip x = x.map fun a => (a, a) := by
    induction x with
    | nil => rfl
    | cons a x ih => simp [ih]
  unfold midd
  rw [this]
  simp only [entropyd_eq]
  rw [shannon_map (f := fun a : K => (a, a)) (fun a b h => by simpa using h)]
  ring

theorem midd_le (x : List K) (y : List L) (base : ℝ) (hb : 1 < base) (h : x.length = y.length) :
    midd x y base ≤ entropyd x base := by
  have h1 := (C49_cmi x x y base hb rfl h).1
  have e : x.zip (x.zip y) = (x.zip y).map fun m => (m.1, m.1, m.2) := by
    clear h1
    induction x generalizing y with
    | nil => simp
    | cons a x ih =>
      cases y with
      | nil => simp at h
      | cons b y =>
        simp only [List.zip_cons_cons, List.map_cons]
        rw [ih y (by simpa using h)]
  unfold cmidd at h1
  unfold midd
  rw [e] at h1
  simp only [entropyd_eq] at h1 ⊢
  rw [shannon_map (f := fun m : K × L => (m.1, m.1, m.2)) (fun a b h => by
    obtain ⟨a1, a2⟩ := a; obtain ⟨b1, b2⟩ := b; simpa using h)] at h1
  linarith

/-- It is not negative, at most the entropy of each coordinate, 0 exactly when the coordinates are
independent in the sample, and the information of a coordinate about itself is its entropy. -/
theorem C49_mi (x : List K) (y : List L) (base : ℝ) (hb : 1 < base) (h : x.length = y.length) :
    0 ≤ midd x y base ∧ midd x y base ≤ min (entropyd x base) (entropyd y base) ∧
    (x ≠ [] → (midd x y base = 0 ↔ EmpiricallyIndependent x y)) ∧
    midd x x base = entropyd x base := by
  have e := midd_cmidd x y base h
  obtain ⟨k1, k2, -⟩ := C49_cmi x y (List.replicate y.length ()) base hb h (by simp)
  refine ⟨e ▸ k1, le_min (midd_le x y base hb h) ?_, fun hx => ?_, midd_self x base⟩
  · rw [C49_mi_symmetric]; exact midd_le y x base hb h.symm
  · rw [e, k2 hx]
    have one : freq (List.replicate y.length ()) () = 1 := by
      have hn : (y.length : ℝ) ≠ 0 := by rw [← h]; simpa using hx
      simp [freq, hn]
    have f1 : ∀ {N : Type} [DecidableEq N] (l : List N) (n : Nat), l.length = n →
        ∀ a, freq (l.zip (List.replicate n ())) (a, ()) = freq l a := by
      intro N _ l n hn a
      have : l.zip (List.replicate n ()) = l.map fun a => (a, ()) := by
        induction l generalizing n with
        | nil => simp
        | cons b l ih =>
          subst hn
          simp only [List.length_cons, List.replicate_succ, List.zip_cons_cons, List.map_cons]
          rw [ih _ rfl]
      rw [this]
      exact freq_map (f := fun a : N => (a, ())) (fun a b h => by simpa using h) l a
    have f2 : ∀ a b, freq (x.zip (y.zip (List.replicate y.length ()))) (a, b, ())
        = freq (x.zip y) (a, b) := by
      intro a b
      have e2 : x.zip (y.zip (List.replicate y.length ()))
          = ((x.zip y).zip (List.replicate (x.zip y).length ())).map fun p => (p.1.1, p.1.2, p.2) := by
        have : (x.zip y).length = y.length := by simp [h]
        rw [this]
        clear k1 k2 e this one f1 hx
        induction x generalizing y with
        | nil => simp
        | cons a x ih =>
          cases y with
          | nil => simp at h
          | cons b y =>
            simp only [List.length_cons, List.replicate_succ, List.zip_cons_cons, List.map_cons]
            rw [ih y (by simpa using h)]
      rw [← f1 (x.zip y) _ rfl (a, b), e2]
      exact freq_map (f := fun p : (K × L) × Unit => (p.1.1, p.1.2, p.2)) (fun a b h => by
        obtain ⟨⟨a1, a2⟩, a3⟩ := a; obtain ⟨⟨b1, b2⟩, b3⟩ := b; simpa [and_assoc] using h) _ ((a, b), ())
    constructor
    · intro g a b
      have := g a b ()
      rwa [f2, one, mul_one, f1 x _ h, f1 y _ rfl] at this
    · intro g a b c
      have := g a b
      rw [f2, one, mul_one, f1 x _ h, f1 y _ rfl, this]

/-- The chain rule: what `y` and `z` tell about `x` is what `z` tells, and what `y` tells given
`z`. -/
theorem C49_chain (x : List K) (y : List L) (z : List M) (base : ℝ) :
    midd x (y.zip z) base = midd x z base + cmidd x y z base := by
  unfold midd cmidd; ring

/-- Non-vacuity: a sample of three pairs whose coordinates are neither constant nor independent, and
one of four whose coordinates are independent. -/
example : 0 < midd [0, 1, 1] [5, 5, 7] 2 ∧ midd [0, 0, 1, 1] [5, 7, 5, 7] 2 = 0 := by
  constructor
  · obtain ⟨h1, -, h2, -⟩ := C49_mi [0, 1, 1] [5, 5, 7] 2 (by norm_num) rfl
    refine lt_of_le_of_ne h1 fun h => ?_
    have := (h2 (by simp)).1 h.symm 0 5
    norm_num [freq, List.count_cons] at this
  · refine ((C49_mi [0, 0, 1, 1] [5, 7, 5, 7] 2 (by norm_num) rfl).2.2.1 (by simp)).2 fun a b => ?_
    by_cases h0 : a = 0 <;> by_cases h1 : a = 1 <;> by_cases h5 : b = 5 <;> by_cases h7 : b = 7 <;>
      simp_all [freq, List.count_cons, eq_comm] <;> norm_num

end Cgpm.Props
