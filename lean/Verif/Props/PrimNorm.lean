import Verif.Lemmas.PrimNorm
import Verif.Props.Primitives

/-!
Property C08: the predictive distribution of a discrete component sums to one in
every reachable state (infinite supports included); the exponential component is
added as a continuous example.
-/
namespace Cgpm.Props
open Cgpm Cgpm.Comp

theorem bernoulli_norm (h : BernoulliH) (hk : bernoulli.hypOk h) (l : List ℝ)
    (hl : ∀ v ∈ l, support .bernoulli v) :
    pr (bernoulli.logpdf h (bernoulli.statOf l) 0) + pr (bernoulli.logpdf h (bernoulli.statOf l) 1) = 1 := by
  have hkc := hk
  obtain ⟨ha, hb⟩ := hkc
  obtain ⟨h0, h1⟩ := bernoulli_bounds hl
  rw [bernoulli_stat]
  have hA : 0 < l.sum + h.alpha := by
    have : 0 ≤ l.sum := h0
    linarith
  have hB : 0 < (l.length : ℝ) - l.sum + h.beta := by
    have : l.sum ≤ l.length := h1
    linarith
  have hD : 0 < (l.length : ℝ) + h.alpha + h.beta := by linarith
  simp only [bernoulli, bernoulliPredictive, true_or, or_true, if_true, pr_coe]
  rw [if_neg (by norm_num), Int.cast_natCast, exp_log_sub hB hD, exp_log_sub hA hD]
  field_simp; ring

/-- **C08.** bernoulli. -/
theorem C08_bernoulli (h : BernoulliH) (hk : bernoulli.hypOk h) (ops : List (Op ℝ BernoulliH)) :
    let c := (init bernoulli h).run bernoulli ops
    pr (bernoulli.logpdf c.hyp c.stat 0) + pr (bernoulli.logpdf c.hyp c.stat 1) = 1 := by
  intro c
  have i := prim_inv_run .bernoulli h ops
  have e : c.stat = bernoulli.statOf c.data.vals := i.hstat
  rw [e]
  exact bernoulli_norm  c.hyp (hypOk_run hk ops) _ (prim_vals_support i)

theorem sum_range_getD (l : List ℤ) :
    ∑ j ∈ Finset.range l.length, ((l[j]?.getD 0 : ℤ) : ℝ) = ((l.sum : ℤ) : ℝ) := by
  induction l with
  | nil => simp
  | cons a l ih =>
    rw [List.length_cons, Finset.sum_range_succ']
    simp only [List.getElem?_cons_succ, List.getElem?_cons_zero, Option.getD_some, ih]
    simp [add_comm]

theorem categorical_norm (k : ℕ) (hk0 : 0 < k) (h : CategoricalH) (hk : (categorical k).hypOk h) (l : List ℝ)
    (hl : ∀ v ∈ l, support (.categorical k) v) :
    ∑ i ∈ Finset.range k, pr ((categorical k).logpdf h ((categorical k).statOf l) (i : ℝ)) = 1 := by
  have hkc := hk
  have ha : 0 < h.alpha := hkc
  obtain ⟨h1, h2, h3⟩ := categorical_stat k l
  have hs := categorical_sum k hl
  have hs : ((categorical k).statOf l).counts.sum = l.length := hs
  have hkp : 0 < (k : ℝ) := by exact_mod_cast hk0
  have hD : 0 < ((((categorical k).statOf l).counts.sum : ℤ) : ℝ) + h.alpha * ((categorical k).statOf l).counts.length := by
    rw [hs, h2]; push_cast; positivity
  have term : ∀ j ∈ Finset.range k, pr ((categorical k).logpdf h ((categorical k).statOf l) (j : ℝ))
      = (h.alpha + ((((categorical k).statOf l).counts[j]?.getD 0 : ℤ) : ℝ))
        / (((((categorical k).statOf l).counts.sum : ℤ) : ℝ) + h.alpha * ((categorical k).statOf l).counts.length) := by
    intro j hj
    have hj' := Finset.mem_range.mp hj
    have hok : categoricalOk k (j : ℝ) := (categoricalOk_iff k _).mpr ⟨j, hj', rfl⟩
    have : (categorical k).logpdf h ((categorical k).statOf l) (j : ℝ)
        = ((categoricalPredictive j ((categorical k).statOf l).counts h.alpha : ℝ) : LogP) := by
      simp [categorical, hok]
    rw [this, pr_coe, categoricalPredictive, exp_log_sub _ hD]
    rw [h3 j hj', Option.getD_some]
    have : (0 : ℝ) ≤ (((l.countP fun x => decide (⌊x⌋.toNat = j) : ℕ) : ℤ) : ℝ) := by
      positivity
    linarith
  rw [Finset.sum_congr rfl term, ← Finset.sum_div, Finset.sum_add_distrib]
  have hsum : ∑ j ∈ Finset.range k, ((((categorical k).statOf l).counts[j]?.getD 0 : ℤ) : ℝ)
      = ((((categorical k).statOf l).counts.sum : ℤ) : ℝ) := by
    have := sum_range_getD ((categorical k).statOf l).counts
    rwa [h2] at this
  rw [hsum, Finset.sum_const, Finset.card_range, nsmul_eq_mul, h2, div_eq_one_iff_eq]
  · ring
  · rw [h2] at hD; exact hD.ne'

/-- **C08.** categorical with `k ≥ 1` categories. -/
theorem C08_categorical (k : ℕ) (hk0 : 0 < k) (h : CategoricalH) (hk : (categorical k).hypOk h)
    (ops : List (Op ℝ CategoricalH)) :
    let c := (init (categorical k) h).run (categorical k) ops
    ∑ i ∈ Finset.range k, pr ((categorical k).logpdf c.hyp c.stat (i : ℝ)) = 1 := by
  intro c
  have i := prim_inv_run (.categorical k) h ops
  have e : c.stat = (categorical k).statOf c.data.vals := i.hstat
  rw [e]
  exact categorical_norm k hk0 c.hyp (hypOk_run hk ops) _ (prim_vals_support i)

theorem nat_sum_nonneg {l : List ℝ} (h : ∀ v ∈ l, ∃ n : ℕ, v = n) : 0 ≤ l.sum :=
  sum_nonneg_of fun x hx => by obtain ⟨n, rfl⟩ := h x hx; positivity

theorem geometric_norm (h : AbH) (hk : geometric.hypOk h) (l : List ℝ)
    (hl : ∀ v ∈ l, support .geometric v) :
    HasSum (fun n : ℕ => pr (geometric.logpdf h (geometric.statOf l) (n : ℝ))) 1 := by
  have hkc := hk
  obtain ⟨ha, hb⟩ := hkc
  have h0 : 0 ≤ l.sum := nat_sum_nonneg hl
  rw [geometric_stat]
  have hA : 0 < h.a + (l.length : ℝ) := by
    have : 0 < h.a := ha
    positivity
  have hB : 0 < h.b + l.sum := by
    have : 0 < h.b := hb
    linarith
  refine (geometric_hasSum hA hB).congr_fun fun n => ?_
  have hok : isInt (n : ℝ) ∧ (0:ℝ) ≤ n := (isInt_nonneg_iff _).mpr ⟨n, rfl⟩
  simp only [geometric, if_pos hok, pr_coe, geometricPredictive]
  push_cast
  rw [add_assoc, add_assoc]

/-- **C08.** geometric: the sum over all naturals converges to 1. -/
theorem C08_geometric (h : AbH) (hk : geometric.hypOk h) (ops : List (Op ℝ AbH)) :
    let c := (init geometric h).run geometric ops
    HasSum (fun n : ℕ => pr (geometric.logpdf c.hyp c.stat (n : ℝ))) 1 := by
  intro c
  have i := prim_inv_run .geometric h ops
  have e : c.stat = geometric.statOf c.data.vals := i.hstat
  rw [e]
  exact geometric_norm  c.hyp (hypOk_run hk ops) _ (prim_vals_support i)

theorem poisson_norm (h : AbH) (hk : poisson.hypOk h) (l : List ℝ)
    (hl : ∀ v ∈ l, support .poisson v) :
    HasSum (fun n : ℕ => pr (poisson.logpdf h (poisson.statOf l) (n : ℝ))) 1 := by
  have hkc := hk
  obtain ⟨ha, hb⟩ := hkc
  have h0 : 0 ≤ l.sum := nat_sum_nonneg hl
  rw [poisson_stat]
  have hB : 0 < h.b + (l.length : ℝ) := by
    have : 0 < h.b := hb
    positivity
  have hA : 0 < h.a + l.sum := by
    have : 0 < h.a := ha
    linarith
  refine (poisson_hasSum hA hB).congr_fun fun n => ?_
  have hok : isInt (n : ℝ) ∧ (0:ℝ) ≤ n := (isInt_nonneg_iff _).mpr ⟨n, rfl⟩
  simp only [poisson, if_pos hok, pr_coe, poissonPredictive]
  push_cast
  rw [add_assoc, add_assoc]

/-- **C08.** poisson: the sum over all naturals converges to 1. -/
theorem C08_poisson (h : AbH) (hk : poisson.hypOk h) (ops : List (Op ℝ AbH)) :
    let c := (init poisson h).run poisson ops
    HasSum (fun n : ℕ => pr (poisson.logpdf c.hyp c.stat (n : ℝ))) 1 := by
  intro c
  have i := prim_inv_run .poisson h ops
  have e : c.stat = poisson.statOf c.data.vals := i.hstat
  rw [e]
  exact poisson_norm  c.hyp (hypOk_run hk ops) _ (prim_vals_support i)

theorem exponential_norm (h : AbH) (hk : exponential.hypOk h) (l : List ℝ)
    (hl : ∀ v ∈ l, support .exponential v) :
    ∫ x in Set.Ioi (0 : ℝ), pr (exponential.logpdf h (exponential.statOf l) x) = 1 := by
  have hkc := hk
  obtain ⟨ha, hb⟩ := hkc
  have h0 : 0 ≤ l.sum := sum_nonneg_of hl
  rw [exponential_stat]
  have hA : 0 < h.a + (l.length : ℝ) := by
    have : 0 < h.a := ha
    positivity
  have hB : 0 < h.b + l.sum := by
    have : 0 < h.b := hb
    linarith
  rw [← exponential_integral hA hB]
  refine MeasureTheory.setIntegral_congr_fun measurableSet_Ioi fun x hx => ?_
  have hx' : ¬ x < 0 := not_lt.mpr (le_of_lt hx)
  simp only [exponential, if_neg hx', pr_coe, exponentialPredictive]
  push_cast
  rw [add_assoc, add_assoc]

/-- **C08, continuous example.** exponential: the predictive density integrates to 1
over the positive reals. -/
theorem C08_exponential (h : AbH) (hk : exponential.hypOk h) (ops : List (Op ℝ AbH)) :
    let c := (init exponential h).run exponential ops
    ∫ x in Set.Ioi (0 : ℝ), pr (exponential.logpdf c.hyp c.stat x) = 1 := by
  intro c
  have i := prim_inv_run .exponential h ops
  have e : c.stat = exponential.statOf c.data.vals := i.hstat
  rw [e]
  exact exponential_norm  c.hyp (hypOk_run hk ops) _ (prim_vals_support i)

/-- Non-vacuity: the hypotheses are met by a fresh component that saw two counts. -/
example : poisson.hypOk ⟨1, 1⟩ ∧ geometric.hypOk ⟨1, 1⟩ ∧
    cells .poisson [.inc 0 3, .inc 1 (-2), .inc 2 5] 2 = some 5 ∧
    cells .poisson [.inc 0 3, .inc 1 (-2), .inc 2 5] 1 = none := by
  have h5 : ∃ n : ℕ, (5 : ℝ) = n := ⟨5, by norm_num⟩
  have h2 : ¬ ∃ n : ℕ, (-2 : ℝ) = n := by
    rintro ⟨n, h⟩
    have : (0 : ℝ) ≤ n := by positivity
    linarith
  refine ⟨⟨one_pos, one_pos⟩, ⟨one_pos, one_pos⟩, ?_, ?_⟩
  · simp [cells, cellStep, remembered, support, h5]
  · simp [cells, cellStep, remembered, support, h2]

end Cgpm.Props
