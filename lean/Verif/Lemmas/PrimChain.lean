import Verif.Lemmas.Primitives

/-! The chain rule (predictive = difference of scores) for the ten primitives. -/
namespace Cgpm
open Classical Props

theorem betaln_succ_left {a b : ℝ} (ha : 0 < a) (hb : 0 < b) :
    betaln (a + 1) b - betaln a b = Real.log a - Real.log (a + b) := by
  unfold betaln
  have e : a + 1 + b = (a + b) + 1 := by ring
  rw [e, gammaln_add_one ha, gammaln_add_one (by positivity : 0 < a + b)]; ring

theorem betaln_succ_right {a b : ℝ} (ha : 0 < a) (hb : 0 < b) :
    betaln a (b + 1) - betaln a b = Real.log b - Real.log (a + b) := by
  unfold betaln
  have e : a + (b + 1) = (a + b) + 1 := by ring
  rw [e, gammaln_add_one hb, gammaln_add_one (by positivity : 0 < a + b)]; ring

theorem sum_nonneg_of {l : List ℝ} (h : ∀ x ∈ l, 0 ≤ x) : 0 ≤ l.sum := by
  exact List.sum_nonneg h

theorem sum_le_length {l : List ℝ} (h : ∀ x ∈ l, x ≤ 1) : l.sum ≤ l.length := by
  induction l with
  | nil => simp
  | cons a l ih =>
    have h1 := h a (by simp)
    have h2 := ih fun x hx => h x (by simp [hx])
    simp only [List.sum_cons, List.length_cons]; push_cast; linarith

theorem bernoulli_bounds {l : List ℝ} (h : ∀ v ∈ l, support .bernoulli v) :
    0 ≤ l.sum ∧ l.sum ≤ l.length := by
  constructor
  · exact sum_nonneg_of fun x hx => by rcases h x hx with rfl | rfl <;> norm_num
  · exact sum_le_length fun x hx => by rcases h x hx with rfl | rfl <;> norm_num

theorem bernoulli_chain {h : BernoulliH} (hk : Cgpm.bernoulli.hypOk h) {l : List ℝ}
    (hl : ∀ v ∈ l, support .bernoulli v) {x : ℝ} (hx : support .bernoulli x) :
    Cgpm.bernoulli.logpdf h (Cgpm.bernoulli.statOf l) x =
      ((Cgpm.bernoulli.score h (Cgpm.bernoulli.add (Cgpm.bernoulli.statOf l) x)
        - Cgpm.bernoulli.score h (Cgpm.bernoulli.statOf l) : ℝ) : LogP) := by
  obtain ⟨h0, h1⟩ := bernoulli_bounds hl
  obtain ⟨ha, hb⟩ := hk
  rw [bernoulli_stat]
  have hx' : x = 0 ∨ x = 1 := hx
  simp only [Cgpm.bernoulli, if_pos hx', WithBot.coe_inj]
  unfold bernoulliMarginal bernoulliPredictive
  have hA : 0 < l.sum + h.alpha := by linarith
  have hB : 0 < (l.length : ℝ) - l.sum + h.beta := by linarith
  rcases hx' with rfl | rfl
  · have := betaln_succ_right hA hB
    rw [if_neg (by norm_num)]
    push_cast
    have e1 : l.sum + 0 + h.alpha = l.sum + h.alpha := by ring
    have e2 : (l.length : ℝ) + 1 - (l.sum + 0) + h.beta = (l.length : ℝ) - l.sum + h.beta + 1 := by
      ring
    have e3 : (l.length : ℝ) + h.alpha + h.beta
      = l.sum + h.alpha + ((l.length : ℝ) - l.sum + h.beta) := by ring
    rw [e1, e2, e3]; linarith
  · have := betaln_succ_left hA hB
    rw [if_pos rfl]
    push_cast
    have e1 : l.sum + 1 + h.alpha = l.sum + h.alpha + 1 := by ring
    have e2 : (l.length : ℝ) + 1 - (l.sum + 1) + h.beta = (l.length : ℝ) - l.sum + h.beta := by
      ring
    have e3 : (l.length : ℝ) + h.alpha + h.beta
      = l.sum + h.alpha + ((l.length : ℝ) - l.sum + h.beta) := by ring
    rw [e1, e2, e3]; linarith

theorem sum_map_modify (f : ℤ → ℝ) : ∀ (l : List ℤ) (i : ℕ) (c : ℤ), l[i]? = some c →
    ((l.modify i (· + 1)).map f).sum = (l.map f).sum + f (c + 1) - f c
  | [], i, c, h => by simp at h
  | a :: l, 0, c, h => by
      simp at h; subst h; simp; ring
  | a :: l, i + 1, c, h => by
      simp at h
      simp [sum_map_modify f l i c h]; ring

theorem sum_modify : ∀ (l : List ℤ) (i : ℕ), i < l.length →
    (l.modify i (· + 1)).sum = l.sum + 1
  | [], i, h => by simp at h
  | a :: l, 0, h => by simp; ring
  | a :: l, i + 1, h => by
      simp at h
      simp [sum_modify l i h]; ring

theorem categorical_sum (k : ℕ) {l : List ℝ} (hl : ∀ v ∈ l, support (.categorical k) v) :
    (((Cgpm.categorical k).statOf l).counts).sum = l.length := by
  induction l using List.reverseRecOn with
  | nil => simp [Family.statOf, Cgpm.categorical]
  | append_singleton l x ih =>
    have h1 := ih fun v hv => hl v (by simp [hv])
    obtain ⟨n, hn, rfl⟩ := hl x (by simp)
    rw [Family.statOf_append]
    change (List.modify _ _ _).sum = _
    rw [sum_modify _ _ (by rw [(categorical_stat k l).2.1]; simpa using hn), h1]; simp

theorem categorical_chain {k : ℕ} {h : CategoricalH} (hk : (Cgpm.categorical k).hypOk h)
    {l : List ℝ} (hl : ∀ v ∈ l, support (.categorical k) v) {x : ℝ}
    (hx : support (.categorical k) x) :
    (Cgpm.categorical k).logpdf h ((Cgpm.categorical k).statOf l) x =
      (((Cgpm.categorical k).score h ((Cgpm.categorical k).add ((Cgpm.categorical k).statOf l) x)
        - (Cgpm.categorical k).score h ((Cgpm.categorical k).statOf l) : ℝ) : LogP) := by
  have ha : 0 < h.alpha := hk
  obtain ⟨h1, h2, h3⟩ := categorical_stat k l
  have hs := categorical_sum k hl
  generalize (Cgpm.categorical k).statOf l = s at *
  have hok := (categoricalOk_iff k x).mpr hx
  obtain ⟨n, hn, rfl⟩ := hx
  simp only [Cgpm.categorical, if_pos hok, WithBot.coe_inj]
  unfold categoricalMarginal categoricalPredictive
  have hfl : ⌊((n : ℕ) : ℝ)⌋.toNat = n := by simp
  rw [hfl]
  obtain ⟨c, hc⟩ : ∃ c : ℕ, s.counts[n]? = some (c : ℤ) := ⟨_, h3 n hn⟩
  simp only [sum_map_modify _ _ _ _ hc, List.length_modify, h2, hs, h1, hc, Option.getD_some]
  have hc0 : 0 < (c : ℝ) + h.alpha := by positivity
  have hkpos : 0 < (k : ℝ) := by exact_mod_cast Nat.lt_of_le_of_lt (Nat.zero_le _) hn
  have hA : 0 < (k : ℝ) * h.alpha + (l.length : ℝ) := by positivity
  have g1 := gammaln_add_one hc0
  have g2 := gammaln_add_one hA
  push_cast
  have e1 : (c : ℝ) + 1 + h.alpha = (c : ℝ) + h.alpha + 1 := by ring
  have e2 : (k : ℝ) * h.alpha + ((l.length : ℝ) + 1) = (k : ℝ) * h.alpha + l.length + 1 := by ring
  have e3 : h.alpha + (c : ℝ) = c + h.alpha := by ring
  have e4 : (l.length : ℝ) + h.alpha * k = (k : ℝ) * h.alpha + l.length := by ring
  rw [e1, e2, e3, e4, g1, g2]; ring

theorem Prim.chain (p : Prim) {h : p.H} (hk : p.fam.hypOk h) {l : List ℝ}
    (hl : ∀ v ∈ l, support p v) {x : ℝ} (hx : support p x) :
    p.fam.logpdf h (p.fam.statOf l) x =
      ((p.fam.score h (p.fam.add (p.fam.statOf l) x) - p.fam.score h (p.fam.statOf l) : ℝ) : LogP) := by
  cases p
  case bernoulli => exact bernoulli_chain hk hl hx
  case categorical k => exact categorical_chain hk hl hx
  case exponential =>
    have hx' : ¬ x < 0 := not_lt.mpr hx
    simp only [Prim.fam, Cgpm.exponential, if_neg hx', WithBot.coe_inj]
    simp only [exponentialPredictive, exponentialMarginal]; ring
  case geometric =>
    have hx' := (isInt_nonneg_iff x).mpr hx
    simp only [Prim.fam, Cgpm.geometric, if_pos hx', WithBot.coe_inj]
    simp only [geometricPredictive, geometricMarginal]; ring
  case poisson =>
    have hx' := (isInt_nonneg_iff x).mpr hx
    simp only [Prim.fam, Cgpm.poisson, if_pos hx', WithBot.coe_inj]
    simp only [poissonPredictive, poissonMarginal]; ring
  case normal =>
    simp only [Prim.fam, Cgpm.normal, WithBot.coe_inj]
    simp only [normalPredictive, normalMarginal]; push_cast; ring
  case lognormal =>
    have hx' : ¬ x ≤ 0 := not_le.mpr hx
    simp only [Prim.fam, Cgpm.lognormal, if_neg hx', WithBot.coe_inj]
    simp only [normalPredictive, normalMarginal]; push_cast; ring
  case vonmises f =>
    have hx' : 0 ≤ x ∧ x ≤ 2 * Real.pi := hx
    simp only [Prim.fam, Cgpm.vonmises, if_pos hx', WithBot.coe_inj]
    simp only [vonmisesPredictive, vonmisesMarginal]; push_cast; ring
  case normalTrunc a b z q =>
    have hx' : a ≤ x ∧ x ≤ b := hx
    simp only [Prim.fam, Cgpm.normalTrunc, if_pos hx', WithBot.coe_inj]
    simp only [normLogpdf, normalTruncLoglik]; push_cast; ring
  case beta q =>
    have hx' : 0 < x ∧ x < 1 := hx
    simp only [Prim.fam, Cgpm.beta, if_pos hx', WithBot.coe_inj]
    simp only [betaPredictive, betaLoglik]; push_cast; ring

/-- The collapsed primitives: the parameters are integrated out. -/
def Prim.collapsed : Prim → Prop
  | .normalTrunc .. => False
  | .beta _ => False
  | _ => True

theorem Prim.score_zero (p : Prim) (hp : p.collapsed) {h : p.H} (hk : p.fam.hypOk h) :
    p.fam.score h p.fam.zero = 0 := by
  cases p
  case bernoulli => simp [Prim.fam, Cgpm.bernoulli, bernoulliMarginal]
  case categorical k =>
    simp [Prim.fam, Cgpm.categorical, categoricalMarginal]
  case exponential => simp [Prim.fam, Cgpm.exponential, exponentialMarginal]
  case geometric => simp [Prim.fam, Cgpm.geometric, geometricMarginal]
  case poisson => simp [Prim.fam, Cgpm.poisson, poissonMarginal]
  case normal =>
    obtain ⟨m, r, s, nu⟩ := h
    have hr : r ≠ 0 := ne_of_gt hk.1
    have e : s + 0 + r * m * m - (r + ((0:ℤ):ℝ)) * ((r * m + 0) / (r + ((0:ℤ):ℝ)))
        * ((r * m + 0) / (r + ((0:ℤ):ℝ))) = s := by
      simp only [Int.cast_zero, add_zero]; rw [mul_div_cancel_left₀ m hr]; ring
    simp only [Prim.fam, Cgpm.normal, normalMarginal, normalPosterior, e]
    simp
  case lognormal =>
    obtain ⟨m, r, s, nu⟩ := h
    have hr : r ≠ 0 := ne_of_gt hk.1
    have e : s + 0 + r * m * m - (r + ((0:ℤ):ℝ)) * ((r * m + 0) / (r + ((0:ℤ):ℝ)))
        * ((r * m + 0) / (r + ((0:ℤ):ℝ))) = s := by
      simp only [Int.cast_zero, add_zero]; rw [mul_div_cancel_left₀ m hr]; ring
    simp only [Prim.fam, Cgpm.lognormal, normalMarginal, normalPosterior, e]
    simp
  case vonmises f =>
    obtain ⟨a, b, k⟩ := h
    have ha : 0 < a := hk.1
    have e : (k * 0 + a * Real.cos b) ^ 2 + (k * 0 + a * Real.sin b) ^ 2 = a ^ 2 := by
      have := Real.cos_sq_add_sin_sq b
      linear_combination a ^ 2 * this
    simp only [Prim.fam, Cgpm.vonmises, vonmisesMarginal, vonmisesAn, e, Real.sqrt_sq ha.le]
    simp
  case normalTrunc => exact hp.elim
  case beta => exact hp.elim

end Cgpm
