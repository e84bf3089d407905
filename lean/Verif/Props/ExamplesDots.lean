import Verif.Props.ExamplesPair

/-!
C76, continued: `Dots`, `Ring` and `DiamondY` of src/uncorrelated.
-/
namespace Cgpm.Props
open Cgpm MeasureTheory ProbabilityTheory Classical Cgpm.Examples
open scoped ENNReal

theorem randint4_E (g : Nat → ℝ≥0∞) :
    (Draws.ofRand (Rand.uniform 4)).E g = ∑ i ∈ Finset.range 4, 4⁻¹ * g i := by
  have hl := pflip_list (l := List.replicate 4 (1 / ((4 : Nat) : ℝ))) (by
    intro p hp
    rw [List.mem_replicate] at hp
    rw [hp.2]; norm_num) (by simp; norm_num) g
  have hs : (List.replicate 4 (1 / ((4 : Nat) : ℝ))).sum = 1 := by
    rw [List.sum_replicate]; norm_num
  unfold Rand.pflip at hl
  rw [if_neg (by simp), hs, if_neg one_ne_zero] at hl
  simp only [div_one, List.map_id'] at hl
  unfold Rand.uniform
  rw [hl, List.length_replicate]
  refine Finset.sum_congr rfl fun i hi => ?_
  congr 1
  rw [List.getD_eq_getElem _ _ (by simpa using Finset.mem_range.mp hi), List.getElem_replicate, one_div,
    ENNReal.ofReal_inv_of_pos (by norm_num)]
  norm_num

theorem measurable_normalDensity1 (m s : ℝ) : Measurable (normalDensity m s) :=
  measurable_normalDensity2 measurable_const measurable_const measurable_id

theorem two_normals {s : ℝ} (hs : 0 < s) (a b : ℝ) {F : ℝ → ℝ → ℝ≥0∞}
    (hF : Measurable fun z : ℝ × ℝ => F z.1 z.2) :
    ((normalCall a s).bind fun x => (normalCall b s).bind fun y => Draws.pure (x, y)).E
        (fun z => F z.1 z.2)
      = ∫⁻ x, ∫⁻ y, normalDensity a s x * normalDensity b s y * F x y := by
  have h1 : ∀ x, ((normalCall b s).bind fun y => Draws.pure (x, y)).E (fun z => F z.1 z.2)
      = ∫⁻ y, normalDensity b s y * F x y := by
    intro x
    rw [Draws.E_bind]
    exact normalCall_E b hs (hF.comp measurable_prodMk_left)
  rw [Draws.E_bind]
  simp only [h1]
  rw [normalCall_E a hs]
  · refine lintegral_congr fun x => ?_
    rw [← lintegral_const_mul' (normalDensity a s x) _ ENNReal.ofReal_ne_top]
    exact lintegral_congr fun y => by rw [mul_assoc]
  · exact (((measurable_normalDensity1 b s).comp measurable_snd).mul hF).lintegral_prod_right'

theorem quarter_add {u v : Fl} {a b : ℝ≥0∞} (hu : ∃ r, u = .fin r ∧ ENNReal.ofReal (Real.exp r) = a)
    (hv : ∃ r, v = .fin r ∧ ENNReal.ofReal (Real.exp r) = b) :
    (∃ r, ((npLog 0.25).add u).add v = .fin r) ∧ mass (((npLog 0.25).add u).add v) = 4⁻¹ * (a * b) := by
  obtain ⟨r, rfl, rfl⟩ := hu
  obtain ⟨q, rfl, rfl⟩ := hv
  have h5 : npLog 0.25 = .fin (Real.log 0.25) := by
    unfold npLog; rw [if_pos (by norm_num)]
  rw [h5]
  refine ⟨⟨_, rfl⟩, ?_⟩
  show ENNReal.ofReal (Real.exp (Real.log 0.25 + r + q)) = _
  rw [Real.exp_add, Real.exp_add, Real.exp_log (by norm_num), mul_assoc,
    ENNReal.ofReal_mul (by norm_num), ENNReal.ofReal_mul (Real.exp_pos _).le,
    show (0.25 : ℝ) = 4⁻¹ by norm_num, ENNReal.ofReal_inv_of_pos (by norm_num), ENNReal.ofReal_ofNat]

theorem dots_joint_worth {noise : ℝ} (hn : 0 < noise) (x y : ℝ) :
    worth ((dots noise).logpdfJoint x y) = ∑ i ∈ Finset.range 4, 4⁻¹ *
      (normalDensity (dotCentres.getD i (0, 0)).1 noise x
        * normalDensity (dotCentres.getD i (0, 0)).2 noise y) := by
  have hb := fun c : ℝ × ℝ => quarter_add (norm_mass x c.1 hn) (norm_mass y c.2 hn)
  obtain ⟨q, hq, -, hq'⟩ := logsumexp_finite (l := dotCentres.map fun c =>
      ((npLog 0.25).add (scipyNormLogpdf x c.1 noise)).add (scipyNormLogpdf y c.2 noise)) (by
    intro a ha
    obtain ⟨c, -, rfl⟩ := List.mem_map.mp ha
    exact .inr (hb c).1)
  show worth (logsumexp _) = _
  rw [hq]
  show mass q = _
  rw [hq', total, List.map_map]
  have e : (mass ∘ fun c : ℝ × ℝ =>
      ((npLog 0.25).add (scipyNormLogpdf x c.1 noise)).add (scipyNormLogpdf y c.2 noise))
      = fun c => 4⁻¹ * (normalDensity c.1 noise x * normalDensity c.2 noise y) := by
    funext c
    exact (hb c).2
  rw [e]
  simp [dotCentres, Finset.sum_range_succ]
  ring

theorem dots_joint_product {noise : ℝ} (hn : 0 < noise) (x y : ℝ) :
    worth ((dots noise).logpdfJoint x y) = dotDensity noise x * dotDensity noise y := by
  rw [dots_joint_worth hn]
  unfold dotDensity
  have h4 : (4⁻¹ : ℝ≥0∞) = 2⁻¹ * 2⁻¹ := by
    rw [← ENNReal.mul_inv (by simp) (by simp)]; norm_num
  simp [dotCentres, Finset.sum_range_succ, div_eq_mul_inv, h4]
  ring

theorem dots_marginal {noise : ℝ} (hn : 0 < noise) (z : ℝ) :
    worth (dotsMarginal noise z) = dotDensity noise z ∧ ∃ r, dotsMarginal noise z = .ok (.fin r) := by
  obtain ⟨r, e, w⟩ := norm_mass z 1 hn
  obtain ⟨r', e', w'⟩ := norm_mass z (-1) hn
  obtain ⟨a1, a2⟩ := npLog_half_add (.fin r) (.inr ⟨r, rfl⟩)
  obtain ⟨b1, b2⟩ := npLog_half_add (.fin r') (.inr ⟨r', rfl⟩)
  obtain ⟨q, hq, hf, hq'⟩ := logsumexp_finite (l := [(npLog 0.5).add (.fin r),
    (npLog 0.5).add (.fin r')]) (by
      intro a ha
      simp only [List.mem_cons, List.not_mem_nil, or_false] at ha
      rcases ha with rfl | rfl
      exacts [a1, b1])
  have hd : dotsMarginal noise z = .ok q := by
    unfold dotsMarginal
    simp only [List.map_cons, List.map_nil]
    rw [e, e', hq]
  have hm : mass q = dotDensity noise z := by
    rw [hq', total]
    simp only [List.map_cons, List.map_nil, List.sum_cons, List.sum_nil, add_zero, a2, b2]
    unfold dotDensity
    rw [← ENNReal.add_div, ← w, ← w', add_comm]
    rfl
  refine ⟨by rw [hd]; exact hm, ?_⟩
  rcases hf with rfl | ⟨p, rfl⟩
  · exfalso
    have h0 : dotDensity noise z = 0 := hm.symm
    unfold dotDensity at h0
    rw [← w, ← w'] at h0
    simp [Real.exp_pos] at h0
    exact absurd h0.1 (not_le.mpr (Real.exp_pos _))
  · exact ⟨p, hd⟩

theorem lintegral_dotDensity {noise : ℝ} (hn : 0 < noise) : ∫⁻ y, dotDensity noise y = 1 := by
  unfold dotDensity
  simp only [div_eq_mul_inv]
  rw [lintegral_mul_const' _ _ (by simp), lintegral_add_left (measurable_normalDensity1 _ _),
    lintegral_normalDensity _ hn, lintegral_normalDensity _ hn, one_add_one_eq_two]
  exact ENNReal.mul_inv_cancel (by simp) (by simp)

theorem mix_range {A : Nat → ℝ → ℝ → ℝ≥0∞} {F : ℝ → ℝ → ℝ≥0∞} {w : ℝ≥0∞} (hw : w ≠ ⊤)
    (hA : ∀ i, Measurable fun z : ℝ × ℝ => A i z.1 z.2) (hF : Measurable fun z : ℝ × ℝ => F z.1 z.2)
    {n : Nat} :
    ∑ i ∈ Finset.range n, w * (∫⁻ x, ∫⁻ y, A i x y * F x y)
      = ∫⁻ x, ∫⁻ y, (∑ i ∈ Finset.range n, w * A i x y) * F x y := by
  have hm : ∀ i, Measurable fun z : ℝ × ℝ => w * A i z.1 z.2 * F z.1 z.2 := fun i =>
    ((hA i).const_mul _).mul hF
  have e1 : ∀ x, ∫⁻ y, (∑ i ∈ Finset.range n, w * A i x y) * F x y
      = ∑ i ∈ Finset.range n, ∫⁻ y, w * A i x y * F x y := by
    intro x
    simp only [Finset.sum_mul]
    exact lintegral_finsetSum _ fun i _ => (hm i).comp measurable_prodMk_left
  simp only [e1]
  rw [lintegral_finsetSum _ fun i _ => (hm i).lintegral_prod_right']
  refine Finset.sum_congr rfl fun i _ => ?_
  rw [← lintegral_const_mul' _ _ hw]
  refine lintegral_congr fun x => ?_
  rw [← lintegral_const_mul' _ _ hw]
  exact lintegral_congr fun y => by rw [mul_assoc]

theorem dotsJoint_E {noise : ℝ} (hn : 0 < noise) {F : ℝ → ℝ → ℝ≥0∞}
    (hF : Measurable fun z : ℝ × ℝ => F z.1 z.2) :
    (dotsJoint noise).E (fun z => F z.1 z.2)
      = ∫⁻ x, ∫⁻ y, dotDensity noise x * dotDensity noise y * F x y := by
  unfold dotsJoint
  rw [Draws.E_bind, randint4_E]
  simp only [← dots_joint_product hn, dots_joint_worth hn]
  rw [← mix_range (A := fun i x y => normalDensity (dotCentres.getD i (0, 0)).1 noise x
    * normalDensity (dotCentres.getD i (0, 0)).2 noise y) (w := 4⁻¹) (by simp) (fun i => ?_) hF]
  · exact Finset.sum_congr rfl fun i _ => by rw [two_normals hn _ _ hF]
  · exact ((measurable_normalDensity1 _ _).comp measurable_fst).mul
      ((measurable_normalDensity1 _ _).comp measurable_snd)

/-- **C76.** `Dots` draws pairs from the density it reports, in which the two variables are independent;
and it draws one variable, given the other, from the density of that variable. -/
theorem C76_dots {noise : ℝ} (hn : 0 < noise) {o0 o1 : Nat} (ho : o0 ≠ o1) :
    (∀ x y, worth ((dots noise).logpdf [(o0, x), (o1, y)] [] [])
      = worth ((dots noise).logpdfMarginal x) * worth ((dots noise).logpdfMarginal y)) ∧
    (∀ x, worth ((dots noise).logpdfMarginal x) = dotDensity noise x) ∧
    (∀ G : Dict Nat ℝ → ℝ≥0∞, Measurable (fun z : ℝ × ℝ => G [(o0, z.1), (o1, z.2)]) →
      ((dots noise).simulate o0 o1 [o0, o1] [] []).E G
        = ∫⁻ x, ∫⁻ y, worth ((dots noise).logpdf [(o0, x), (o1, y)] [] []) * G [(o0, x), (o1, y)]) ∧
    ∀ (t c : Nat) (z : ℝ) (G : Dict Nat ℝ → ℝ≥0∞), Measurable (fun w => G [(t, w)]) →
      ((dots noise).simulate o0 o1 [t] [(c, z)] []).E G = ∫⁻ w, dotDensity noise w * G [(t, w)] := by
  refine ⟨fun x y => ?_, fun x => (dots_marginal hn x).1, fun G hG => ?_, fun t c z G hG => ?_⟩
  · rw [joint_log, dots_joint_product hn]
    exact (congrArg₂ _ (dots_marginal hn x).1 (dots_marginal hn y).1).symm
  · rw [joint_E _ ho]
    simp only [joint_log, dots_joint_product hn]
    exact dotsJoint_E hn (F := fun x y => G [(o0, x), (o1, y)]) hG
  · rw [cond_E]
    show ((dotsJoint noise).bind fun s => .pure s.1).E _ = _
    rw [Draws.E_bind]
    refine (dotsJoint_E hn (F := fun x _ => G [(t, x)]) (hG.comp measurable_fst)).trans ?_
    refine lintegral_congr fun x => ?_
    have : ∀ y, dotDensity noise x * dotDensity noise y * G [(t, x)]
        = dotDensity noise y * (dotDensity noise x * G [(t, x)]) := fun y => by ring
    simp only [this]
    rw [lintegral_mul_const, lintegral_dotDensity hn, one_mul]
    exact ((measurable_normalDensity1 _ _).add (measurable_normalDensity1 _ _)).div_const _

/-- **C76, false of the code.** The density that `Dots.logpdf` reports for one variable given the other is
the density of the given value: the same for every value of the target, so its integral is infinite. -/
theorem C76_dots_violated {noise : ℝ} (hn : 0 < noise) (t c : Nat) (z : ℝ) :
    (∀ w v, (dots noise).logpdf [(t, w)] [(c, z)] [] = (dots noise).logpdf [(t, v)] [(c, z)] []) ∧
    (∀ w, worth ((dots noise).logpdf [(t, w)] [(c, z)] []) = dotDensity noise z) ∧
    (∫⁻ w, worth ((dots noise).logpdf [(t, w)] [(c, z)] [])) = ⊤ := by
  have h : ∀ w, (dots noise).logpdf [(t, w)] [(c, z)] [] = dotsMarginal noise z := fun w => cond_log _ _ _ _ _
  refine ⟨fun w v => by rw [h, h], fun w => by rw [h]; exact (dots_marginal hn z).1, ?_⟩
  simp only [h]
  obtain ⟨r, hr⟩ := (dots_marginal hn z).2
  rw [lintegral_const, Real.volume_univ, hr]
  exact ENNReal.mul_top (by simp [worth, mass, Real.exp_pos])

theorem uniform_range (low high : ℝ) : ∀ᵐ x ∂Sampler.npUniform low high, low ≤ x ∧ x < high := by
  unfold Sampler.npUniform
  exact Measure.ae_smul_measure (ae_restrict_mem measurableSet_Ico) _

theorem uniform_ne (low high c : ℝ) : ∀ᵐ x ∂Sampler.npUniform low high, x ≠ c := by
  unfold Sampler.npUniform
  refine Measure.ae_smul_measure (ae_restrict_of_ae ?_) _
  exact Measure.ae_ne volume c

/-- **C76.** `Ring` draws points between the circles of radius `1 - noise` and 1, and does not fail. -/
theorem C76_ring {noise : ℝ} (h1 : noise ≤ 1) {o0 o1 : Nat} (ho : o0 ≠ o1) :
    Sampler.Surely (fun _ => False)
      (fun d => ∃ x y, d = [(o0, x), (o1, y)] ∧ 1 - noise ≤ Real.sqrt (x ^ 2 + y ^ 2) ∧
        Real.sqrt (x ^ 2 + y ^ 2) < 1)
      ((ring noise).simulate o0 o1 [o0, o1] [] []) := by
  unfold Joint.simulate
  rw [if_neg (by simp), if_pos (by simp)]
  refine Sampler.Surely.bind (P := fun s : ℝ × ℝ => 1 - noise ≤ Real.sqrt (s.1 ^ 2 + s.2 ^ 2) ∧
    Real.sqrt (s.1 ^ 2 + s.2 ^ 2) < 1) (fun s hs => ?_) ?_
  · rw [if_pos (by simp)]
    exact ⟨s.1, s.2, by simp [Ne.symm ho], hs⟩
  · refine Filter.Eventually.of_forall fun a => ?_
    refine Filter.Eventually.mono (uniform_range (1 - noise) 1) fun r hr => ?_
    show 1 - noise ≤ Real.sqrt ((Real.cos a * r) ^ 2 + (Real.sin a * r) ^ 2) ∧ _
    have e : (Real.cos a * r) ^ 2 + (Real.sin a * r) ^ 2 = r ^ 2 := by
      have := Real.sin_sq_add_cos_sq a
      linear_combination r ^ 2 * this
    rw [e, Real.sqrt_sq (by linarith [hr.1])]
    exact hr

/-- **C76.** `DiamondY` draws, for an input other than zero, points between two diamonds, and does not
fail; for the input zero it always fails. -/
theorem C76_diamond {out inp : Nat} {noise : ℝ} (hn : 0 < noise) (h1 : noise ≤ 1) (x : ℝ) (hx : |x| ≤ 1) :
    (x ≠ 0 → Sampler.Surely (fun _ => False)
      (fun d => ∃ y, d = [(out, y)] ∧ 1 - noise ≤ |x| + |y| ∧ |x| + |y| ≤ 1)
      ((diamondY out inp noise).simulate [out] [] [(inp, x)])) ∧
    (x = 0 → Sampler.Surely (fun e => e = .valueError) (fun _ => False)
      ((diamondY out inp noise).simulate [out] [] [(inp, x)])) := by
  have hs : (diamondY out inp noise).simulate [out] [] [(inp, x)]
      = .draw (Sampler.npUniform 0 1) fun slope =>
        .draw (Sampler.npUniform 0 noise) fun e =>
        if x < 0 ∧ slope < 0.5 then .pure [(out, max (-x - 1) (x + 1 - e))]
        else if x < 0 ∧ 0.5 < slope then .pure [(out, min (x + 1) (-x - 1 + e))]
        else if 0 < x ∧ slope < 0.5 then .pure [(out, min (-x + 1) (x - 1 + e))]
        else if 0 < x ∧ 0.5 < slope then .pure [(out, max (x - 1) (-x + 1 - e))]
        else .raise .valueError := by
    unfold diamondY
    simp only [ne_eq, not_true_eq_false, if_false, keys_one, ask_one]
    rfl
  rw [hs]
  constructor
  · intro h0
    have hb := abs_le.mp hx
    refine Filter.Eventually.mono (uniform_ne 0 1 0.5) fun s hs => ?_
    refine Filter.Eventually.mono (uniform_range 0 noise) fun e he => ?_
    beta_reduce
    have hd : ∀ y, (∃ z, [(out, y)] = [(out, z)] ∧ 1 - noise ≤ |x| + |z| ∧ |x| + |z| ≤ 1)
        ↔ (1 - noise ≤ |x| + |y| ∧ |x| + |y| ≤ 1) := fun y => by simp
    rcases lt_or_gt_of_ne h0 with hx0 | hx0 <;> rcases lt_or_gt_of_ne hs with hs0 | hs0
    · rw [if_pos ⟨hx0, hs0⟩]
      refine (hd _).mpr ?_
      rw [abs_of_neg hx0]
      rcases max_cases (-x - 1) (x + 1 - e) with ⟨h, h'⟩ | ⟨h, h'⟩ <;> rw [h]
      · rw [abs_of_nonpos (by linarith)]
        constructor <;> linarith
      · constructor
        · rcases abs_cases (x + 1 - e) with ⟨k, k'⟩ | ⟨k, k'⟩ <;> rw [k] <;> linarith [he.1, he.2]
        · rcases abs_cases (x + 1 - e) with ⟨k, k'⟩ | ⟨k, k'⟩ <;> rw [k] <;> linarith [he.1, he.2]
    · rw [if_neg (fun h => absurd h.2 (not_lt.mpr hs0.le)), if_pos ⟨hx0, hs0⟩]
      refine (hd _).mpr ?_
      rw [abs_of_neg hx0]
      rcases min_cases (x + 1) (-x - 1 + e) with ⟨h, h'⟩ | ⟨h, h'⟩ <;> rw [h]
      · rw [abs_of_nonneg (by linarith)]
        constructor <;> linarith
      · constructor
        · rcases abs_cases (-x - 1 + e) with ⟨k, k'⟩ | ⟨k, k'⟩ <;> rw [k] <;> linarith [he.1, he.2]
        · rcases abs_cases (-x - 1 + e) with ⟨k, k'⟩ | ⟨k, k'⟩ <;> rw [k] <;> linarith [he.1, he.2]
    · rw [if_neg (fun h => absurd h.1 (not_lt.mpr hx0.le)), if_neg (fun h => absurd h.1 (not_lt.mpr hx0.le)),
        if_pos ⟨hx0, hs0⟩]
      refine (hd _).mpr ?_
      rw [abs_of_pos hx0]
      rcases min_cases (-x + 1) (x - 1 + e) with ⟨h, h'⟩ | ⟨h, h'⟩ <;> rw [h]
      · rw [abs_of_nonneg (by linarith)]
        constructor <;> linarith
      · constructor
        · rcases abs_cases (x - 1 + e) with ⟨k, k'⟩ | ⟨k, k'⟩ <;> rw [k] <;> linarith [he.1, he.2]
        · rcases abs_cases (x - 1 + e) with ⟨k, k'⟩ | ⟨k, k'⟩ <;> rw [k] <;> linarith [he.1, he.2]
    · rw [if_neg (fun h => absurd h.1 (not_lt.mpr hx0.le)), if_neg (fun h => absurd h.1 (not_lt.mpr hx0.le)),
        if_neg (fun h => absurd h.2 (not_lt.mpr hs0.le)), if_pos ⟨hx0, hs0⟩]
      refine (hd _).mpr ?_
      rw [abs_of_pos hx0]
      rcases max_cases (x - 1) (-x + 1 - e) with ⟨h, h'⟩ | ⟨h, h'⟩ <;> rw [h]
      · rw [abs_of_nonpos (by linarith)]
        constructor <;> linarith
      · constructor
        · rcases abs_cases (-x + 1 - e) with ⟨k, k'⟩ | ⟨k, k'⟩ <;> rw [k] <;> linarith [he.1, he.2]
        · rcases abs_cases (-x + 1 - e) with ⟨k, k'⟩ | ⟨k, k'⟩ <;> rw [k] <;> linarith [he.1, he.2]
  · rintro rfl
    refine Filter.Eventually.of_forall fun s => Filter.Eventually.of_forall fun e => ?_
    simp only [lt_irrefl, false_and, if_false]
    rfl

end Cgpm.Props
