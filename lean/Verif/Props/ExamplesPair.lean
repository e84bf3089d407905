import Verif.Props.ExamplesTable
import Verif.Lemmas.MvnLaw
import Verif.Lemmas.FactorQuery

/-!
C76, continued: the models of src/uncorrelated that are pairs of numbers without a direction (`Linear`,
`XCross`, `Dots`, `Ring`), and `DiamondY`.
-/
namespace Cgpm.Props
open Cgpm MeasureTheory ProbabilityTheory Classical Cgpm.Examples Matrix
open Cgpm.Spec.Factor (gauss gauss_pos)
open Cgpm.Factor (mvnLogpdf_posDef)
open scoped ENNReal

theorem one_sub_sq_pos {c : ℝ} (h : |c| < 1) : 0 < 1 - c ^ 2 := by
  have := (sq_lt_one_iff_abs_lt_one c).mpr h
  linarith

theorem covMatrix_posDef {c : ℝ} (h : |c| < 1) : (covMatrix c).PosDef := by
  have h1 := one_sub_sq_pos h
  refine Matrix.PosDef.of_dotProduct_mulVec_pos ?_ fun x hx => ?_
  · ext i j
    fin_cases i <;> fin_cases j <;> simp [covMatrix]
  · have hx' : x 0 ≠ 0 ∨ x 1 ≠ 0 := by
      by_contra hh
      push Not at hh
      exact hx (by ext i; fin_cases i; exacts [hh.1, hh.2])
    simp only [covMatrix, dotProduct, mulVec, Fin.sum_univ_two, Pi.star_apply, star_trivial]
    simp
    rcases hx' with h0 | h0
    · nlinarith [sq_nonneg (c * x 0 + x 1), mul_pos h1 (sq_pos_of_ne_zero h0)]
    · nlinarith [sq_nonneg (x 0 + c * x 1), mul_pos h1 (sq_pos_of_ne_zero h0)]

theorem gauss_covMatrix {c : ℝ} (h : |c| < 1) (x y : ℝ) :
    ENNReal.ofReal (gauss ![x, y] 0 (covMatrix c)) = normalPairDensity c x y := by
  have h1 := one_sub_sq_pos h
  have hd : (covMatrix c).det = 1 - c ^ 2 := by
    simp [covMatrix, det_fin_two]; ring
  unfold gauss normalPairDensity
  rw [hd, Fintype.card_fin, Real.sqrt_mul (by positivity), Real.sqrt_sq (by positivity)]
  congr 3
  rw [inv_def, hd, Ring.inverse_eq_inv', covMatrix, adjugate_fin_two]
  simp [dotProduct, mulVec, Fin.sum_univ_two]
  field_simp
  ring

theorem measurable_normalPairDensity (c : ℝ) :
    Measurable fun z : ℝ × ℝ => normalPairDensity c z.1 z.2 := by
  unfold normalPairDensity
  fun_prop

theorem lintegral_two {F : (Fin 2 → ℝ) → ℝ≥0∞} (hF : Measurable F) :
    ∫⁻ w, F w = ∫⁻ x, ∫⁻ y, F ![x, y] := by
  have hp := (volume_preserving_finTwoArrow ℝ).symm
  rw [← hp.lintegral_comp hF]
  rw [Measure.volume_eq_prod, lintegral_prod (fun a => F (MeasurableEquiv.finTwoArrow.symm a))
    (hF.comp (MeasurableEquiv.measurable _)).aemeasurable]
  rfl

theorem pairCall_E {factor : Root} (hf : factor.Good) {c : ℝ} (h : |c| < 1) {F : ℝ → ℝ → ℝ≥0∞}
    (hF : Measurable fun z : ℝ × ℝ => F z.1 z.2) :
    (pairCall factor c).E (fun s => F s.1 s.2) = ∫⁻ x, ∫⁻ y, normalPairDensity c x y * F x y := by
  have hm : Measurable fun w : Fin 2 → ℝ => F (w 0) (w 1) :=
    hF.comp (f := fun w : Fin 2 → ℝ => (w 0, w 1))
      ((measurable_pi_apply 0).prodMk (measurable_pi_apply 1))
  unfold pairCall
  rw [Draws.E_bind]
  simp only [Draws.E]
  rw [E_npMultivariateNormal hf _ (covMatrix_posDef h) hm, lintegral_two]
  · refine lintegral_congr fun x => lintegral_congr fun y => ?_
    rw [gauss_covMatrix h]
    rfl
  · exact ((gauss_continuous _ _).measurable.ennreal_ofReal).mul hm

theorem mvn_mass {c : ℝ} (h : |c| < 1)
    (loser : (n : Nat) → (Fin n → ℝ) → Matrix (Fin n) (Fin n) ℝ → Fl) (x y : ℝ) :
    ∃ r, mvnLogpdf loser ![x, y] 0 (covMatrix c) = .fin r ∧
      ENNReal.ofReal (Real.exp r) = normalPairDensity c x y := by
  refine ⟨_, mvnLogpdf_posDef loser _ _ (covMatrix_posDef h), ?_⟩
  rw [Real.exp_log (gauss_pos (covMatrix_posDef h)), gauss_covMatrix h]

theorem norm_mass (x m : ℝ) {s : ℝ} (h : 0 < s) :
    ∃ r, scipyNormLogpdf x m s = .fin r ∧ ENNReal.ofReal (Real.exp r) = normalDensity m s x := by
  unfold scipyNormLogpdf
  rw [if_neg (not_le.mpr h)]
  exact ⟨_, rfl, mass_normal h _ rfl⟩

/-- What a pair model draws without constraints. -/
theorem joint_E (m : Joint) {o0 o1 : Nat} (ho : o0 ≠ o1) (G : Dict Nat ℝ → ℝ≥0∞) :
    (m.simulate o0 o1 [o0, o1] [] []).E G
      = m.simulateJoint.E fun s => G [(o0, s.1), (o1, s.2)] := by
  unfold Joint.simulate
  rw [if_neg (by simp), if_pos (by simp), Draws.E_bind]
  simp [Draws.E, Ne.symm ho]

theorem joint_log (m : Joint) (o0 o1 : Nat) (x y : ℝ) :
    m.logpdf [(o0, x), (o1, y)] [] [] = m.logpdfJoint x y := by
  unfold Joint.logpdf
  rw [if_neg (by simp), if_pos (by simp)]
  rfl

theorem cond_E (m : Joint) (o0 o1 t c : Nat) (z : ℝ) (G : Dict Nat ℝ → ℝ≥0∞) :
    (m.simulate o0 o1 [t] [(c, z)] []).E G = (m.simulateConditional z).E fun w => G [(t, w)] := by
  unfold Joint.simulate
  rw [if_neg (by simp), if_neg (by simp)]
  show ((m.simulateConditional z).bind fun w => .pure [(t, w)]).E G = _
  rw [Draws.E_bind]
  rfl

theorem cond_log (m : Joint) (t c : Nat) (w z : ℝ) :
    m.logpdf [(t, w)] [(c, z)] [] = m.logpdfConditional w z := by
  unfold Joint.logpdf
  rw [if_neg (by simp), if_neg (by simp)]
  rfl

/-- **C76, false of the code.** No pair model answers the density of one of its variables: the call
fails, the name of the method is misspelt. -/
theorem C76_marginal_violated (m : Joint) (o : Nat) (x : ℝ) :
    m.logpdf [(o, x)] [] [] = .error .runtime := rfl

theorem abs_one_sub {noise : ℝ} (h0 : 0 < noise) (h2 : noise < 2) : |1 - noise| < 1 := by
  rw [abs_lt]; constructor <;> linarith

/-- The chain rule of the normal pair. -/
theorem normalPairDensity_chain {c : ℝ} (h : |c| < 1) (x y : ℝ) :
    normalPairDensity c x y = normalDensity 0 1 x * normalDensity (c * x) (Real.sqrt (1 - c ^ 2)) y := by
  have h1 := one_sub_sq_pos h
  unfold normalPairDensity normalDensity gaussianPDF gaussianPDFReal
  rw [← ENNReal.ofReal_mul (by positivity), Real.coe_toNNReal _ (by positivity),
    Real.coe_toNNReal _ (by positivity), Real.sq_sqrt h1.le]
  congr 1
  have e : (2 * Real.pi * Real.sqrt (1 - c ^ 2))
      = Real.sqrt (2 * Real.pi * 1 ^ 2) * Real.sqrt (2 * Real.pi * (1 - c ^ 2)) := by
    rw [← Real.sqrt_mul (by positivity), show 2 * Real.pi * 1 ^ 2 * (2 * Real.pi * (1 - c ^ 2))
      = (2 * Real.pi) ^ 2 * (1 - c ^ 2) by ring, Real.sqrt_mul (by positivity),
      Real.sqrt_sq (by positivity)]
  rw [e, mul_mul_mul_comm, ← Real.exp_add, ← mul_inv, div_eq_mul_inv, mul_comm]
  congr 2
  field_simp
  ring

theorem normalPairDensity_comm (c x y : ℝ) : normalPairDensity c x y = normalPairDensity c y x := by
  unfold normalPairDensity
  rw [show x ^ 2 - 2 * c * x * y + y ^ 2 = y ^ 2 - 2 * c * y * x + x ^ 2 by ring]

/-- **C76.** `Linear` draws pairs from the density it reports, draws one variable given the other from
the conditional density it reports, and the density of a pair is that of one times the conditional one of
the other. -/
theorem C76_linear {factor : Root} (hf : factor.Good)
    (loser : (n : Nat) → (Fin n → ℝ) → Matrix (Fin n) (Fin n) ℝ → Fl) {noise : ℝ} (h0 : 0 < noise)
    (h2 : noise < 2) {o0 o1 : Nat} (ho : o0 ≠ o1) :
    (∀ G : Dict Nat ℝ → ℝ≥0∞, Measurable (fun z : ℝ × ℝ => G [(o0, z.1), (o1, z.2)]) →
      ((linear factor loser noise).simulate o0 o1 [o0, o1] [] []).E G
        = ∫⁻ x, ∫⁻ y, worth ((linear factor loser noise).logpdf [(o0, x), (o1, y)] [] [])
            * G [(o0, x), (o1, y)]) ∧
    (∀ (t c : Nat) (z : ℝ) (G : Dict Nat ℝ → ℝ≥0∞), Measurable (fun w => G [(t, w)]) →
      ((linear factor loser noise).simulate o0 o1 [t] [(c, z)] []).E G
        = ∫⁻ w, worth ((linear factor loser noise).logpdf [(t, w)] [(c, z)] []) * G [(t, w)]) ∧
    ∀ x y, worth ((linear factor loser noise).logpdf [(o0, x), (o1, y)] [] []) = normalPairDensity (1 - noise) x y ∧
      worth ((linear factor loser noise).logpdf [(o0, x), (o1, y)] [] [])
        = worth ((linear factor loser noise).logpdfMarginal x)
          * worth ((linear factor loser noise).logpdf [(o1, y)] [(o0, x)] []) ∧
      worth ((linear factor loser noise).logpdf [(o0, x), (o1, y)] [] [])
        = worth ((linear factor loser noise).logpdfMarginal y)
          * worth ((linear factor loser noise).logpdf [(o0, x)] [(o1, y)] []) := by
  have hc := abs_one_sub h0 h2
  have hs : 0 < Real.sqrt (1 - (1 - noise) ^ 2) := Real.sqrt_pos.mpr (one_sub_sq_pos hc)
  have hj : ∀ x y, worth ((linear factor loser noise).logpdf [(o0, x), (o1, y)] [] [])
      = normalPairDensity (1 - noise) x y := by
    intro x y
    rw [joint_log]
    obtain ⟨r, e, w⟩ := mvn_mass hc loser x y
    show mass (mvnLogpdf loser ![x, y] 0 (covMatrix (1 - noise))) = _
    rw [e]
    exact w
  have hk : ∀ t c w z, worth ((linear factor loser noise).logpdf [(t, w)] [(c, z)] [])
      = normalDensity ((1 - noise) * z) (Real.sqrt (1 - (1 - noise) ^ 2)) w := by
    intro t c w z
    rw [cond_log]
    obtain ⟨r, e, v⟩ := norm_mass w ((1 - noise) * z) hs
    show mass (scipyNormLogpdf w ((1 - noise) * z) (Real.sqrt (1 - (1 - noise) ^ 2))) = _
    rw [e]
    exact v
  have hm : ∀ z, worth ((linear factor loser noise).logpdfMarginal z) = normalDensity 0 1 z := by
    intro z
    obtain ⟨r, e, v⟩ := norm_mass z 0 one_pos
    show mass (scipyNormLogpdf z 0 1) = _
    rw [e]
    exact v
  refine ⟨fun G hG => ?_, fun t c z G hG => ?_, fun x y => ⟨hj x y, ?_, ?_⟩⟩
  · rw [joint_E _ ho]
    simp only [hj]
    exact pairCall_E hf hc (F := fun x y => G [(o0, x), (o1, y)]) hG
  · rw [cond_E]
    simp only [hk]
    exact normalCall_E _ hs hG
  · rw [hj, hm, hk, normalPairDensity_chain hc]
  · rw [hj, hm, hk, normalPairDensity_comm, normalPairDensity_chain hc]

theorem mix_half {A B F : ℝ → ℝ → ℝ≥0∞} (hA : Measurable fun z : ℝ × ℝ => A z.1 z.2)
    (hF : Measurable fun z : ℝ × ℝ => F z.1 z.2) :
    2⁻¹ * (∫⁻ x, ∫⁻ y, A x y * F x y) + 2⁻¹ * (∫⁻ x, ∫⁻ y, B x y * F x y)
      = ∫⁻ x, ∫⁻ y, (A x y + B x y) / 2 * F x y := by
  have h : Measurable fun z : ℝ × ℝ => (2⁻¹ : ℝ≥0∞) * (A z.1 z.2 * F z.1 z.2) :=
    (hA.mul hF).const_mul _
  rw [← lintegral_const_mul' _ _ (by simp), ← lintegral_const_mul' _ _ (by simp)]
  simp only [← lintegral_const_mul' (2⁻¹ : ℝ≥0∞) _ (by simp)]
  rw [← lintegral_add_left h.lintegral_prod_right']
  refine lintegral_congr fun x => ?_
  rw [← lintegral_add_left (f := fun y => (2⁻¹ : ℝ≥0∞) * (A x y * F x y))
    (h.comp measurable_prodMk_left)]
  refine lintegral_congr fun y => ?_
  rw [div_eq_mul_inv]
  ring

/-- **C76.** `XCross` draws pairs from the density it reports. -/
theorem C76_xcross {factor : Root} (hf : factor.Good)
    (loser : (n : Nat) → (Fin n → ℝ) → Matrix (Fin n) (Fin n) ℝ → Fl) {noise : ℝ} (h0 : 0 < noise)
    (h2 : noise < 2) {o0 o1 : Nat} (ho : o0 ≠ o1) :
    (∀ x y, worth ((xcross factor loser noise).logpdf [(o0, x), (o1, y)] [] [])
      = (normalPairDensity (1 - noise) x y + normalPairDensity (noise - 1) x y) / 2) ∧
    ∀ G : Dict Nat ℝ → ℝ≥0∞, Measurable (fun z : ℝ × ℝ => G [(o0, z.1), (o1, z.2)]) →
      ((xcross factor loser noise).simulate o0 o1 [o0, o1] [] []).E G
        = ∫⁻ x, ∫⁻ y, worth ((xcross factor loser noise).logpdf [(o0, x), (o1, y)] [] [])
            * G [(o0, x), (o1, y)] := by
  have hc := abs_one_sub h0 h2
  have hc' : |-1 + noise| < 1 := by rw [← abs_neg]; convert hc using 2; ring
  have hj : ∀ x y, worth ((xcross factor loser noise).logpdf [(o0, x), (o1, y)] [] [])
      = (normalPairDensity (1 - noise) x y + normalPairDensity (-1 + noise) x y) / 2 := by
    intro x y
    rw [joint_log]
    obtain ⟨r, e, w⟩ := mvn_mass hc loser x y
    obtain ⟨r', e', w'⟩ := mvn_mass hc' loser x y
    show worth (logsumexp [(npLog 0.5).add (mvnLogpdf loser ![x, y] 0 (covMatrix (1 - noise))),
      (npLog 0.5).add (mvnLogpdf loser ![x, y] 0 (covMatrix (-1 + noise)))]) = _
    rw [e, e']
    obtain ⟨a1, a2⟩ := npLog_half_add (.fin r) (.inr ⟨r, rfl⟩)
    obtain ⟨b1, b2⟩ := npLog_half_add (.fin r') (.inr ⟨r', rfl⟩)
    obtain ⟨q, hq, -, hq'⟩ := logsumexp_finite (l := [(npLog 0.5).add (.fin r),
      (npLog 0.5).add (.fin r')]) (by
        intro a ha
        simp only [List.mem_cons, List.not_mem_nil, or_false] at ha
        rcases ha with rfl | rfl
        exacts [a1, b1])
    rw [hq]
    show mass q = _
    rw [hq', total]
    simp only [List.map_cons, List.map_nil, List.sum_cons, List.sum_nil, add_zero, a2, b2]
    rw [← ENNReal.add_div, ← w, ← w']
    rfl
  refine ⟨fun x y => by rw [hj, neg_add_eq_sub], fun G hG => ?_⟩
  rw [joint_E _ ho]
  show (Draws.draw (Sampler.npUniform 0 1) fun u =>
    if u < 0.5 then pairCall factor (1 - noise) else pairCall factor (-1 + noise)).E _ = _
  have e3 : ∀ u : ℝ, (if u < 0.5 then pairCall factor (1 - noise) else pairCall factor (-1 + noise)).E
        (fun s => G [(o0, s.1), (o1, s.2)])
      = if u < 0.5 then (pairCall factor (1 - noise)).E (fun s => G [(o0, s.1), (o1, s.2)])
        else (pairCall factor (-1 + noise)).E (fun s => G [(o0, s.1), (o1, s.2)]) := by
    intro u
    split <;> rfl
  simp only [Draws.E, e3]
  rw [Sampler.npUniform_unit, Sampler.uniform_choice 0.5 (by norm_num), min_eq_right (by norm_num),
    show (0.5 : ℝ) = 2⁻¹ by norm_num, ENNReal.ofReal_inv_of_pos two_pos, ENNReal.ofReal_ofNat,
    ENNReal.one_sub_inv_two, pairCall_E hf hc (F := fun x y => G [(o0, x), (o1, y)]) hG,
    pairCall_E hf hc' (F := fun x y => G [(o0, x), (o1, y)]) hG]
  simp only [hj]
  exact mix_half (measurable_normalPairDensity _) hG

end Cgpm.Props
