import Verif.Lemmas.PrimSimulate
import Mathlib.MeasureTheory.Integral.IntervalIntegral.Periodic

/-! Laws of finite choices, of the von Mises draws and of rejection sampling. -/
namespace Cgpm
open Classical MeasureTheory ProbabilityTheory
open scoped ENNReal

/-! ### finite choices -/

namespace Draws
variable {α β : Type}

theorem ofRand_bind (m : Rand α) (f : α → Rand β) :
    ofRand (m.bind f) = (ofRand m).bind fun a => ofRand (f a) := by
  induction m with
  | pure a => rfl
  | raise e => rfl
  | choice p k ih => simp only [Rand.bind, ofRand, bind, ih]
  | normal m s k ih => simp only [Rand.bind, ofRand, bind, ih]

theorem E_choice {ι : Type} (l : List ι) (q : ι → ℝ) (k : Nat → Draws α) (F : ι → ℝ≥0∞)
    (g : α → ℝ≥0∞) (h : ∀ i (hi : i < l.length), (k i).E g = F l[i]) :
    (Draws.draw (npChoice (l.map q)) fun x => k ⌊x⌋₊).E g
      = (l.map fun i => ENNReal.ofReal (q i) * F i).sum := by
  simp only [E, npChoice]
  rw [lintegral_atoms]
  simp only [Nat.floor_natCast]
  rw [tsum_eq_sum (s := Finset.range l.length)]
  · have : ∀ i ∈ Finset.range l.length, ENNReal.ofReal ((l.map q).getD i 0) * (k i).E g
        = (l.map fun i => ENNReal.ofReal (q i) * F i).getD i 0 := by
      intro i hi
      have hi : i < l.length := Finset.mem_range.mp hi
      rw [List.getD_eq_getElem _ _ (by simpa using hi), List.getD_eq_getElem _ _ (by simpa using hi),
        List.getElem_map, List.getElem_map, h i hi]
    rw [Finset.sum_congr rfl this]
    clear this h
    induction l with
    | nil => simp
    | cons a t ih =>
      rw [List.length_cons, Finset.sum_range_succ']
      simp only [List.map_cons, List.getD_cons_succ, List.getD_cons_zero, List.sum_cons]
      rw [ih, add_comm]
  · intro i hi
    rw [Finset.mem_range, not_lt] at hi
    rw [List.getD_eq_default _ _ (by simpa using hi)]
    simp

/-- A weighted choice in log space. -/
theorem E_logPflip {ι : Type} {l : List ι} {a : ι → Fl} {p : ι → ℝ} (f : ι → α)
    (hp : ∀ i ∈ l, 0 ≤ p i) (ha : ∀ i ∈ l, Spec.Knn.IsLog (a i) (p i) ∧ a i ≠ .pinf)
    (hs : 0 < (l.map p).sum) (g : α → ℝ≥0∞) :
    (ofRand (Rand.logPflip (l.map a) (l.map f))).E g
      = (l.map fun i => ENNReal.ofReal (p i / (l.map p).sum) * g (f i)).sum := by
  obtain ⟨s, h1, h2, h3⟩ := Rand.isLog_logsumexp l hp ha
  have hfin : s = .fin (Real.log (l.map p).sum) := by
    have hlog := (Knn.isLog_logOf hs.le)
    have : s = Knn.logOf (l.map p).sum := Fl.mass_inj h2.1 hlog.1.1 (h2.2.trans hlog.1.2.symm)
    rw [this, Knn.logOf, if_pos hs]
  have hn : logNormalize (l.map a) = .ok (l.map fun i => (a i).sub (.fin (Real.log (l.map p).sum))) := by
    unfold logNormalize
    rw [h1, hfin]
    simp [Except.map, List.map_map, Function.comp_def]
  have he : (l.map fun i => (a i).sub (.fin (Real.log (l.map p).sum))).map Fl.exp
      = (l.map fun i => p i / (l.map p).sum).map Fl.fin := by
    rw [List.map_map, List.map_map]
    exact List.map_congr_left fun i hi => Rand.exp_sub_log (ha i hi).1 (ha i hi).2 (hp i hi) hs
  have hsum : (l.map fun i => p i / (l.map p).sum).sum = 1 := by
    simp only [div_eq_mul_inv]
    rw [List.sum_map_mul_right, mul_inv_cancel₀ hs.ne']
  unfold Rand.logPflip
  rw [hn]
  simp only
  split
  · rename_i x b t e1 e2
    match l, e1, e2 with
    | [i], _, e2 =>
      simp only [List.map_cons, List.map_nil, List.cons.injEq] at e2
      obtain ⟨rfl, rfl⟩ := e2
      simp only [List.map_cons, List.map_nil, List.sum_cons, List.sum_nil, add_zero] at hs ⊢
      rw [div_self hs.ne', ENNReal.ofReal_one, one_mul]
      rfl
  · rw [he, Rand.flReals_fin]
    simp only
    rw [if_neg (by rw [hsum]; simp), hsum]
    simp only [div_one, List.map_id']
    have h0 : ∀ x ∈ l.map fun i => p i / (l.map p).sum, 0 ≤ x := by
      intro x hx
      obtain ⟨i, hi, rfl⟩ := List.mem_map.mp hx
      exact div_nonneg (hp i hi) hs.le
    unfold Rand.draw
    rw [if_pos ⟨h0, hsum⟩]
    exact E_choice l (fun i => p i / (l.map p).sum)
      (fun i => ofRand (match (l.map f)[i]? with
        | some a => Rand.pure a
        | none => Rand.raise .indexError)) (fun i => g (f i)) g (by
          intro i hi
          rw [List.getElem?_eq_getElem (by simpa using hi), List.getElem_map]
          rfl)

/-- `pflip`. -/
theorem E_pflip {ι : Type} {l : List ι} {p : ι → ℝ} (hp : ∀ i ∈ l, 0 ≤ p i)
    (hs : 0 < (l.map p).sum) (g : ℕ → ℝ≥0∞) :
    (ofRand (Rand.pflip (l.map p))).E g
      = ∑ i ∈ Finset.range l.length, ENNReal.ofReal ((l.map p).getD i 0 / (l.map p).sum) * g i := by
  unfold Rand.pflip
  by_cases h1 : (l.map p).length = 1
  · rw [if_pos h1]
    match l, h1 with
    | [i], _ =>
      simp only [List.map_cons, List.map_nil, List.sum_cons, List.sum_nil, add_zero] at hs ⊢
      simp [div_self hs.ne', ofRand, E]
  · rw [if_neg h1, if_neg hs.ne']
    have hsum : ((l.map p).map fun x => x / (l.map p).sum).sum = 1 := by
      simp only [div_eq_mul_inv]
      rw [List.sum_map_mul_right, List.map_id', mul_inv_cancel₀ hs.ne']
    have h0 : ∀ x ∈ (l.map p).map fun x => x / (l.map p).sum, 0 ≤ x := by
      intro x hx
      obtain ⟨y, hy, rfl⟩ := List.mem_map.mp hx
      obtain ⟨i, hi, rfl⟩ := List.mem_map.mp hy
      exact div_nonneg (hp i hi) hs.le
    unfold Rand.draw
    rw [if_pos ⟨h0, hsum⟩]
    simp only [ofRand, E, npChoice]
    rw [lintegral_atoms]
    simp only [Nat.floor_natCast]
    rw [tsum_eq_sum (s := Finset.range l.length)]
    · refine Finset.sum_congr rfl fun i hi => ?_
      have hi : i < l.length := Finset.mem_range.mp hi
      rw [List.getD_eq_getElem _ _ (by simpa using hi), List.getD_eq_getElem _ _ (by simpa using hi),
        List.getElem_map]
    · intro i hi
      rw [Finset.mem_range, not_lt] at hi
      rw [List.getD_eq_default _ _ (by simpa using hi)]
      simp

end Draws

/-! ### von Mises -/

/-- The normaliser of the von Mises density. -/
noncomputable def vmI (z : ℝ) : ℝ := ∫ t in (-Real.pi)..Real.pi, Real.exp (z * Real.cos t)

theorem vmI_pos (z : ℝ) : 0 < vmI z := by
  refine intervalIntegral.intervalIntegral_pos_of_pos ?_ (fun x => Real.exp_pos _) ?_
  · exact Continuous.intervalIntegrable (by fun_prop) _ _
  · linarith [Real.pi_pos]

/-- Over a whole turn the phase does not matter. -/
theorem vmI_shift (z c : ℝ) :
    ∫ t in (-Real.pi)..Real.pi, Real.exp (z * Real.cos (t + c)) = vmI z := by
  rw [intervalIntegral.integral_comp_add_right (fun t => Real.exp (z * Real.cos t))]
  have hper : Function.Periodic (fun t => Real.exp (z * Real.cos t)) (2 * Real.pi) := fun t => by
    simp only [Real.cos_add_two_pi]
  have := hper.intervalIntegral_add_eq (-Real.pi + c) (-Real.pi)
  rw [show -Real.pi + c + 2 * Real.pi = Real.pi + c by ring,
    show -Real.pi + 2 * Real.pi = Real.pi by ring] at this
  exact this

/-- The density of `npVonmises` on the line. -/
noncomputable def vmPDF (mu kappa x : ℝ) : ℝ≥0∞ :=
  if x ∈ Set.Ioc (-Real.pi) Real.pi then
    ENNReal.ofReal (Real.exp (kappa * Real.cos (x - mu)) / vmI kappa) else 0

theorem measurable_vmPDF_uncurry (kappa : ℝ) :
    Measurable (Function.uncurry fun mu x => vmPDF mu kappa x) := by
  refine Measurable.ite (measurableSet_Ioc.preimage measurable_snd) ?_ measurable_const
  exact Measurable.ennreal_ofReal (by fun_prop)

theorem measurable_vmPDF (mu kappa : ℝ) : Measurable (vmPDF mu kappa) :=
  (measurable_vmPDF_uncurry kappa).comp (measurable_const.prodMk measurable_id)

theorem lintegral_vm (mu kappa : ℝ) (F : ℝ → ℝ≥0∞) :
    ∫⁻ x, F x ∂npVonmises mu kappa = ∫⁻ x, vmPDF mu kappa x * F x := by
  unfold npVonmises
  rw [lintegral_withDensity_eq_lintegral_mul_non_measurable _
    (Measurable.ennreal_ofReal (by fun_prop))
    (Filter.Eventually.of_forall fun _ => ENNReal.ofReal_lt_top),
    ← lintegral_indicator measurableSet_Ioc]
  refine lintegral_congr fun x => ?_
  unfold vmPDF
  split
  · rename_i h
    rw [Set.indicator_of_mem h]
    rfl
  · rename_i h
    rw [Set.indicator_of_notMem h, zero_mul]

/-- Two waves add up to one. -/
theorem wave (P Q m : ℝ) :
    P * Real.cos m + Q * Real.sin m
      = Real.sqrt (P ^ 2 + Q ^ 2) * Real.cos (m - Complex.arg ⟨P, Q⟩) := by
  have h1 := Complex.norm_mul_cos_arg ⟨P, Q⟩
  have h2 := Complex.norm_mul_sin_arg ⟨P, Q⟩
  have h3 := Complex.norm_eq_sqrt_sq_add_sq ⟨P, Q⟩
  simp only at h1 h2 h3
  rw [← h3, Real.cos_sub]
  linear_combination (-Real.cos m) * h1 - Real.sin m * h2

theorem vonmises_posterior (ss sc a b k : ℝ) (m : ℝ) :
    vonmisesAn ss sc a b k * Real.cos (m - vonmisesBn ss sc a b k)
      = (k * sc + a * Real.cos b) * Real.cos m + (k * ss + a * Real.sin b) * Real.sin m := by
  unfold vonmisesAn vonmisesBn atan2
  simp only
  set P := k * sc + a * Real.cos b
  set Q := k * ss + a * Real.sin b
  have h1 := Complex.norm_mul_cos_arg ⟨Q, P⟩
  have h2 := Complex.norm_mul_sin_arg ⟨Q, P⟩
  have h3 := Complex.norm_eq_sqrt_sq_add_sq ⟨Q, P⟩
  simp only at h1 h2 h3
  rw [add_comm (P ^ 2), ← h3, Real.cos_sub, neg_add_eq_sub, Real.cos_pi_div_two_sub,
    Real.sin_pi_div_two_sub]
  linear_combination Real.cos m * h2 + Real.sin m * h1

theorem vonmises_kernel (ss sc a b k : ℝ) {x : ℝ} (hx : x ∈ Set.Ioc (-Real.pi) Real.pi) :
    ∫⁻ m, vmPDF (vonmisesBn ss sc a b k - Real.pi) (vonmisesAn ss sc a b k) m * vmPDF m k x
      = ENNReal.ofReal (vmI (vonmisesAn (ss + Real.sin (x + Real.pi)) (sc + Real.cos (x + Real.pi)) a b k)
          / (vmI (vonmisesAn ss sc a b k) * vmI k)) := by
  set an := vonmisesAn ss sc a b k with han
  set bn := vonmisesBn ss sc a b k with hbn
  set P := k * (sc + Real.cos (x + Real.pi)) + a * Real.cos b with hP
  set Q := k * (ss + Real.sin (x + Real.pi)) + a * Real.sin b with hQ
  have hf : ∀ m, vmPDF (bn - Real.pi) an m * vmPDF m k x
      = (Set.Ioc (-Real.pi) Real.pi).indicator (fun m => ENNReal.ofReal
        (Real.exp (Real.sqrt (P ^ 2 + Q ^ 2) * Real.cos (m + (Real.pi - Complex.arg ⟨P, Q⟩)))
          / (vmI an * vmI k))) m := by
    intro m
    unfold vmPDF
    rw [if_pos hx]
    by_cases hm : m ∈ Set.Ioc (-Real.pi) Real.pi
    · rw [if_pos hm, Set.indicator_of_mem hm, ← ENNReal.ofReal_mul
        (div_nonneg (Real.exp_pos _).le (vmI_pos _).le), div_mul_div_comm, ← Real.exp_add]
      congr 3
      have h1 := vonmises_posterior ss sc a b k (m + Real.pi)
      rw [← han, ← hbn] at h1
      rw [show m - (bn - Real.pi) = m + Real.pi - bn by ring, h1,
        show m + (Real.pi - Complex.arg ⟨P, Q⟩) = m + Real.pi - Complex.arg ⟨P, Q⟩ by ring, ← wave]
      rw [show x - m = (x + Real.pi) - (m + Real.pi) by ring, Real.cos_sub (x + Real.pi), hP, hQ]
      ring
    · rw [if_neg hm, Set.indicator_of_notMem hm, zero_mul]
  simp only [hf]
  rw [lintegral_indicator measurableSet_Ioc, ← ofReal_integral_eq_lintegral_ofReal]
  · congr 1
    rw [← intervalIntegral.integral_of_le (by linarith [Real.pi_pos]),
      intervalIntegral.integral_div, vmI_shift]
    rfl
  · have : IntervalIntegrable (fun m => Real.exp (Real.sqrt (P ^ 2 + Q ^ 2)
        * Real.cos (m + (Real.pi - Complex.arg ⟨P, Q⟩))) / (vmI an * vmI k)) volume
        (-Real.pi) Real.pi := Continuous.intervalIntegrable (by fun_prop) _ _
    rw [intervalIntegrable_iff_integrableOn_Ioc_of_le (by linarith [Real.pi_pos])] at this
    exact this
  · refine Filter.Eventually.of_forall fun m => ?_
    exact div_nonneg (Real.exp_pos _).le (mul_pos (vmI_pos _) (vmI_pos _)).le

theorem vonmises_E (ss sc a b k : ℝ) {g : ℝ → ℝ≥0∞} (hg : Measurable g) :
    ∫⁻ m, ∫⁻ x, (if 0 ≤ x + Real.pi ∧ x + Real.pi ≤ 2 * Real.pi then g (x + Real.pi) else 0)
        ∂npVonmises (m + Real.pi - Real.pi) k
        ∂npVonmises (vonmisesBn ss sc a b k - Real.pi) (vonmisesAn ss sc a b k)
      = ∫⁻ x, g x * (if 0 ≤ x ∧ x ≤ 2 * Real.pi then
          ENNReal.ofReal (vmI (vonmisesAn (ss + Real.sin x) (sc + Real.cos x) a b k)
          / (vmI (vonmisesAn ss sc a b k) * vmI k)) else 0) := by
  simp only [add_sub_cancel_right]
  simp only [lintegral_vm]
  have hm : Measurable fun x : ℝ =>
      if 0 ≤ x + Real.pi ∧ x + Real.pi ≤ 2 * Real.pi then g (x + Real.pi) else 0 := by
    refine Measurable.ite ?_ (hg.comp (measurable_add_const _)) measurable_const
    exact (measurableSet_le measurable_const (measurable_add_const _)).inter
      (measurableSet_le (measurable_add_const _) measurable_const)
  rw [lintegral_mix (measurable_vmPDF _ _) (measurable_vmPDF_uncurry k) hm]
  conv_rhs => rw [← lintegral_add_right_eq_self _ Real.pi]
  refine lintegral_congr_ae ?_
  filter_upwards [Measure.ae_ne volume (-Real.pi)] with x hx
  by_cases h : 0 ≤ x + Real.pi ∧ x + Real.pi ≤ 2 * Real.pi
  · rw [if_pos h, if_pos h, vonmises_kernel]
    exact ⟨lt_of_le_of_ne (by linarith [h.1]) (Ne.symm hx), by linarith [h.2]⟩
  · rw [if_neg h, if_neg h, zero_mul, mul_zero]

/-! ### rejection sampling -/

theorem trunc_E {l h mu sigma q : ℝ}
    (hq : npNormal mu sigma (Set.Icc l h) = ENNReal.ofReal q) (h0 : 0 ≤ q) (h1 : q ≤ 1)
    (g : ℝ → ℝ≥0∞) {D : ℝ≥0∞}
    (hD : ∫⁻ x in Set.Icc l h, g x ∂npNormal mu sigma = ENNReal.ofReal q * D) (n : ℕ) :
    (truncLoop l h mu sigma n).E g = ENNReal.ofReal (1 - (1 - q) ^ n) * D := by
  induction n with
  | zero => simp [truncLoop, Draws.E]
  | succ n ih =>
    simp only [truncLoop, Draws.E]
    have hp : IsProbabilityMeasure (npNormal mu sigma) := by unfold npNormal; infer_instance
    rw [← lintegral_add_compl _ (measurableSet_Icc (a := l) (b := h))]
    have e1 : ∫⁻ x in Set.Icc l h, (if l ≤ x ∧ x ≤ h then Draws.pure x
        else truncLoop l h mu sigma n).E g ∂npNormal mu sigma = ENNReal.ofReal q * D := by
      rw [← hD]
      refine setLIntegral_congr_fun measurableSet_Icc fun x hx => ?_
      rw [if_pos (Set.mem_Icc.mp hx)]
      rfl
    have e2 : ∫⁻ x in (Set.Icc l h)ᶜ, (if l ≤ x ∧ x ≤ h then Draws.pure x
        else truncLoop l h mu sigma n).E g ∂npNormal mu sigma
        = ENNReal.ofReal (1 - q) * (ENNReal.ofReal (1 - (1 - q) ^ n) * D) := by
      have : ∫⁻ x in (Set.Icc l h)ᶜ, (if l ≤ x ∧ x ≤ h then Draws.pure x
        else truncLoop l h mu sigma n).E g ∂npNormal mu sigma
          = ∫⁻ x in (Set.Icc l h)ᶜ, (truncLoop l h mu sigma n).E g ∂npNormal mu sigma := by
        refine setLIntegral_congr_fun measurableSet_Icc.compl fun x hx => ?_
        rw [if_neg (fun hc => hx (Set.mem_Icc.mpr hc))]
      rw [this, setLIntegral_const, prob_compl_eq_one_sub measurableSet_Icc, hq, ih,
        ENNReal.ofReal_sub _ h0, ENNReal.ofReal_one, mul_comm]
    rw [e1, e2, ← mul_assoc, ← add_mul, ← ENNReal.ofReal_mul (by linarith), ← ENNReal.ofReal_add h0]
    · congr 2
      ring
    · refine mul_nonneg (by linarith) ?_
      have : (1 - q) ^ n ≤ 1 := pow_le_one₀ (by linarith) (by linarith)
      linarith

theorem trunc_fails {l h mu sigma q : ℝ}
    (hq : npNormal mu sigma (Set.Icc l h) = ENNReal.ofReal q) (h0 : 0 ≤ q) (h1 : q ≤ 1) (n : ℕ) :
    (truncLoop l h mu sigma n).fails .runtime = ENNReal.ofReal ((1 - q) ^ n) := by
  induction n with
  | zero => simp [truncLoop, Draws.fails]
  | succ n ih =>
    simp only [truncLoop, Draws.fails]
    have hp : IsProbabilityMeasure (npNormal mu sigma) := by unfold npNormal; infer_instance
    rw [← lintegral_add_compl _ (measurableSet_Icc (a := l) (b := h))]
    have e1 : ∫⁻ x in Set.Icc l h, (if l ≤ x ∧ x ≤ h then Draws.pure x
        else truncLoop l h mu sigma n).fails .runtime ∂npNormal mu sigma = 0 := by
      rw [setLIntegral_congr_fun (g := fun _ => 0) measurableSet_Icc, lintegral_zero]
      intro x hx
      simp only
      rw [if_pos (Set.mem_Icc.mp hx)]
      rfl
    have e2 : ∫⁻ x in (Set.Icc l h)ᶜ, (if l ≤ x ∧ x ≤ h then Draws.pure x
        else truncLoop l h mu sigma n).fails .runtime ∂npNormal mu sigma
        = ENNReal.ofReal (1 - q) * ENNReal.ofReal ((1 - q) ^ n) := by
      have : ∫⁻ x in (Set.Icc l h)ᶜ, (if l ≤ x ∧ x ≤ h then Draws.pure x
        else truncLoop l h mu sigma n).fails .runtime ∂npNormal mu sigma
          = ∫⁻ x in (Set.Icc l h)ᶜ, (truncLoop l h mu sigma n).fails .runtime ∂npNormal mu sigma := by
        refine setLIntegral_congr_fun measurableSet_Icc.compl fun x hx => ?_
        rw [if_neg (fun hc => hx (Set.mem_Icc.mpr hc))]
      rw [this, setLIntegral_const, prob_compl_eq_one_sub measurableSet_Icc, hq, ih,
        ENNReal.ofReal_sub _ h0, ENNReal.ofReal_one, mul_comm]
    rw [e1, e2, zero_add, ← ENNReal.ofReal_mul (by linarith)]
    congr 1
    ring

end Cgpm
