import Verif.Lemmas.Examples
import Verif.Lemmas.PrimSimulateMore

/-!
C76: the models of src/dummy and src/uncorrelated draw from the densities that they report.
-/
namespace Cgpm.Props
open Cgpm MeasureTheory ProbabilityTheory Classical Cgpm.Examples
open scoped ENNReal

theorem ask_one (k : Nat) (x : ℝ) : ask [(k, x)] k = .ok x := by simp [ask, Dict.get?]

theorem ask_fst (k l : Nat) (x : Nat → ℝ) : ask [(k, x k), (l, x l)] k = .ok (x k) := by
  simp [ask, Dict.get?]

theorem ask_snd (k l : Nat) (x : Nat → ℝ) : ask [(k, x k), (l, x l)] l = .ok (x l) := by
  by_cases h : k = l
  · subst h; simp [ask, Dict.get?]
  · simp [ask, Dict.get?, h]

theorem keys_one (k : Nat) (x : ℝ) : Dict.keys [(k, x)] = [k] := rfl

theorem measurable_normalDensity2 {α : Type} [MeasurableSpace α] {m s t : α → ℝ} (hm : Measurable m)
    (hs : Measurable s) (ht : Measurable t) : Measurable fun x => normalDensity (m x) (s x) (t x) := by
  unfold normalDensity gaussianPDF gaussianPDFReal
  refine Measurable.ennreal_ofReal ?_
  have h1 : Measurable fun x => (((s x ^ 2).toNNReal : NNReal) : ℝ) :=
    ((hs.pow_const 2).real_toNNReal).coe_nnreal_real
  fun_prop

/-- **C76.** `TrollNormal` keeps the contract of a component. -/
theorem C76_troll {out i0 i1 : Nat} (h0 : out ≠ i0) (h1 : out ≠ i1) {μ : Nat → Measure ℝ}
    [∀ v, SigmaFinite (μ v)] (hμ : μ out = volume) (rowid : Option Row) :
    Net.Behaves μ rowid (trollNormal out i0 i1).net (trollNormal out i0 i1).draws
      (trollDensity out i0 i1) := by
  have hs : ∀ y : ℝ, 0 < |y| + 1 := fun y => by positivity
  have hup : ∀ (x : Nat → ℝ) (t : ℝ), trollDensity out i0 i1 (Function.update x out t)
      = normalDensity (x i0) (|x i1| + 1) t := by
    intro x t
    unfold trollDensity
    rw [Function.update_self, Function.update_of_ne (Ne.symm h0), Function.update_of_ne (Ne.symm h1)]
  refine behaves_example (e := trollNormal out i0 i1) rfl hμ ?_ ?_ ?_ ?_ ?_ rowid
  · exact measurable_normalDensity2 (measurable_pi_apply i0)
      (((measurable_pi_apply i1).norm).add_const 1) (measurable_pi_apply out)
  · intro x y h
    unfold trollDensity
    rw [h out (.inl rfl), h i0 (.inr (by simp [trollNormal])), h i1 (.inr (by simp [trollNormal]))]
  · intro x
    simp only [hup]
    exact lintegral_normalDensity _ (hs _)
  · intro x
    refine ⟨.fin (trollLogpdf (x out) (x i0) (|x i1| + 1)), ?_, .inr ⟨_, rfl⟩, ?_⟩
    · show (do
        let y ← ask [(out, x out)] out
        let location ← ask [(i0, x i0), (i1, x i1)] i0
        let scale ← ask [(i0, x i0), (i1, x i1)] i1
        Except.ok (Fl.fin (trollLogpdf y location (|scale| + 1)))) = _
      rw [ask_one, ask_fst, ask_snd]
      rfl
    · refine mass_normal (hs _) _ ?_
      unfold trollLogpdf
      have := (hs (x i1)).ne'
      field_simp
      ring
  · intro x G hG
    show ((Draws.ofExcept (ask [(i0, x i0), (i1, x i1)] i0)).bind fun location =>
      (Draws.ofExcept (ask [(i0, x i0), (i1, x i1)] i1)).bind fun scale =>
      (normalCall location (|scale| + 1)).bind fun x => .pure [(out, x)]).E G = _
    rw [ask_fst, ask_snd]
    simp only [Draws.ofExcept, Draws.bind]
    rw [Draws.E_bind]
    simp only [Draws.E]
    rw [normalCall_E _ (hs _) hG]
    exact lintegral_congr fun t => by rw [hup, mul_comm]

/-- **C76.** `UniformX` keeps the contract of a component. -/
theorem C76_uniform {out : Nat} {low high : ℝ} (h : low < high) {μ : Nat → Measure ℝ}
    [∀ v, SigmaFinite (μ v)] (hμ : μ out = volume) (rowid : Option Row) :
    Net.Behaves μ rowid (uniformX out low high).net (uniformX out low high).draws
      (fun x => uniformDensity low high (x out)) := by
  refine behaves_example (e := uniformX out low high) rfl hμ ?_ ?_ ?_ ?_ ?_ rowid
  · exact (measurable_uniformDensity low high).comp (measurable_pi_apply out)
  · intro x y h
    simp only [h out (.inl rfl)]
  · intro x
    simp only [Function.update_self]
    have := lintegral_uniformDensity low high (fun _ => 1) h
    simp only [one_mul, lintegral_one] at this
    rw [this, uniform_prob h]
  · intro x
    obtain ⟨m1, m2⟩ := mass_uniform (loc := low) (sub_pos.mpr h) (x out)
    rw [add_sub_cancel] at m1
    refine ⟨_, ?_, m2, m1⟩
    show (if !(([] : Dict Nat ℝ).isEmpty) then Except.error Exn.assertion
      else if !(([] : Dict Nat ℝ).isEmpty) then Except.error Exn.assertion
      else if Dict.keys [(out, x out)] ≠ [out] then Except.error Exn.assertion
      else do
        let y ← ask [(out, x out)] out
        Except.ok (uniformLogpdf low (high - low) y)) = _
    rw [ask_one]
    simp [keys_one]
    rfl
  · intro x G hG
    show (if !(([] : Dict Nat ℝ).isEmpty) then Draws.raise Exn.assertion
      else if [out] ≠ [out] then .raise .assertion
      else .draw (Sampler.npUniform low high) fun x => .pure [(out, x)]).E G = _
    simp only [List.isEmpty_nil, Bool.not_true, Bool.false_eq_true, if_false, ne_eq, not_true_eq_false,
      Draws.E, Function.update_self]
    exact (lintegral_uniformDensity low high _ h).symm

theorem uniformDensity_shift (low high c x : ℝ) :
    uniformDensity low high (x - c) = uniformDensity (c + low) (c + high) x := by
  unfold uniformDensity
  rw [add_sub_add_left_eq_sub]
  exact if_congr ⟨fun h => ⟨by linarith [h.1], by linarith [h.2]⟩,
    fun h => ⟨by linarith [h.1], by linarith [h.2]⟩⟩ rfl rfl

theorem uniformDensity_flip (low high x : ℝ) :
    uniformDensity low high (-x) = uniformDensity (-high) (-low) x := by
  unfold uniformDensity
  rw [show -low - -high = high - low by ring]
  exact if_congr ⟨fun h => ⟨by linarith [h.2], by linarith [h.1]⟩,
    fun h => ⟨by linarith [h.2], by linarith [h.1]⟩⟩ rfl rfl

theorem npLog_half_add (u : Fl) (hu : u = .ninf ∨ ∃ y, u = .fin y) :
    ((npLog 0.5).add u = .ninf ∨ ∃ y, (npLog 0.5).add u = .fin y) ∧
      mass ((npLog 0.5).add u) = mass u / 2 := by
  have h5 : npLog 0.5 = .fin (Real.log 0.5) := by
    unfold npLog; rw [if_pos (by norm_num)]
  rw [h5]
  rcases hu with rfl | ⟨y, rfl⟩
  · exact ⟨.inl rfl, by simp [Fl.add, mass]⟩
  · refine ⟨.inr ⟨_, rfl⟩, ?_⟩
    show ENNReal.ofReal (Real.exp (Real.log 0.5 + y)) = ENNReal.ofReal (Real.exp y) / 2
    rw [Real.exp_add, Real.exp_log (by norm_num), mul_comm, ENNReal.ofReal_mul (Real.exp_pos _).le,
      div_eq_mul_inv]
    congr 1
    rw [show (0.5 : ℝ) = 2⁻¹ by norm_num, ENNReal.ofReal_inv_of_pos two_pos, ENNReal.ofReal_ofNat]

/-- The floats that are logarithms of finite numbers. -/
theorem logsumexp_finite {l : List Fl} (h : ∀ a ∈ l, a = .ninf ∨ ∃ y, a = .fin y) :
    ∃ r, logsumexp l = .ok r ∧ (r = .ninf ∨ ∃ y, r = .fin y) ∧ mass r = total l := by
  have h1 : Fl.nan ∉ l := fun hm => by rcases h _ hm with e | ⟨y, e⟩ <;> cases e
  have h2 : Fl.pinf ∉ l := fun hm => by rcases h _ hm with e | ⟨y, e⟩ <;> cases e
  obtain ⟨r, e1, e2, e3⟩ := C35_logsumexp l h1 fun hh => h2 hh.1
  refine ⟨r, e1, ?_, e3⟩
  cases r with
  | nan => exact absurd rfl e2
  | ninf => exact .inl rfl
  | fin y => exact .inr ⟨y, rfl⟩
  | pinf =>
    exfalso
    have : total l ≠ ⊤ := by
      clear e1 e3 h1 h2
      unfold total
      induction l with
      | nil => simp
      | cons a t ih =>
        rw [List.map_cons, List.sum_cons]
        refine ENNReal.add_ne_top.mpr ⟨?_, ih fun b hb => h b (List.mem_cons_of_mem _ hb)⟩
        rcases h a List.mem_cons_self with rfl | ⟨y, rfl⟩ <;> simp [mass]
    exact this e3.symm

/-- **C76.** `ParabolaY` keeps the contract of a component. -/
theorem C76_parabola {out inp : Nat} (hio : out ≠ inp) {noise : ℝ} (hn : 0 < noise)
    {μ : Nat → Measure ℝ} [∀ v, SigmaFinite (μ v)] (hμ : μ out = volume) (rowid : Option Row) :
    Net.Behaves μ rowid (parabolaY out inp noise).net (parabolaY out inp noise).draws
      (parabolaDensity out inp noise) := by
  have hup : ∀ (x : Nat → ℝ) (t : ℝ), parabolaDensity out inp noise (Function.update x out t)
      = (uniformDensity (-noise) noise (t - x inp ^ 2)
        + uniformDensity (-noise) noise (-t - x inp ^ 2)) / 2 := by
    intro x t
    unfold parabolaDensity
    rw [Function.update_self, Function.update_of_ne (Ne.symm hio), uniformDensity_shift,
      show -t - x inp ^ 2 = -(t - -(x inp ^ 2)) by ring, uniformDensity_flip, neg_neg,
      uniformDensity_shift]
    rfl
  have hm : ∀ y : ℝ, Measurable fun t => uniformDensity (-noise) noise (t - y ^ 2) := fun y =>
    (measurable_uniformDensity _ _).comp (measurable_id.sub_const _)
  have hsimg : ∀ (y : ℝ) (F : ℝ → ℝ≥0∞), Measurable F →
      ∫⁻ t, F t * ((uniformDensity (-noise) noise (t - y ^ 2)
        + uniformDensity (-noise) noise (-t - y ^ 2)) / 2)
      = ((∫⁻ e, F (y ^ 2 + e) ∂Sampler.npUniform (-noise) noise)
        + ∫⁻ e, F (-(y ^ 2 + e)) ∂Sampler.npUniform (-noise) noise) / 2 := by
    intro y F hF
    have e1 : ∫⁻ t, F t * uniformDensity (-noise) noise (t - y ^ 2)
        = ∫⁻ e, F (y ^ 2 + e) ∂Sampler.npUniform (-noise) noise := by
      rw [← lintegral_uniformDensity _ _ _ (by linarith),
        ← lintegral_add_right_eq_self (fun t => F t * uniformDensity (-noise) noise (t - y ^ 2)) (y ^ 2)]
      exact lintegral_congr fun e => by rw [add_sub_cancel_right, add_comm]
    have e2 : ∫⁻ t, F t * uniformDensity (-noise) noise (-t - y ^ 2)
        = ∫⁻ e, F (-(y ^ 2 + e)) ∂Sampler.npUniform (-noise) noise := by
      rw [← lintegral_uniformDensity _ _ _ (by linarith),
        ← lintegral_sub_left_eq_self (fun t => F t * uniformDensity (-noise) noise (-t - y ^ 2))
          (-(y ^ 2))]
      exact lintegral_congr fun e => by
        rw [show -(-(y ^ 2) - e) - y ^ 2 = e by ring, show -(y ^ 2) - e = -(y ^ 2 + e) by ring]
    rw [← e1, ← e2, ← lintegral_add_left (f := fun t => F t *
      uniformDensity (-noise) noise (t - y ^ 2)) (hF.mul (hm y)), div_eq_mul_inv,
      ← lintegral_mul_const' _ _ (by simp)]
    exact lintegral_congr fun t => by rw [div_eq_mul_inv]; ring
  refine behaves_example (e := parabolaY out inp noise) rfl hμ ?_ ?_ ?_ ?_ ?_ rowid
  · have e : parabolaDensity out inp noise = fun x => (uniformDensity (-noise) noise (x out - x inp ^ 2)
        + uniformDensity (-noise) noise (-x out - x inp ^ 2)) / 2 := by
      funext x
      rw [← hup x (x out), Function.update_eq_self]
    rw [e]
    have h1 : Measurable fun x : Nat → ℝ => x out - x inp ^ 2 :=
      (measurable_pi_apply out).sub ((measurable_pi_apply inp).pow_const 2)
    have h2 : Measurable fun x : Nat → ℝ => -x out - x inp ^ 2 :=
      (measurable_pi_apply out).neg.sub ((measurable_pi_apply inp).pow_const 2)
    exact (((measurable_uniformDensity _ _).comp h1).add
      ((measurable_uniformDensity _ _).comp h2)).div_const 2
  · intro x y h
    unfold parabolaDensity
    rw [h out (.inl rfl), h inp (.inr (by simp [parabolaY]))]
  · intro x
    simp only [hup]
    have := hsimg (x inp) (fun _ => 1) measurable_const
    simp only [one_mul, lintegral_one] at this
    rw [this, uniform_prob (by linarith), one_add_one_eq_two, ENNReal.div_self (by simp) (by simp)]
  · intro x
    have hb : ∀ z, mass ((npLog 0.5).add (uniformLogpdf (-noise) (2 * noise) z))
          = uniformDensity (-noise) noise z / 2 ∧
        ((npLog 0.5).add (uniformLogpdf (-noise) (2 * noise) z) = .ninf ∨
          ∃ r, (npLog 0.5).add (uniformLogpdf (-noise) (2 * noise) z) = .fin r) := by
      intro z
      obtain ⟨m1, m2⟩ := mass_uniform (loc := -noise) (scale := 2 * noise) (by linarith) z
      obtain ⟨a1, a2⟩ := npLog_half_add _ m2
      rw [show -noise + 2 * noise = noise by ring] at m1
      exact ⟨by rw [a2, m1], a1⟩
    obtain ⟨r, r1, r2, r3⟩ := logsumexp_finite
      (l := [(npLog 0.5).add (uniformLogpdf (-noise) (2 * noise) (x out - x inp ^ 2)),
        (npLog 0.5).add (uniformLogpdf (-noise) (2 * noise) (-x out - x inp ^ 2))]) (by
        intro a ha
        simp only [List.mem_cons, List.not_mem_nil, or_false] at ha
        rcases ha with rfl | rfl
        · exact (hb _).2
        · exact (hb _).2)
    refine ⟨r, ?_, r2, ?_⟩
    · show (if Dict.keys [(out, x out)] ≠ [out] then Except.error Exn.assertion
        else if Dict.keys [(inp, x inp)] ≠ [inp] then Except.error Exn.assertion
        else if !(([] : Dict Nat ℝ).isEmpty) then Except.error Exn.assertion
        else do
          let z ← ask [(inp, x inp)] inp
          let y ← ask [(out, x out)] out
          logsumexp [(npLog 0.5).add (uniformLogpdf (-noise) (2 * noise) (y - z ^ 2)),
            (npLog 0.5).add (uniformLogpdf (-noise) (2 * noise) (-y - z ^ 2))]) = _
      rw [ask_one, ask_one, ← r1]
      simp [keys_one]
      rfl
    · rw [r3, ← Function.update_eq_self out x, hup, Function.update_eq_self, total]
      simp only [List.map_cons, List.map_nil, List.sum_cons, List.sum_nil, add_zero, (hb _).1]
      rw [← ENNReal.add_div]
  · intro x G hG
    show (if [out] ≠ [out] then Draws.raise Exn.assertion
      else if Dict.keys [(inp, x inp)] ≠ [inp] then .raise .assertion
      else if !(([] : Dict Nat ℝ).isEmpty) then Draws.raise Exn.assertion
      else (Draws.ofExcept (ask [(inp, x inp)] inp)).bind fun z =>
        .draw (Sampler.npUniform 0 1) fun u =>
        .draw (Sampler.npUniform (-noise) noise) fun e =>
        .pure [(out, if u < 0.5 then z ^ 2 + e else -(z ^ 2 + e))]).E G = _
    rw [ask_one]
    simp only [List.isEmpty_nil, Bool.not_true, Bool.false_eq_true, if_false, ne_eq, not_true_eq_false,
      keys_one, Draws.ofExcept, Draws.bind, Draws.E]
    simp only [hup]
    rw [hsimg (x inp) _ hG, Sampler.npUniform_unit]
    have e3 : ∀ u : ℝ, (∫⁻ e, G [(out, if u < 0.5 then x inp ^ 2 + e else -(x inp ^ 2 + e))]
          ∂Sampler.npUniform (-noise) noise)
        = if u < 0.5 then ∫⁻ e, G [(out, x inp ^ 2 + e)] ∂Sampler.npUniform (-noise) noise
          else ∫⁻ e, G [(out, -(x inp ^ 2 + e))] ∂Sampler.npUniform (-noise) noise := by
      intro u
      split <;> rfl
    simp only [e3]
    rw [Sampler.uniform_choice 0.5 (by norm_num), min_eq_right (by norm_num),
      show (0.5 : ℝ) = 2⁻¹ by norm_num, ENNReal.ofReal_inv_of_pos two_pos, ENNReal.ofReal_ofNat,
      ENNReal.one_sub_inv_two, div_eq_mul_inv, add_mul, mul_comm, mul_comm (2⁻¹ : ℝ≥0∞)]

/-- **C76.** `SinY` keeps the contract of a component. -/
theorem C76_sin {out inp : Nat} (hio : out ≠ inp) {noise : ℝ} (hn : 0 < noise)
    {μ : Nat → Measure ℝ} [∀ v, SigmaFinite (μ v)] (hμ : μ out = volume) (rowid : Option Row) :
    Net.Behaves μ rowid (sinY out inp noise).net (sinY out inp noise).draws
      (sinDensity out inp noise) := by
  have hup : ∀ (x : Nat → ℝ) (t : ℝ), sinDensity out inp noise (Function.update x out t)
      = if Real.cos (x inp) < 0 then uniformDensity 0 noise (t - Real.cos (x inp))
        else uniformDensity 0 noise (Real.cos (x inp) - t) := by
    intro x t
    unfold sinDensity
    rw [Function.update_self, Function.update_of_ne (Ne.symm hio), uniformDensity_shift, add_zero,
      show Real.cos (x inp) - t = -(t - Real.cos (x inp)) by ring, uniformDensity_flip,
      uniformDensity_shift, neg_zero, add_zero]
    rfl
  have hsimg : ∀ (y : ℝ) (F : ℝ → ℝ≥0∞),
      ∫⁻ t, F t * (if y < 0 then uniformDensity 0 noise (t - y) else uniformDensity 0 noise (y - t))
      = ∫⁻ e, F (if y < 0 then y + e else y - e) ∂Sampler.npUniform 0 noise := by
    intro y F
    rw [← lintegral_uniformDensity _ _ _ hn]
    split
    · rw [← lintegral_add_right_eq_self (fun t => F t * uniformDensity 0 noise (t - y)) y]
      exact lintegral_congr fun e => by rw [add_sub_cancel_right, add_comm]
    · rw [← lintegral_sub_left_eq_self (fun t => F t * uniformDensity 0 noise (y - t)) y]
      exact lintegral_congr fun e => by rw [sub_sub_cancel]
  refine behaves_example (e := sinY out inp noise) rfl hμ ?_ ?_ ?_ ?_ ?_ rowid
  · have e : sinDensity out inp noise = fun x => if Real.cos (x inp) < 0
        then uniformDensity 0 noise (x out - Real.cos (x inp))
        else uniformDensity 0 noise (Real.cos (x inp) - x out) := by
      funext x
      rw [← hup x (x out), Function.update_eq_self]
    rw [e]
    have hc : Measurable fun x : Nat → ℝ => Real.cos (x inp) :=
      Real.measurable_cos.comp (measurable_pi_apply inp)
    exact Measurable.ite (measurableSet_lt hc measurable_const)
      ((measurable_uniformDensity _ _).comp ((measurable_pi_apply out).sub hc))
      ((measurable_uniformDensity _ _).comp (hc.sub (measurable_pi_apply out)))
  · intro x y h
    unfold sinDensity
    rw [h out (.inl rfl), h inp (.inr (by simp [sinY]))]
  · intro x
    simp only [hup]
    have := hsimg (Real.cos (x inp)) fun _ => 1
    simp only [one_mul, lintegral_one] at this
    rw [this, uniform_prob hn]
  · intro x
    have hp := hup x (x out)
    rw [Function.update_eq_self] at hp
    rw [hp]
    have hlog : (sinY out inp noise).logpdf [(out, x out)] []
        ((sinY out inp noise).inputs.map fun v => (v, x v))
        = if Real.cos (x inp) < 0 then .ok (uniformLogpdf 0 noise (x out - Real.cos (x inp)))
          else .ok (uniformLogpdf 0 noise (Real.cos (x inp) - x out)) := by
      show (if Dict.keys [(out, x out)] ≠ [out] then Except.error Exn.assertion
        else if Dict.keys [(inp, x inp)] ≠ [inp] then Except.error Exn.assertion
        else if !(([] : Dict Nat ℝ).isEmpty) then Except.error Exn.assertion
        else do
          let z ← ask [(inp, x inp)] inp
          let y ← ask [(out, x out)] out
          if Real.cos z < 0 then Except.ok (uniformLogpdf 0 noise (y - Real.cos z))
          else Except.ok (uniformLogpdf 0 noise (Real.cos z - y))) = _
      rw [ask_one, ask_one]
      simp [keys_one]
      rfl
    rw [hlog]
    split
    · obtain ⟨m1, m2⟩ := mass_uniform (loc := 0) hn (x out - Real.cos (x inp))
      rw [zero_add] at m1
      exact ⟨_, rfl, m2, m1⟩
    · obtain ⟨m1, m2⟩ := mass_uniform (loc := 0) hn (Real.cos (x inp) - x out)
      rw [zero_add] at m1
      exact ⟨_, rfl, m2, m1⟩
  · intro x G hG
    show (if [out] ≠ [out] then Draws.raise Exn.assertion
      else if Dict.keys [(inp, x inp)] ≠ [inp] then .raise .assertion
      else if !(([] : Dict Nat ℝ).isEmpty) then Draws.raise Exn.assertion
      else (Draws.ofExcept (ask [(inp, x inp)] inp)).bind fun z =>
        .draw (Sampler.npUniform 0 noise) fun e =>
        .pure [(out, if Real.cos z < 0 then Real.cos z + e else Real.cos z - e)]).E G = _
    rw [ask_one]
    simp only [List.isEmpty_nil, Bool.not_true, Bool.false_eq_true, if_false, ne_eq, not_true_eq_false,
      keys_one, Draws.ofExcept, Draws.bind, Draws.E]
    simp only [hup]
    exact (hsimg (Real.cos (x inp)) fun t => G [(out, t)]).symm

end Cgpm.Props
