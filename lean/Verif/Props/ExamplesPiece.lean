import Verif.Props.ExamplesTable
import Verif.Lemmas.PrimSimulate

/-!
C76, continued: `PieceWise` of src/dummy.
-/
namespace Cgpm.Props
open Cgpm MeasureTheory ProbabilityTheory Classical Cgpm.Examples
open scoped ENNReal

theorem choice01_E {p q : ℝ} (hp : 0 ≤ p) (hq : 0 ≤ q) (h : p + q = 1) (g : ℝ → ℝ≥0∞) :
    (PieceWise.choice01 [p, q]).E g = ENNReal.ofReal p * g 0 + ENNReal.ofReal q * g 1 := by
  have hl := pflip_list (l := [p, q]) (by simp [hp, hq]) (by simp [h]) fun i => g (i : ℝ)
  have hs : ([p, q] : List ℝ).sum = 1 := by simp [h]
  unfold Rand.pflip at hl
  rw [if_neg (by simp), if_neg (by rw [hs]; norm_num), hs] at hl
  unfold PieceWise.choice01
  rw [Draws.E_bind]
  simpa [Finset.sum_range_succ, Draws.E] using hl

theorem normalDensity_add (c s e : ℝ) : normalDensity c s (c + e) = normalDensity 0 s e := by
  unfold normalDensity gaussianPDF gaussianPDFReal
  simp

theorem normal_shift (c : ℝ) {s : ℝ} (h : 0 < s) {F : ℝ → ℝ≥0∞} (hF : Measurable F) :
    (normalCall 0 s).E (fun e => F (c + e)) = ∫⁻ x, normalDensity c s x * F x := by
  rw [normalCall_E (F := fun e => F (c + e)) 0 h (hF.comp (measurable_const_add c)),
    ← lintegral_add_left_eq_self (fun x => normalDensity c s x * F x) c]
  exact lintegral_congr fun e => by rw [normalDensity_add]

theorem ok_bind {α β : Type} (a : α) (f : α → Except Exn β) :
    ((Except.ok a : Except Exn α) >>= f) = f a := rfl

theorem piece_ask (m : PieceWise) (y : ℝ) : ask [(m.y, y)] m.y = .ok y := ask_one _ _

/-- **C76.** `PieceWise` without constraints draws from the law it stands for: `z` is 0 with probability
`flip` and 1 otherwise, and `x` is normal around `y - 1` or `y + 1`. The answer has exactly the
variables asked for, alone or together. -/
theorem C76_piecewise_simulate (m : PieceWise) (hxz : m.x ≠ m.z) (hs : 0 < m.sigma) (h0 : 0 ≤ m.flip)
    (h1 : m.flip ≤ 1) (y : ℝ) {ts : List Nat} (hne : ts ≠ []) (hnd : ts.Nodup)
    (hts : ∀ t ∈ ts, t = m.x ∨ t = m.z) (C : Dict Nat ℝ) (hC : C = [])
    {g : Option ℝ → Option ℝ → ℝ≥0∞} (hg : ∀ o, Measurable fun a => g (some a) o) :
    (m.simulate ts C [(m.y, y)]).E (fun d => g (d.get? m.x) (d.get? m.z))
      = pieceLaw m.flip m.sigma y fun a b =>
          g (if m.x ∈ ts then some a else none) (if m.z ∈ ts then some b else none) := by
  subst hC
  have hfin : ∀ a b : ℝ, (Dict.keys ((if m.x ∈ ts then [(m.x, a)] else []) ++
      (if m.z ∈ ts then [(m.z, b)] else []))).Perm ts := by
    intro a b
    rw [List.perm_ext_iff_of_nodup _ hnd]
    · intro t
      have h3 := hts t
      by_cases hx : m.x ∈ ts <;> by_cases hz : m.z ∈ ts <;> simp [hx, hz, Dict.keys]
      · exact ⟨fun h => by rcases h with rfl | rfl <;> assumption, h3⟩
      · exact ⟨fun h => h ▸ hx, fun h => (h3 h).resolve_right fun e => hz (e ▸ h)⟩
      · exact ⟨fun h => h ▸ hz, fun h => (h3 h).resolve_left fun e => hx (e ▸ h)⟩
      · exact fun h => by rcases h3 h with e | e; exacts [hx (e ▸ h), hz (e ▸ h)]
    · by_cases hx : m.x ∈ ts <;> by_cases hz : m.z ∈ ts <;> simp [hx, hz, Dict.keys, hxz]
  have hget : ∀ a b : ℝ, (fun d : Dict Nat ℝ => g (d.get? m.x) (d.get? m.z))
      ((if m.x ∈ ts then [(m.x, a)] else []) ++ (if m.z ∈ ts then [(m.z, b)] else []))
      = g (if m.x ∈ ts then some a else none) (if m.z ∈ ts then some b else none) := by
    intro a b
    by_cases hx : m.x ∈ ts <;> by_cases hz : m.z ∈ ts <;>
      simp [hx, hz, Dict.get?, hxz, Ne.symm hxz]
  have hm : ∀ b : ℝ, Measurable fun a =>
      g (if m.x ∈ ts then some a else none) (if m.z ∈ ts then some b else none) := by
    intro b
    by_cases hx : m.x ∈ ts
    · simp only [if_pos hx]; exact hg _
    · simp only [if_neg hx]; exact measurable_const
  unfold PieceWise.simulate
  rw [if_neg (by simp [hne]), if_neg (by simp [keys_one]), piece_ask]
  simp only [Draws.ofExcept, Draws.bind, List.isEmpty_nil, if_true, hfin]
  rw [Draws.E_bind, choice01_E h0 (by linarith) (by ring), Draws.E_bind, Draws.E_bind]
  simp only [Draws.E]
  unfold pieceLaw
  rw [← normal_shift (y - 1) hs (hm 0), ← normal_shift (y + 1) hs (hm 1)]
  congr 2
  · refine congrArg (fun f => Draws.E f (normalCall 0 m.sigma)) (funext fun e => ?_)
    have := hget (y + (2 * 0 - 1) + e) 0
    simp only at this
    rw [this, show y + (2 * 0 - 1) + e = y - 1 + e by ring]
  · refine congrArg (fun f => Draws.E f (normalCall 0 m.sigma)) (funext fun e => ?_)
    have := hget (y + (2 * 1 - 1) + e) 1
    simp only at this
    rw [this, show y + (2 * 1 - 1) + e = y + 1 + e by ring]

/-- **C76.** `PieceWise`: `x` drawn given `z` is normal around `y - 1` or `y + 1`. -/
theorem C76_piecewise_given_z (m : PieceWise) (hs : 0 < m.sigma) (hxz : m.x ≠ m.z) (y z : ℝ)
    {G : Dict Nat ℝ → ℝ≥0∞} (hG : Measurable fun a => G [(m.x, a)]) :
    (m.simulate [m.x] [(m.z, z)] [(m.y, y)]).E G
      = ∫⁻ x, normalDensity (y + (2 * z - 1)) m.sigma x * G [(m.x, x)] := by
  unfold PieceWise.simulate
  rw [if_neg (by simp), if_neg (by simp [keys_one]), piece_ask]
  simp only [Draws.ofExcept, Draws.bind, List.isEmpty_cons, Bool.false_eq_true, if_false, keys_one,
    if_true, ne_eq, not_true_eq_false, ask_one, List.Perm.refl]
  rw [Draws.E_bind]
  simp only [Draws.E]
  exact normal_shift (y + (2 * z - 1)) hs hG

/-- What the code answers for the pair; the value of `x` plays no part. -/
theorem piece_xz (m : PieceWise) (hxz : m.x ≠ m.z) (hs : 0 < m.sigma) (h0 : 0 < m.flip)
    (h1 : m.flip < 1) (y a b : ℝ) :
    ∃ r, m.logpXZ [(m.x, a), (m.z, b)] y = .ok (.fin r) ∧
      ENNReal.ofReal (Real.exp r) = normalDensity (y + (2 * b - 1)) m.sigma b
        * ENNReal.ofReal (if b = 0 then m.flip else 1 - m.flip) := by
  have hz : ask [(m.x, a), (m.z, b)] m.z = .ok b := by simp [ask, Dict.get?, hxz]
  have hp : 0 < (if b = 0 then m.flip else 1 - m.flip) := by split <;> linarith
  have hl : m.logpZ b = .fin (Real.log (if b = 0 then m.flip else 1 - m.flip)) := by
    unfold PieceWise.logpZ npLog
    by_cases hb : b = 0
    · rw [if_pos hb, if_pos hb, if_pos h0]
    · rw [if_neg hb, if_neg hb, if_pos (by linarith)]
  refine ⟨(-Real.log m.sigma - 0.5 * Real.log (2 * Real.pi)
    - 0.5 * (b - (y + (2 * b - 1))) * (b - (y + (2 * b - 1))) / (m.sigma * m.sigma))
    + Real.log (if b = 0 then m.flip else 1 - m.flip), ?_, ?_⟩
  · unfold PieceWise.logpXZ PieceWise.logpdfNormal
    rw [hz, ok_bind, ok_bind, if_neg (not_le.mpr hs), ok_bind, hl]
    rfl
  · rw [Real.exp_add, Real.exp_log hp, ENNReal.ofReal_mul (Real.exp_pos _).le]
    congr 1
    refine mass_normal hs _ ?_
    have := hs.ne'
    field_simp
    ring

theorem piece_x (m : PieceWise) (hxz : m.x ≠ m.z) (hs : 0 < m.sigma) (h0 : 0 < m.flip)
    (h1 : m.flip < 1) (y a : ℝ) :
    ∃ r, m.logpX a y = .ok (.fin r) ∧
      ENNReal.ofReal (Real.exp r) = normalDensity (y - 1) m.sigma 0 * ENNReal.ofReal m.flip
        + normalDensity (y + 1) m.sigma 1 * ENNReal.ofReal (1 - m.flip) := by
  obtain ⟨r0, e0, w0⟩ := piece_xz m hxz hs h0 h1 y a 0
  obtain ⟨r1, e1, w1⟩ := piece_xz m hxz hs h0 h1 y a 1
  obtain ⟨r, hr, h3, h4⟩ := logsumexp_finite (l := [.fin r0, .fin r1]) (by simp)
  have h5 : mass r = ENNReal.ofReal (Real.exp r0) + ENNReal.ofReal (Real.exp r1) := by
    rw [h4]; simp [total, mass]
  rw [w0, w1] at h5
  norm_num at h5
  rw [← sub_eq_add_neg] at h5
  rcases h3 with rfl | ⟨r, rfl⟩
  · exfalso
    have hh : ENNReal.ofReal (Real.exp r0) + ENNReal.ofReal (Real.exp r1) = 0 := by
      rw [show ENNReal.ofReal (Real.exp r0) + ENNReal.ofReal (Real.exp r1)
        = total [.fin r0, .fin r1] by simp [total, mass], ← h4]
      rfl
    have := (add_eq_zero.mp hh).1
    rw [ENNReal.ofReal_eq_zero] at this
    exact absurd this (not_le.mpr (Real.exp_pos _))
  · refine ⟨r, ?_, ?_⟩
    · unfold PieceWise.logpX
      rw [e0, e1]
      exact hr
    · exact h5

theorem lintegral_const_top {c : ℝ≥0∞} (h : c ≠ 0) : ∫⁻ _ : ℝ, c = ⊤ := by
  rw [lintegral_const, Real.volume_univ, ENNReal.mul_top h]

/-- **C76, false of the code.** The density that `PieceWise.logpdf` reports for `x` and `z` together, for
`x` alone, and for `x` given `z`, is the same for every `x`: it reads the value of `z` where it means the
value of `x`. It is the density of nothing, its integral is infinite. -/
theorem C76_piecewise_violated (m : PieceWise) (hxz : m.x ≠ m.z) (hs : 0 < m.sigma) (h0 : 0 < m.flip)
    (h1 : m.flip < 1) (y z : ℝ) :
    (∀ a b, m.logpdf [(m.x, a), (m.z, z)] [] [(m.y, y)] = m.logpdf [(m.x, b), (m.z, z)] [] [(m.y, y)] ∧
      m.logpdf [(m.x, a)] [] [(m.y, y)] = m.logpdf [(m.x, b)] [] [(m.y, y)] ∧
      m.logpdf [(m.x, a)] [(m.z, z)] [(m.y, y)] = m.logpdf [(m.x, b)] [(m.z, z)] [(m.y, y)]) ∧
    (∫⁻ a, worth (m.logpdf [(m.x, a), (m.z, z)] [] [(m.y, y)])) = ⊤ ∧
    (∫⁻ a, worth (m.logpdf [(m.x, a)] [] [(m.y, y)])) = ⊤ ∧
    (∫⁻ a, worth (m.logpdf [(m.x, a)] [(m.z, z)] [(m.y, y)])) = ⊤ := by
  have hc : ∀ a b, m.logpXZ [(m.x, a), (m.z, z)] y = m.logpXZ [(m.x, b), (m.z, z)] y := by
    intro a b
    have hz : ∀ a, ask [(m.x, a), (m.z, z)] m.z = .ok z := fun a => by simp [ask, Dict.get?, hxz]
    unfold PieceWise.logpXZ
    rw [hz, hz]
  have hcx : ∀ a b, m.logpX a y = m.logpX b y := by
    intro a b
    have hz : ∀ a t, ask [(m.x, a), (m.z, t)] m.z = .ok t := fun a t => by
      simp [ask, Dict.get?, hxz]
    unfold PieceWise.logpX PieceWise.logpXZ
    simp only [hz]
  have l1 : ∀ a, m.logpdf [(m.x, a), (m.z, z)] [] [(m.y, y)] = m.logpXZ [(m.x, a), (m.z, z)] y := by
    intro a
    unfold PieceWise.logpdf
    rw [if_neg (by simp), if_neg (by simp [keys_one]), piece_ask]
    rw [ok_bind]
    rw [if_pos (by simp), if_pos (by simp [Dict.has, Dict.get?, hxz])]
  have l2 : ∀ a, m.logpdf [(m.x, a)] [] [(m.y, y)] = m.logpX a y := by
    intro a
    unfold PieceWise.logpdf
    rw [if_neg (by simp), if_neg (by simp [keys_one]), piece_ask]
    rw [ok_bind]
    rw [if_pos (by simp), if_neg (by simp [Dict.has, Dict.get?, hxz]),
      if_neg (by simp [Dict.has, Dict.get?, hxz]), if_pos (by simp [Dict.has, Dict.get?]), ask_one]
    rfl
  have l3 : ∀ a, m.logpdf [(m.x, a)] [(m.z, z)] [(m.y, y)]
      = (m.logpXZ [(m.x, a), (m.z, z)] y).bind fun xz => .ok (xz.sub (m.logpZ z)) := by
    intro a
    unfold PieceWise.logpdf
    rw [if_neg (by simp), if_neg (by simp [keys_one]), piece_ask]
    rw [ok_bind]
    rw [if_neg (by simp), if_pos (by simp [keys_one]), if_neg (by simp [keys_one]), ask_one, ask_one]
    rfl
  refine ⟨fun a b => ⟨by rw [l1, l1, hc a b], by rw [l2, l2, hcx a b], by rw [l3, l3, hc a b]⟩,
    ?_, ?_, ?_⟩
  · obtain ⟨r, e, -⟩ := piece_xz m hxz hs h0 h1 y 0 z
    simp only [l1, hc _ 0, e]
    exact lintegral_const_top (by simp [worth, mass, Real.exp_pos])
  · obtain ⟨r, e, -⟩ := piece_x m hxz hs h0 h1 y 0
    simp only [l2, hcx _ 0, e]
    exact lintegral_const_top (by simp [worth, mass, Real.exp_pos])
  · obtain ⟨r, e, -⟩ := piece_xz m hxz hs h0 h1 y 0 z
    simp only [l3, hc _ 0, e]
    have hl : ∃ q, m.logpZ z = .fin q := by
      unfold PieceWise.logpZ npLog
      by_cases hb : z = 0
      · exact ⟨_, by rw [if_pos hb, if_pos h0]⟩
      · exact ⟨_, by rw [if_neg hb, if_pos (by linarith)]⟩
    obtain ⟨q, hq⟩ := hl
    rw [hq]
    exact lintegral_const_top (by
      show worth (.ok ((Fl.fin r).sub (.fin q))) ≠ 0
      simp [worth, mass, Fl.sub, Fl.add, Fl.neg, Real.exp_pos])

/-- What the code answers for `z` given `x`. -/
theorem piece_zx (m : PieceWise) (hxz : m.x ≠ m.z) (hs : 0 < m.sigma) (h0 : 0 < m.flip)
    (h1 : m.flip < 1) (y a b : ℝ) :
    ∃ r, m.logpdf [(m.z, b)] [(m.x, a)] [(m.y, y)] = .ok (.fin r) ∧
      ENNReal.ofReal (Real.exp r) = normalDensity (y + (2 * b - 1)) m.sigma b
        * ENNReal.ofReal (if b = 0 then m.flip else 1 - m.flip)
        / (normalDensity (y - 1) m.sigma 0 * ENNReal.ofReal m.flip
          + normalDensity (y + 1) m.sigma 1 * ENNReal.ofReal (1 - m.flip)) := by
  obtain ⟨r, e, w⟩ := piece_xz m hxz hs h0 h1 y a b
  obtain ⟨q, f, v⟩ := piece_x m hxz hs h0 h1 y a
  refine ⟨r - q, ?_, ?_⟩
  · unfold PieceWise.logpdf
    rw [if_neg (by simp), if_neg (by simp [keys_one]), piece_ask, ok_bind, if_neg (by simp),
      if_neg (by simp [keys_one, hxz]), if_pos (by simp [keys_one]), if_neg (by simp [keys_one]), ask_one,
      ask_one, ok_bind, ok_bind, e, ok_bind, f, ok_bind]
    rfl
  · rw [Real.exp_sub, ENNReal.ofReal_div_of_pos (Real.exp_pos _), w, v]

/-- `PieceWise`: what `z` drawn given `x` follows, which is `z` given `x = z`. -/
theorem piece_given_x (m : PieceWise) (hxz : m.x ≠ m.z) (hs : 0 < m.sigma) (h0 : 0 < m.flip)
    (h1 : m.flip < 1) (y a : ℝ) (G : Dict Nat ℝ → ℝ≥0∞) :
    (m.simulate [m.z] [(m.x, a)] [(m.y, y)]).E G
      = (normalDensity (y - 1) m.sigma 0 * ENNReal.ofReal m.flip * G [(m.z, 0)]
          + normalDensity (y + 1) m.sigma 1 * ENNReal.ofReal (1 - m.flip) * G [(m.z, 1)])
        / (normalDensity (y - 1) m.sigma 0 * ENNReal.ofReal m.flip
          + normalDensity (y + 1) m.sigma 1 * ENNReal.ofReal (1 - m.flip)) := by
  obtain ⟨r0, e0, w0⟩ := piece_zx m hxz hs h0 h1 y a 0
  obtain ⟨r1, e1, w1⟩ := piece_zx m hxz hs h0 h1 y a 1
  obtain ⟨q, -, v⟩ := piece_x m hxz hs h0 h1 y a
  rw [if_pos rfl, show y + (2 * 0 - 1) = y - 1 by ring] at w0
  rw [if_neg one_ne_zero, show y + (2 * 1 - 1) = y + 1 by ring] at w1
  rw [← v] at w0 w1 ⊢
  have hv : ENNReal.ofReal (Real.exp q) ≠ 0 := by simp [Real.exp_pos]
  have hsum : Real.exp r0 + Real.exp r1 = 1 := by
    rw [← ENNReal.toReal_ofReal (add_nonneg (Real.exp_pos r0).le (Real.exp_pos r1).le),
      ENNReal.ofReal_add (Real.exp_pos _).le (Real.exp_pos _).le, w0, w1, ← ENNReal.add_div, ← v,
      ENNReal.div_self hv ENNReal.ofReal_ne_top]
    rfl
  unfold PieceWise.simulate
  rw [if_neg (by simp), if_neg (by simp [keys_one]), piece_ask]
  simp only [Draws.ofExcept, Draws.bind]
  rw [if_neg (by simp), if_neg (by simp [keys_one, hxz]), if_pos (by simp [keys_one]),
    if_neg (by simp), e0, e1]
  simp only [PieceWise.prob, Draws.ofExcept, Draws.bind]
  rw [Draws.E_bind, choice01_E (Real.exp_pos _).le (Real.exp_pos _).le hsum, w0, w1]
  simp only [keys_one, List.Perm.refl, if_true, Draws.E]
  rw [ENNReal.add_div]
  simp only [div_eq_mul_inv]
  ring

/-- **C76, false of the code.** `PieceWise` asked for `z` given `x` answers without an error and with the
same law for every `x`; no such answer is the law of `z` given `x`. -/
theorem C76_piecewise_z_violated (m : PieceWise) (hxz : m.x ≠ m.z) (hs : 0 < m.sigma) (h0 : 0 < m.flip)
    (h1 : m.flip < 1) (y : ℝ) :
    (∀ a, (m.simulate [m.z] [(m.x, a)] [(m.y, y)]).E (fun _ => 1) = 1) ∧
    (∀ a b G, (m.simulate [m.z] [(m.x, a)] [(m.y, y)]).E G
      = (m.simulate [m.z] [(m.x, b)] [(m.y, y)]).E G) ∧
    ¬ ∀ g : ℝ → ℝ → ℝ≥0∞, (∀ b, Measurable fun a => g a b) →
      pieceLaw m.flip m.sigma y g = pieceLaw m.flip m.sigma y fun a _ =>
        (m.simulate [m.z] [(m.x, a)] [(m.y, y)]).E fun d => g a ((d.get? m.z).getD 0) := by
  obtain ⟨q, -, v⟩ := piece_x m hxz hs h0 h1 y 0
  have hv : ENNReal.ofReal (Real.exp q) ≠ 0 := by simp [Real.exp_pos]
  refine ⟨fun a => ?_, fun a b G => ?_, fun hall => ?_⟩
  · rw [piece_given_x m hxz hs h0 h1, mul_one, mul_one, ← v, ENNReal.div_self hv ENNReal.ofReal_ne_top]
  · rw [piece_given_x m hxz hs h0 h1, piece_given_x m hxz hs h0 h1]
  · set p : ℝ≥0∞ := normalDensity (y - 1) m.sigma 0 * ENNReal.ofReal m.flip
      / (normalDensity (y - 1) m.sigma 0 * ENNReal.ofReal m.flip
          + normalDensity (y + 1) m.sigma 1 * ENNReal.ofReal (1 - m.flip)) with hp
    have hB : ∀ B : Set ℝ, MeasurableSet B →
        ENNReal.ofReal m.flip * npNormal (y - 1) m.sigma B
        = p * (ENNReal.ofReal m.flip * npNormal (y - 1) m.sigma B
          + ENNReal.ofReal (1 - m.flip) * npNormal (y + 1) m.sigma B) := by
      intro B hB
      have hm : Measurable (B.indicator (1 : ℝ → ℝ≥0∞)) := measurable_one.indicator hB
      have hi : ∀ c, ∫⁻ x, normalDensity c m.sigma x * B.indicator (1 : ℝ → ℝ≥0∞) x
          = npNormal c m.sigma B := by
        intro c
        rw [← lintegral_normal c hs hm, lintegral_indicator_one hB]
      have := hall (fun a b => if b = 0 then B.indicator (1 : ℝ → ℝ≥0∞) a else 0) (by
        intro b
        by_cases hb : b = 0
        · simp only [if_pos hb]; exact hm
        · simp only [if_neg hb]; exact measurable_const)
      simp only [piece_given_x m hxz hs h0 h1] at this
      unfold pieceLaw at this
      have hget : ∀ b : ℝ, (Dict.get? [(m.z, b)] m.z).getD 0 = b := fun b => by simp [Dict.get?]
      have hq : ∀ a, (normalDensity (y - 1) m.sigma 0 * ENNReal.ofReal m.flip
            * (if (Dict.get? [(m.z, (0 : ℝ))] m.z).getD 0 = 0 then B.indicator (1 : ℝ → ℝ≥0∞) a else 0)
          + normalDensity (y + 1) m.sigma 1 * ENNReal.ofReal (1 - m.flip)
            * (if (Dict.get? [(m.z, (1 : ℝ))] m.z).getD 0 = 0 then B.indicator (1 : ℝ → ℝ≥0∞) a else 0))
          / (normalDensity (y - 1) m.sigma 0 * ENNReal.ofReal m.flip
            + normalDensity (y + 1) m.sigma 1 * ENNReal.ofReal (1 - m.flip))
          = B.indicator (1 : ℝ → ℝ≥0∞) a * p := by
        intro a
        rw [hget, hget, if_pos rfl, if_neg one_ne_zero, mul_zero, add_zero, hp]
        simp only [div_eq_mul_inv]
        ring
      simp only [hq, if_true, one_ne_zero, if_false, mul_zero, lintegral_zero, add_zero, hi] at this
      have hpt : p ≠ ⊤ := by
        rw [hp, ← v]
        refine ENNReal.div_ne_top (ENNReal.mul_ne_top ?_ ENNReal.ofReal_ne_top) hv
        exact ENNReal.ofReal_ne_top
      simp only [← mul_assoc, lintegral_mul_const' _ _ hpt, hi] at this
      exact this.trans (by ring)
    have hpr : ∀ c, npNormal c m.sigma Set.univ = 1 := by
      intro c
      unfold npNormal
      exact measure_univ
    have hf0 : ENNReal.ofReal m.flip ≠ 0 := by simp [h0]
    have hpe : ENNReal.ofReal m.flip = p := by
      have := hB Set.univ MeasurableSet.univ
      rw [hpr, hpr, mul_one, mul_one, ← ENNReal.ofReal_add h0.le (by linarith)] at this
      simpa using this
    have heq : npNormal (y - 1) m.sigma = npNormal (y + 1) m.sigma := by
      ext B hBm
      have := hB B hBm
      rw [← hpe] at this
      have h2 := (ENNReal.mul_right_inj hf0 ENNReal.ofReal_ne_top).mp this
      have hle : ∀ c, npNormal c m.sigma B ≠ ⊤ := by
        intro c
        unfold npNormal
        exact measure_ne_top _ _
      have h3 : ENNReal.ofReal m.flip * npNormal (y - 1) m.sigma B
          + ENNReal.ofReal (1 - m.flip) * npNormal (y - 1) m.sigma B
          = ENNReal.ofReal m.flip * npNormal (y - 1) m.sigma B
          + ENNReal.ofReal (1 - m.flip) * npNormal (y + 1) m.sigma B := by
        rw [← h2, ← add_mul, ← ENNReal.ofReal_add h0.le (by linarith)]
        simp
      have h4 := (ENNReal.add_right_inj (ENNReal.mul_ne_top ENNReal.ofReal_ne_top (hle _))).mp h3
      refine (ENNReal.mul_right_inj ?_ ENNReal.ofReal_ne_top).mp h4
      rw [Ne, ENNReal.ofReal_eq_zero]
      linarith
    have h5 : ∫ x, x ∂npNormal (y - 1) m.sigma = ∫ x, x ∂npNormal (y + 1) m.sigma := by rw [heq]
    unfold npNormal at h5
    rw [integral_id_gaussianReal, integral_id_gaussianReal] at h5
    linarith

/-- A model that meets the hypotheses. -/
example : ∃ m : PieceWise, m.x ≠ m.z ∧ 0 < m.sigma ∧ 0 < m.flip ∧ m.flip < 1 :=
  ⟨⟨0, 1, 2, 1, 0.5⟩, by norm_num, by norm_num, by norm_num, by norm_num⟩

end Cgpm.Props
