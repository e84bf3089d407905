import Verif.Lemmas.PrimSimulateMore
import Verif.Props.PrimNormCont
import Verif.Props.Crp

/-!
Property C69: what a component simulates follows the predictive density it reports.
-/
namespace Cgpm.Props
open Cgpm Cgpm.Comp MeasureTheory ProbabilityTheory
open scoped ENNReal

theorem ofReal_pr_ite (c : Prop) [Decidable c] (x : ℝ) :
    ENNReal.ofReal (pr (if c then ((x : ℝ) : LogP) else ⊥))
      = if c then ENNReal.ofReal (Real.exp x) else 0 := by
  split <;> simp

theorem ofReal_pr_ite' (c : Prop) [Decidable c] (x : ℝ) :
    ENNReal.ofReal (pr (if c then ⊥ else ((x : ℝ) : LogP)))
      = if c then 0 else ENNReal.ofReal (Real.exp x) := by
  split <;> simp

/-- The law of one component, given its statistics. -/
def Follows (p : Prim) (h : p.H) (s : p.S) : Prop :=
  ∀ g : ℝ → ℝ≥0∞, Measurable g →
    (p.sample h s).E g = ∫⁻ x, g x * ENNReal.ofReal (pr (p.fam.logpdf h s x)) ∂p.base

theorem follows_bernoulli (h : BernoulliH) (hk : bernoulli.hypOk h) (l : List ℝ)
    (hl : ∀ v ∈ l, support .bernoulli v) : Follows .bernoulli h (bernoulli.statOf l) := by
  intro g _
  have hn := bernoulli_norm h hk l hl
  set s := bernoulli.statOf l
  set p0 := bernoulliPredictive 0 s.N s.x_sum h.alpha h.beta with hp0
  set p1 := bernoulliPredictive 1 s.N s.x_sum h.alpha h.beta with hp1
  have e0 : bernoulli.logpdf h s 0 = ((p0 : ℝ) : LogP) := by simp [bernoulli, hp0]
  have e1 : bernoulli.logpdf h s 1 = ((p1 : ℝ) : LogP) := by simp [bernoulli, hp1]
  rw [e0, e1, pr_coe, pr_coe] at hn
  change (bernoulliDraw h s).E g = ∫⁻ x, g x * ENNReal.ofReal (pr (bernoulli.logpdf h s x))
    ∂(Measure.sum fun n : ℕ => Measure.dirac (n : ℝ))
  rw [Draws.lintegral_nat, tsum_eq_sum (s := Finset.range 2)]
  · simp only [Finset.sum_range_succ, Finset.sum_range_zero, zero_add, Nat.cast_zero, Nat.cast_one]
    rw [e0, e1, pr_coe, pr_coe]
    unfold bernoulliDraw
    simp only
    rw [Draws.ofRand_bind, Draws.E_bind]
    have hlist : ([.fin p0, .fin p1] : List Fl) = [(0 : ℕ), 1].map (fun i => .fin (if i = 0 then p0 else p1)) := by
      simp
    have := Draws.E_logPflip (l := [(0 : ℕ), 1]) (a := fun i => Fl.fin (if i = 0 then p0 else p1))
      (p := fun i => Real.exp (if i = 0 then p0 else p1)) (fun i => i)
      (fun i _ => (Real.exp_pos _).le)
      (fun i _ => ⟨⟨by simp, rfl⟩, by simp⟩) (by
        simp only [List.map_cons, List.map_nil, List.sum_cons, List.sum_nil]
        positivity) (fun i => g (i : ℝ))
    simp only [List.map_cons, List.map_nil, List.sum_cons, List.sum_nil, if_true, one_ne_zero,
      if_false, add_zero, hn, div_one, Nat.cast_zero, Nat.cast_one] at this
    rw [← hp0, ← hp1]
    refine Eq.trans this ?_
    rw [mul_comm, mul_comm (ENNReal.ofReal (Real.exp p1))]
  · intro n hn
    rw [Finset.mem_range, not_lt] at hn
    have h0 : (n : ℝ) ≠ 0 := by
      have : n ≠ 0 := by omega
      exact_mod_cast this
    have h1 : (n : ℝ) ≠ 1 := by
      have : n ≠ 1 := by omega
      exact_mod_cast this
    simp [bernoulli, h0, h1]

theorem follows_categorical (k : ℕ) (hk0 : 0 < k) (h : CategoricalH) (hk : (categorical k).hypOk h)
    (l : List ℝ) (hl : ∀ v ∈ l, support (.categorical k) v) :
    Follows (.categorical k) h ((categorical k).statOf l) := by
  intro g _
  have ha : 0 < h.alpha := hk
  obtain ⟨h1, h2, h3⟩ := categorical_stat k l
  set s := (categorical k).statOf l with hs
  have hkp : 0 < (k : ℝ) := by exact_mod_cast hk0
  have hcnt : ∀ c ∈ s.counts, (0 : ℝ) ≤ (c : ℝ) := by
    intro c hc
    obtain ⟨i, hi, rfl⟩ := List.getElem_of_mem hc
    have := h3 i (by rw [← h2]; exact hi)
    rw [List.getElem?_eq_getElem hi] at this
    rw [Option.some.inj this]
    positivity
  have hsum : (s.counts.map fun c : ℤ => (c : ℝ) + h.alpha).sum
      = ((s.counts.sum : ℤ) : ℝ) + h.alpha * s.counts.length := by
    clear_value s
    clear hcnt h3 h1 h2
    induction s.counts with
    | nil => simp
    | cons a t ih => simp only [List.map_cons, List.sum_cons, ih, List.length_cons]; push_cast; ring
  have hD : 0 < (s.counts.map fun c : ℤ => (c : ℝ) + h.alpha).sum := by
    rw [hsum, h2]
    have h4 : s.counts.sum = l.length := categorical_sum k hl
    rw [h4]; push_cast; positivity
  change (categoricalDraw h s).E g = ∫⁻ x, g x * ENNReal.ofReal (pr ((categorical k).logpdf h s x))
    ∂(Measure.sum fun n : ℕ => Measure.dirac (n : ℝ))
  rw [Draws.lintegral_nat, tsum_eq_sum (s := Finset.range k)]
  · unfold categoricalDraw
    rw [Draws.ofRand_bind, Draws.E_bind]
    have := Draws.E_pflip (l := s.counts) (p := fun c : ℤ => (c : ℝ) + h.alpha)
      (fun c hc => add_nonneg (hcnt c hc) ha.le) hD (fun i => g (i : ℝ))
    refine Eq.trans this ?_
    rw [h2]
    refine Finset.sum_congr rfl fun i hi => ?_
    have hik := Finset.mem_range.mp hi
    have hil : i < s.counts.length := by rw [h2]; exact hik
    have hok : categoricalOk k (i : ℝ) := (categoricalOk_iff k _).mpr ⟨i, hik, rfl⟩
    have e : (categorical k).logpdf h s (i : ℝ)
        = ((categoricalPredictive i s.counts h.alpha : ℝ) : LogP) := by
      simp [categorical, hok]
    rw [e, pr_coe, categoricalPredictive, exp_log_sub _ (by rw [← hsum]; exact hD), ← hsum,
      List.getD_eq_getElem _ _ (by simpa using hil), List.getElem_map,
      List.getElem?_eq_getElem hil, Option.getD_some, mul_comm, add_comm]
    rw [List.getElem?_eq_getElem hil, Option.getD_some]
    have := hcnt _ (List.getElem_mem hil)
    linarith
  · intro n hn
    rw [Finset.mem_range, not_lt] at hn
    have : ¬ categoricalOk k (n : ℝ) := by
      rintro ⟨_, _, h5⟩
      have : n < k := by exact_mod_cast h5
      omega
    simp [categorical, this]

theorem follows_exponential (h : AbH) (hk : exponential.hypOk h) (l : List ℝ)
    (hl : ∀ v ∈ l, support .exponential v) : Follows .exponential h (exponential.statOf l) := by
  intro g hg
  obtain ⟨ha, hb⟩ := hk
  have ha : 0 < h.a := ha
  have hb : 0 < h.b := hb
  have h0 : 0 ≤ l.sum := sum_nonneg_of hl
  rw [exponential_stat]
  have := exponential_E (A := h.a + ((l.length : ℤ) : ℝ)) (B := h.b + l.sum)
    (by push_cast; positivity) (by linarith) hg
  refine Eq.trans this ?_
  change _ = ∫⁻ x, g x * _ ∂volume
  refine lintegral_congr fun x => ?_
  simp only [Prim.fam, exponential, exponentialPredictive]
  rw [ofReal_pr_ite']
  push_cast
  rw [add_assoc, add_assoc]

theorem follows_geometric (h : AbH) (hk : geometric.hypOk h) (l : List ℝ)
    (hl : ∀ v ∈ l, support .geometric v) : Follows .geometric h (geometric.statOf l) := by
  intro g _
  obtain ⟨ha, hb⟩ := hk
  have ha : 0 < h.a := ha
  have hb : 0 < h.b := hb
  have h0 : 0 ≤ l.sum := nat_sum_nonneg hl
  rw [geometric_stat]
  change (geometricDraw h _).E g = ∫⁻ x, g x * _ ∂(Measure.sum fun n : ℕ => Measure.dirac (n : ℝ))
  rw [Draws.lintegral_nat]
  have := geometric_E (A := h.a + ((l.length : ℤ) : ℝ)) (B := h.b + l.sum)
    (by push_cast; positivity) (by linarith) g
  refine Eq.trans this (tsum_congr fun n => ?_)
  have hok : isInt (n : ℝ) ∧ (0:ℝ) ≤ n := (isInt_nonneg_iff _).mpr ⟨n, rfl⟩
  simp only [Prim.fam, geometric, if_pos hok, pr_coe, geometricPredictive]
  push_cast
  rw [add_assoc, add_assoc]

theorem follows_poisson (h : AbH) (hk : poisson.hypOk h) (l : List ℝ)
    (hl : ∀ v ∈ l, support .poisson v) : Follows .poisson h (poisson.statOf l) := by
  intro g _
  obtain ⟨ha, hb⟩ := hk
  have ha : 0 < h.a := ha
  have hb : 0 < h.b := hb
  have h0 : 0 ≤ l.sum := nat_sum_nonneg hl
  rw [poisson_stat]
  change (poissonDraw h _).E g = ∫⁻ x, g x * _ ∂(Measure.sum fun n : ℕ => Measure.dirac (n : ℝ))
  rw [Draws.lintegral_nat]
  have := poisson_E (A := h.a + l.sum) (B := h.b + ((l.length : ℤ) : ℝ))
    (by linarith) (by push_cast; positivity) g
  refine Eq.trans this (tsum_congr fun n => ?_)
  have hok : isInt (n : ℝ) ∧ (0:ℝ) ≤ n := (isInt_nonneg_iff _).mpr ⟨n, rfl⟩
  simp only [Prim.fam, poisson, if_pos hok, pr_coe, poissonPredictive]
  push_cast
  rw [add_assoc, add_assoc]

/-- The posterior scale is positive. -/
theorem normal_post_scale (h : NormalH) (hk : normal.hypOk h) (l : List ℝ) :
    0 < h.s + (l.map fun x => x * x).sum + h.r * h.m * h.m
      - (h.r + (l.length : ℝ)) * ((h.r * h.m + l.sum) / (h.r + (l.length : ℝ)))
        * ((h.r * h.m + l.sum) / (h.r + (l.length : ℝ))) := by
  obtain ⟨hr, hs, hnu⟩ := hk
  have hs' : 0 < h.s := hs
  have hsc := posterior_scale l h.m h.r hr
  have hsq : (l.map (· ^ 2)) = l.map fun x => x * x := by
    refine List.map_congr_left fun x _ => by ring
  rw [hsq] at hsc
  linarith

theorem normal_predictive_student (h : NormalH) (hk : normal.hypOk h) (l : List ℝ) (y : ℝ) :
    normalPredictive y (l.length : ℤ) l.sum (l.map fun x => x * x).sum h.m h.r h.s h.nu
      = studentLog ((h.r * h.m + l.sum) / (h.r + (l.length : ℝ))) (h.r + (l.length : ℝ))
        (h.s + (l.map fun x => x * x).sum + h.r * h.m * h.m
          - (h.r + (l.length : ℝ)) * ((h.r * h.m + l.sum) / (h.r + (l.length : ℝ)))
          * ((h.r * h.m + l.sum) / (h.r + (l.length : ℝ)))) (h.nu + (l.length : ℝ)) y := by
  have hS := normal_post_scale h hk l
  have hr : 0 < h.r := hk.1
  have hstep := normal_scale_step (N := l.length) (sx := l.sum)
    (sxx := (l.map fun x => x * x).sum) (m := h.m) (s := h.s) hr y
  have hS2 : 0 < h.s + (l.map fun x => x * x).sum + h.r * h.m * h.m
      - (h.r + (l.length : ℝ)) * ((h.r * h.m + l.sum) / (h.r + (l.length : ℝ)))
        * ((h.r * h.m + l.sum) / (h.r + (l.length : ℝ)))
      + (h.r + (l.length : ℝ)) / (h.r + (l.length : ℝ) + 1)
        * (y - (h.r * h.m + l.sum) / (h.r + (l.length : ℝ))) ^ 2 := by positivity
  have hcast : ((( l.length : ℤ) + 1 : ℤ) : ℝ) = (l.length : ℝ) + 1 := by push_cast; ring
  simp only [normalPredictive, normalPosterior, hcast, Int.cast_natCast, studentLog]
  rw [hstep, if_neg hS.ne', if_neg hS2.ne', add_assoc h.r, add_assoc h.nu]

theorem normal_draw_E (h : NormalH) (hk : normal.hypOk h) (l : List ℝ) {g : ℝ → ℝ≥0∞}
    (hg : Measurable g) :
    (normalDraw h (l.length : ℤ) l.sum (l.map fun x => x * x).sum).E g
      = ∫⁻ x, g x * ENNReal.ofReal (Real.exp
        (normalPredictive x (l.length : ℤ) l.sum (l.map fun x => x * x).sum h.m h.r h.s h.nu)) := by
  have hS := normal_post_scale h hk l
  have hkc := hk
  obtain ⟨hr, hs, hnu⟩ := hkc
  have hr' : 0 < h.r := hr
  have hnu' : 0 < h.nu := hnu
  simp only [normal_predictive_student h hk l]
  rw [← normal_E (by positivity) hS (by positivity) hg]
  simp only [normalDraw, normalPosterior, Int.cast_natCast, if_neg hS.ne', Draws.E]

theorem follows_normal (h : NormalH) (hk : normal.hypOk h) (l : List ℝ) :
    Follows .normal h (normal.statOf l) := by
  intro g hg
  rw [normal_stat]
  exact normal_draw_E h hk l hg

theorem follows_lognormal (h : NormalH) (hk : lognormal.hypOk h) (l : List ℝ) :
    Follows .lognormal h (lognormal.statOf l) := by
  intro g hg
  rw [lognormal_stat]
  change (lognormalDraw h _).E g = ∫⁻ x, g x * _ ∂volume
  unfold lognormalDraw
  rw [Draws.E_bind]
  have := normal_draw_E h hk (l.map Real.log) (hg.comp Real.measurable_exp)
  rw [List.length_map, List.map_map] at this
  refine Eq.trans this ?_
  simp only [Function.comp_apply]
  rw [lintegral_comp_exp]
  refine lintegral_congr fun x => ?_
  simp only [Prim.fam, lognormal]
  rw [ofReal_pr_ite']
  split
  · rfl
  · rename_i hx
    have hx : 0 < x := not_le.mp hx
    rw [← ENNReal.ofReal_mul (by positivity), Real.exp_add, Real.exp_neg, Real.exp_log hx, one_div]
    rfl

theorem besselI0_eq (z : ℝ) : besselI0 z = vmI z / (2 * Real.pi) := rfl

theorem follows_vonmises (logI0 : ℝ → ℝ) (h : VonmisesH) (hk : (vonmises logI0).hypOk h)
    (hp : (Prim.vonmises logI0).Proper h) (l : List ℝ) :
    Follows (.vonmises logI0) h ((vonmises logI0).statOf l) := by
  intro g hg
  obtain ⟨hI, hkk⟩ := hp
  obtain ⟨ha, hb, hb2⟩ := hk
  have hpi := Real.pi_pos
  rw [vonmises_stat]
  change (vonmisesDraw h _).E g = ∫⁻ x, g x * _ ∂volume
  unfold vonmisesDraw
  rw [if_pos ⟨by positivity, ha, ⟨le_of_lt hb, hb2⟩, hkk⟩]
  simp only [Draws.E, apply_ite (Draws.E g)]
  rw [vonmises_E _ _ _ _ _ hg]
  refine lintegral_congr fun x => ?_
  simp only [Prim.fam, vonmises]
  rw [ofReal_pr_ite]
  split
  · congr 2
    simp only [vonmisesPredictive, hI]
    have p1 := fun z => vmI_pos z
    have p2 : ∀ z, 0 < besselI0 z := fun z => by
      rw [besselI0_eq]; exact div_pos (vmI_pos z) (by positivity)
    rw [Real.exp_sub, Real.exp_add, Real.exp_sub, Real.exp_neg, Real.exp_log (by positivity),
      Real.exp_log (p2 _), Real.exp_log (p2 _), Real.exp_log (p2 _)]
    simp only [besselI0_eq]
    have p3 := p1 h.k
    have p4 := p1 (vonmisesAn (l.map Real.sin).sum (l.map Real.cos).sum h.a h.b h.k)
    field_simp
  · rfl

theorem follows_beta (q : ℝ → ℝ → ℝ) (h : BetaP) (hp : (Prim.beta q).Proper h) (s : BetaS) :
    Follows (.beta q) h s := by
  intro g _
  obtain ⟨h1, h2, h3⟩ := hp
  have h1 : 0 < h.strength := h1
  have h2 : 0 < h.balance := h2
  have h3 : h.balance < 1 := h3
  have h4 : 0 < 1 - h.balance := by linarith
  change (betaDraw h).E g = ∫⁻ x, g x * _ ∂volume
  simp only [betaDraw, Draws.E]
  rw [beta_E (by positivity) (by positivity)]
  refine lintegral_congr fun x => ?_
  simp only [Prim.fam, Cgpm.beta]
  rw [ofReal_pr_ite]
  rfl

theorem follows_reachable (p : Prim) (h : p.H) (hk : p.fam.hypOk h) (ops : List (Op ℝ p.H))
    (hp : p.Proper ((init p.fam h).run p.fam ops).hyp) :
    Follows p ((init p.fam h).run p.fam ops).hyp ((init p.fam h).run p.fam ops).stat := by
  have i := prim_inv_run p h ops
  have e : ((init p.fam h).run p.fam ops).stat = p.fam.statOf _ := i.hstat
  have hs := prim_vals_support i
  have hk' : p.fam.hypOk ((init p.fam h).run p.fam ops).hyp := hypOk_run hk ops
  generalize (init p.fam h).run p.fam ops = c at *
  rw [e]
  cases p with
  | bernoulli => exact follows_bernoulli _ hk' _ hs
  | categorical k => exact follows_categorical k hp _ hk' _ hs
  | exponential => exact follows_exponential _ hk' _ hs
  | geometric => exact follows_geometric _ hk' _ hs
  | poisson => exact follows_poisson _ hk' _ hs
  | normal => exact follows_normal _ hk' _
  | lognormal => exact follows_lognormal _ hk' _
  | vonmises f => exact follows_vonmises f _ hk' hp _
  | normalTrunc l h z q => exact hp.elim
  | beta q => exact follows_beta q _ hp _

/-- **C69.** For every component with valid hyperparameters, after every history of calls: what
`simulate` draws for a row that is not incorporated has as its density exactly what `logpdf` reports
for that row — for the nine types other than the truncated normal. -/
theorem C69_law (p : Prim) (h : p.H) (hk : p.fam.hypOk h) (ops : List (Op ℝ p.H)) (out : Col)
    (r : Option Row) (lp : ℝ → LogP) :
    let c := (init p.fam h).run p.fam ops
    p.Proper c.hyp → (∀ x, c.logpdf p.fam r x = .ok (lp x)) →
    ∀ g : Dict Col ℝ → ℝ≥0∞, (Measurable fun x => g [(out, x)]) →
      (p.simulate c out r [out] [] []).E g
        = ∫⁻ x, g [(out, x)] * ENNReal.ofReal (pr (lp x)) ∂p.base := by
  intro c hp hlp g hg
  have hr : r.bind c.data.get? = none := by
    have := hlp 0
    unfold Comp.logpdf at this
    split at this
    · cases this
    · assumption
  have hf := follows_reachable p h hk ops hp _ hg
  have hl : ∀ x, p.fam.logpdf c.hyp c.stat x = lp x := by
    intro x
    have := hlp x
    unfold Comp.logpdf at this
    rw [hr] at this
    exact Except.ok.inj this
  unfold Prim.simulate
  rw [if_neg (by simp), if_neg (by simp), if_neg (by simp), hr]
  simp only
  rw [Draws.E_bind]
  refine Eq.trans hf ?_
  refine lintegral_congr fun x => ?_
  rw [← hl x]

/-- The hypotheses of `C69_law` are met by a normal component that holds two rows, asked about a third. -/
example :
    let h : NormalH := ⟨0, 1, 1, 1⟩
    let c := (init normal h).run normal [.inc 0 2, .inc 1 5]
    normal.hypOk h ∧ (Prim.normal).Proper c.hyp ∧
      ∀ x, ∃ v, c.logpdf normal (some 2) x = .ok v := by
  refine ⟨⟨one_pos, one_pos, one_pos⟩, trivial, fun x => ⟨_, rfl⟩⟩

/-- And by a von Mises component that holds a row. -/
example :
    let f : ℝ → ℝ := fun z => Real.log (besselI0 z)
    let h : VonmisesH := ⟨1, 1, 2⟩
    let c := (init (vonmises f) h).run (vonmises f) [.inc 0 1]
    (vonmises f).hypOk h ∧ (Prim.vonmises f).Proper c.hyp ∧ c.data = [(0, 1)] ∧
      ∀ x, ∃ v, c.logpdf (vonmises f) (some 2) x = .ok v := by
  intro f h c
  have hpi := Real.one_le_pi_div_two
  have e : c = ⟨[(0, 1)], ⟨0 + 1, 0 + Real.sin 1, 0 + Real.cos 1⟩, h⟩ := by
    have h1 : (0 : ℝ) ≤ 1 ∧ (1 : ℝ) ≤ 2 * Real.pi := ⟨zero_le_one, by linarith⟩
    simp [c, Comp.run, Comp.apply, Comp.incorporate, Comp.init, vonmises, Dict.has, Dict.get?,
      Dict.set, Out.state, h1]
  refine ⟨⟨one_pos, one_pos, by change (1 : ℝ) ≤ _; linarith⟩, ?_, by rw [e], fun x => ?_⟩
  · rw [e]; exact ⟨fun z => rfl, two_pos⟩
  · rw [e]; exact ⟨_, rfl⟩

/-- And by a beta component. -/
example (q : ℝ → ℝ → ℝ) : (Prim.beta q).Proper ((init (Cgpm.beta q) ⟨2, 1 / 2⟩).run (Cgpm.beta q) []).hyp :=
  ⟨two_pos, by change (0 : ℝ) < 1 / 2; norm_num, by change (1 / 2 : ℝ) < 1; norm_num⟩

/-! ### totals -/

theorem lintegral_ofReal_of_integral_eq_one {μ : Measure ℝ} {f : ℝ → ℝ} (h0 : ∀ x, 0 ≤ f x)
    (h : ∫ x, f x ∂μ = 1) : ∫⁻ x, ENNReal.ofReal (f x) ∂μ = 1 := by
  have hi : Integrable f μ := by
    by_contra hc
    rw [integral_undef hc] at h
    exact zero_ne_one h
  rw [← ofReal_integral_eq_lintegral_ofReal hi (Filter.Eventually.of_forall h0), h,
    ENNReal.ofReal_one]

theorem lintegral_ofReal_of_setIntegral_eq_one {f : ℝ → ℝ} (h0 : ∀ x, 0 ≤ f x)
    (hz : ∀ x < 0, f x = 0) (h : ∫ x in Set.Ioi 0, f x = 1) : ∫⁻ x, ENNReal.ofReal (f x) = 1 := by
  rw [← lintegral_ofReal_of_integral_eq_one h0 h, ← lintegral_indicator measurableSet_Ioi]
  refine lintegral_congr_ae ?_
  filter_upwards [Measure.ae_ne volume (0 : ℝ)] with x hx
  rcases lt_or_gt_of_ne hx with hx | hx
  · rw [Set.indicator_of_notMem (by simp [hx.le]), hz x hx, ENNReal.ofReal_zero]
  · rw [Set.indicator_of_mem (Set.mem_Ioi.mpr hx)]

theorem lintegral_vmPDF (mu kappa : ℝ) : ∫⁻ x, vmPDF mu kappa x = 1 := by
  have e : ∫⁻ x, vmPDF mu kappa x = ∫⁻ x in Set.Ioc (-Real.pi) Real.pi,
      ENNReal.ofReal (Real.exp (kappa * Real.cos (x + -mu)) / vmI kappa) := by
    rw [← lintegral_indicator measurableSet_Ioc]
    refine lintegral_congr fun x => ?_
    unfold vmPDF
    split
    · rename_i h; rw [Set.indicator_of_mem h]; rfl
    · rename_i h; rw [Set.indicator_of_notMem h]
  rw [e]
  refine lintegral_ofReal_of_integral_eq_one
    (fun x => div_nonneg (Real.exp_pos _).le (vmI_pos _).le) ?_
  rw [← intervalIntegral.integral_of_le (by linarith [Real.pi_pos]), intervalIntegral.integral_div,
    vmI_shift, div_self (vmI_pos _).ne']

/-- **C69.** In every reachable state the density of every component other than the truncated normal
has total mass 1 (for the beta and von Mises components this is new; for the others it is C08). -/
theorem C69_normalised (p : Prim) (h : p.H) (hk : p.fam.hypOk h) (ops : List (Op ℝ p.H)) :
    let c := (init p.fam h).run p.fam ops
    p.Proper c.hyp →
    ∫⁻ x, ENNReal.ofReal (pr (p.fam.logpdf c.hyp c.stat x)) ∂p.base = 1 := by
  intro c hp
  have hpr : ∀ x, 0 ≤ pr (p.fam.logpdf c.hyp c.stat x) := fun x => pr_nonneg _
  cases p with
  | bernoulli =>
    change ∫⁻ x, _ ∂(Measure.sum fun n : ℕ => Measure.dirac (n : ℝ)) = 1
    have := C08_bernoulli h hk ops
    rw [Draws.lintegral_nat, tsum_eq_sum (s := Finset.range 2)]
    · simp only [Finset.sum_range_succ, Finset.sum_range_zero, zero_add, Nat.cast_zero, Nat.cast_one]
      rw [← ENNReal.ofReal_add (hpr _) (hpr _)]
      exact (congrArg ENNReal.ofReal this).trans ENNReal.ofReal_one
    · intro n hn
      rw [Finset.mem_range, not_lt] at hn
      have h0 : (n : ℝ) ≠ 0 := by
        have : n ≠ 0 := by omega
        exact_mod_cast this
      have h1 : (n : ℝ) ≠ 1 := by
        have : n ≠ 1 := by omega
        exact_mod_cast this
      simp [Prim.fam, bernoulli, h0, h1]
  | categorical k =>
    change ∫⁻ x, _ ∂(Measure.sum fun n : ℕ => Measure.dirac (n : ℝ)) = 1
    have := C08_categorical k hp h hk ops
    rw [Draws.lintegral_nat, tsum_eq_sum (s := Finset.range k),
      ← ENNReal.ofReal_sum_of_nonneg fun i _ => hpr _]
    · exact (congrArg ENNReal.ofReal this).trans ENNReal.ofReal_one
    · intro n hn
      rw [Finset.mem_range, not_lt] at hn
      have : ¬ categoricalOk k (n : ℝ) := by
        rintro ⟨_, _, h5⟩
        have : n < k := by exact_mod_cast h5
        omega
      simp [Prim.fam, categorical, this]
  | exponential =>
    change ∫⁻ x, _ ∂volume = 1
    refine lintegral_ofReal_of_setIntegral_eq_one hpr (fun x hx => ?_) (C08_exponential h hk ops)
    simp [Prim.fam, exponential, hx]
  | geometric =>
    change ∫⁻ x, _ ∂(Measure.sum fun n : ℕ => Measure.dirac (n : ℝ)) = 1
    have := C08_geometric h hk ops
    rw [Draws.lintegral_nat, ← ENNReal.ofReal_tsum_of_nonneg (fun n => hpr _) this.summable]
    exact (congrArg ENNReal.ofReal this.tsum_eq).trans ENNReal.ofReal_one
  | poisson =>
    change ∫⁻ x, _ ∂(Measure.sum fun n : ℕ => Measure.dirac (n : ℝ)) = 1
    have := C08_poisson h hk ops
    rw [Draws.lintegral_nat, ← ENNReal.ofReal_tsum_of_nonneg (fun n => hpr _) this.summable]
    exact (congrArg ENNReal.ofReal this.tsum_eq).trans ENNReal.ofReal_one
  | normal =>
    change ∫⁻ x, _ ∂volume = 1
    exact lintegral_ofReal_of_integral_eq_one hpr (C08_normal h hk ops)
  | lognormal =>
    change ∫⁻ x, _ ∂volume = 1
    refine lintegral_ofReal_of_setIntegral_eq_one hpr (fun x hx => ?_) (C08_lognormal h hk ops)
    simp [Prim.fam, lognormal, hx.le]
  | vonmises f =>
    have hf := follows_reachable (.vonmises f) h hk ops hp (fun _ => 1) measurable_const
    simp only [one_mul] at hf
    refine Eq.trans hf.symm ?_
    have hk' : (vonmises f).hypOk c.hyp := hypOk_run hk ops
    have e : c.stat = (vonmises f).statOf _ := (prim_inv_run (.vonmises f) h ops).hstat
    change (vonmisesDraw c.hyp c.stat).E (fun _ => 1) = 1
    rw [e, vonmises_stat]
    unfold vonmisesDraw
    rw [if_pos ⟨by positivity, hk'.1, ⟨le_of_lt hk'.2.1, hk'.2.2⟩, hp.2⟩]
    simp only [Draws.E, apply_ite (Draws.E fun _ : ℝ => (1 : ℝ≥0∞)), lintegral_vm,
      add_sub_cancel_right]
    have h1 : ∀ m x : ℝ, vmPDF m c.hyp.k x *
        (if 0 ≤ x + Real.pi ∧ x + Real.pi ≤ 2 * Real.pi then (1 : ℝ≥0∞) else 0)
        = vmPDF m c.hyp.k x := by
      intro m x
      by_cases hx : x ∈ Set.Ioc (-Real.pi) Real.pi
      · rw [if_pos ⟨by linarith [hx.1], by linarith [hx.2]⟩, mul_one]
      · rw [vmPDF, if_neg hx, zero_mul]
    simp only [h1, lintegral_vmPDF, mul_one]
  | normalTrunc l u z q => exact hp.elim
  | beta q =>
    have hf := follows_reachable (.beta q) h hk ops hp (fun _ => 1) measurable_const
    simp only [one_mul] at hf
    refine Eq.trans hf.symm ?_
    obtain ⟨h1, h2, h3⟩ := hp
    have h1 : 0 < c.hyp.strength := h1
    have h2 : 0 < c.hyp.balance := h2
    have h3 : c.hyp.balance < 1 := h3
    have h4 : 0 < 1 - c.hyp.balance := by linarith
    change (betaDraw c.hyp).E (fun _ => 1) = 1
    have := isProbabilityMeasureBeta (mul_pos h1 h2) (mul_pos h1 h4)
    simp only [betaDraw, Draws.E, npBeta]
    simp

/-- **C69.** A simulation always ends with a value: the probability that it returns is 1. -/
theorem C69_returns (p : Prim) (h : p.H) (hk : p.fam.hypOk h) (ops : List (Op ℝ p.H)) (out : Col)
    (r : Option Row) :
    let c := (init p.fam h).run p.fam ops
    p.Proper c.hyp → (p.simulate c out r [out] [] []).E (fun _ => 1) = 1 := by
  intro c hp
  cases hr : r.bind c.data.get? with
  | some x =>
    unfold Prim.simulate
    rw [if_neg (by simp), if_neg (by simp), if_neg (by simp), hr]
    rfl
  | none =>
    have := C69_law p h hk ops out r (fun x => p.fam.logpdf c.hyp c.stat x) hp
      (fun x => by unfold Comp.logpdf; rw [hr]) (fun _ => 1) measurable_const
    refine this.trans ?_
    simp only [one_mul]
    exact C69_normalised p h hk ops hp

/-- **C69.** For a row that is incorporated `simulate` returns the value the component holds: the one
of the last accepted `incorporate` in the history. -/
theorem C69_observed (p : Prim) (h : p.H) (ops : List (Op ℝ p.H)) (out : Col) (r : Row) (x : ℝ)
    (hx : cells p ops r = some x) :
    p.simulate ((init p.fam h).run p.fam ops) out (some r) [out] [] [] = .pure [(out, x)] := by
  have := (C05_data_is_replay p h ops).1 r
  unfold Prim.simulate
  rw [if_neg (by simp), if_neg (by simp), if_neg (by simp)]
  simp only [Option.bind_some, this, hx]

/-- **C69.** A component refuses, before it draws anything, exactly the queries with evidence, with
inputs, or about anything but its one output. -/
theorem C69_refused (p : Prim) (c : Comp ℝ p.S p.H) (out : Col) (r : Option Row) (T : List Col)
    (C I : Dict Col ℝ) (h : C ≠ [] ∨ I ≠ [] ∨ T ≠ [out]) :
    p.simulate c out r T C I = .raise .assertion := by
  unfold Prim.simulate
  split
  · rfl
  split
  · rfl
  split
  · rfl
  · simp_all

/-- **C69.** Several samples are independent draws of the law of one. -/
theorem C69_many (p : Prim) (c : Comp ℝ p.S p.H) (out : Col) (r : Option Row)
    (gs : List (Dict Col ℝ → ℝ≥0∞))
    (hg : ∀ g ∈ gs, (∀ d, g d ≠ ⊤) ∧ (p.simulate c out r [out] [] []).E g ≠ ⊤) :
    (((p.simulate c out r [out] [] []).many gs.length).E
        fun l => (List.zipWith (fun g d => g d) gs l).prod)
      = (gs.map fun g => (p.simulate c out r [out] [] []).E g).prod :=
  Draws.E_many _ gs hg

/-- **C69.** The truncated normal, whatever its history: with `q` the probability that a normal draw
falls between the bounds, and `logZ` its logarithm, `simulate` returns a value with the density that
`logpdf` reports times `1 - (1 - q)^1000`, and raises RuntimeError with the rest, `(1 - q)^1000`. -/
theorem C69_trunc (l u : ℝ) (logZ logPrior : ℝ → ℝ → ℝ) (c : Comp ℝ NormalS NormalTruncP) (out : Col)
    (r : Option Row) (hr : r.bind c.data.get? = none) (hs : 0 < c.hyp.sigma)
    (hZ : gaussianReal c.hyp.mu (Real.toNNReal (c.hyp.sigma ^ 2)) (Set.Icc l u)
      = ENNReal.ofReal (Real.exp (logZ c.hyp.mu c.hyp.sigma))) :
    let P := Prim.normalTrunc l u logZ logPrior
    let q := Real.exp (logZ c.hyp.mu c.hyp.sigma)
    (∀ g : Dict Col ℝ → ℝ≥0∞, (Measurable fun x => g [(out, x)]) →
      (P.simulate c out r [out] [] []).E g = ENNReal.ofReal (1 - (1 - q) ^ 1000) *
        ∫⁻ x, g [(out, x)] * ENNReal.ofReal (pr (P.fam.logpdf c.hyp c.stat x))) ∧
    (P.simulate c out r [out] [] []).fails .runtime = ENNReal.ofReal ((1 - q) ^ 1000) ∧
    ∫⁻ x, ENNReal.ofReal (pr (P.fam.logpdf c.hyp c.stat x)) = 1 := by
  intro P q
  have hq0 : 0 < q := Real.exp_pos _
  have hq1 : q ≤ 1 := by
    have := prob_le_one (μ := gaussianReal c.hyp.mu (Real.toNNReal (c.hyp.sigma ^ 2)))
      (s := Set.Icc l u)
    rw [hZ] at this
    exact ENNReal.ofReal_le_one.mp this
  have hv : Real.toNNReal (c.hyp.sigma ^ 2) ≠ 0 := by
    rw [Ne, Real.toNNReal_eq_zero, not_le]; positivity
  have hlp : ∀ x, ENNReal.ofReal (pr (P.fam.logpdf c.hyp c.stat x))
      = (Set.Icc l u).indicator (fun x => ENNReal.ofReal (1 / q)
          * gaussianPDF c.hyp.mu (Real.toNNReal (c.hyp.sigma ^ 2)) x) x := by
    intro x
    change ENNReal.ofReal (pr (if l ≤ x ∧ x ≤ u then
      ((normLogpdf x c.hyp.mu c.hyp.sigma - logZ c.hyp.mu c.hyp.sigma : ℝ) : LogP) else ⊥)) = _
    rw [ofReal_pr_ite]
    by_cases h : l ≤ x ∧ x ≤ u
    · rw [if_pos h, Set.indicator_of_mem (Set.mem_Icc.mpr h), gaussianPDF,
        gaussianPDFReal_exp (by positivity), ← ENNReal.ofReal_mul (by positivity), Real.exp_sub]
      congr 1
      rw [div_eq_mul_one_div, mul_comm]
      congr 2
      rw [Real.log_pow, normLogpdf, LOG2PI, Real.log_mul (by norm_num) Real.pi_pos.ne']
      push_cast
      ring
    · rw [if_neg h, Set.indicator_of_notMem (fun hc => h (Set.mem_Icc.mp hc))]
  have hcancel : ENNReal.ofReal q * ENNReal.ofReal (1 / q) = 1 := by
    rw [← ENNReal.ofReal_mul hq0.le, mul_one_div_cancel hq0.ne', ENNReal.ofReal_one]
  have hT : ∀ g : ℝ → ℝ≥0∞, ∫⁻ x in Set.Icc l u, g x ∂npNormal c.hyp.mu c.hyp.sigma
      = ENNReal.ofReal q * ∫⁻ x, g x * ENNReal.ofReal (pr (P.fam.logpdf c.hyp c.stat x)) := by
    intro g
    unfold npNormal
    rw [← lintegral_indicator measurableSet_Icc, lintegral_gaussianReal _ hv,
      ← lintegral_const_mul' _ _ ENNReal.ofReal_ne_top]
    refine lintegral_congr fun x => ?_
    rw [hlp]
    by_cases h : x ∈ Set.Icc l u
    · rw [Set.indicator_of_mem h, Set.indicator_of_mem h]
      calc _ = 1 * (gaussianPDF c.hyp.mu (Real.toNNReal (c.hyp.sigma ^ 2)) x * g x) :=
            (one_mul _).symm
        _ = _ := by rw [← hcancel]; ring
    · rw [Set.indicator_of_notMem h, Set.indicator_of_notMem h]
      simp
  have hsim : P.simulate c out r [out] [] []
      = (truncLoop l u c.hyp.mu c.hyp.sigma 1000).bind fun x => .pure [(out, x)] := by
    unfold Prim.simulate
    rw [if_neg (by simp), if_neg (by simp), if_neg (by simp), hr]
    rfl
  refine ⟨fun g hg => ?_, ?_, ?_⟩
  · rw [hsim, Draws.E_bind]
    exact trunc_E hZ hq0.le hq1 _ (hT fun x => g [(out, x)]) 1000
  · rw [hsim, Draws.fails_bind_pure]
    exact trunc_fails hZ hq0.le hq1 1000
  · have := hT fun _ => 1
    simp only [one_mul, setLIntegral_const] at this
    rw [npNormal, hZ] at this
    have h2 : ENNReal.ofReal q ≠ 0 := by simpa using hq0
    exact ((ENNReal.mul_right_inj h2 ENNReal.ofReal_ne_top).mp (this.symm.trans (by rw [mul_one])))

/-- The hypotheses of `C69_trunc` are met for bounds 0 and 1 by the standard normal. -/
example : ∃ logZ : ℝ → ℝ → ℝ,
    gaussianReal 0 (Real.toNNReal (1 ^ 2)) (Set.Icc 0 1) = ENNReal.ofReal (Real.exp (logZ 0 1)) := by
  refine ⟨fun _ _ => Real.log (gaussianReal 0 (Real.toNNReal (1 ^ 2)) (Set.Icc 0 1)).toReal, ?_⟩
  have hv : Real.toNNReal ((1 : ℝ) ^ 2) ≠ 0 := by simp
  have hne : gaussianReal 0 (Real.toNNReal (1 ^ 2)) (Set.Icc 0 1) ≠ 0 := by
    intro h
    have := gaussianReal_absolutelyContinuous' 0 hv h
    simp at this
  rw [Real.exp_log (ENNReal.toReal_pos hne (measure_ne_top _ _)),
    ENNReal.ofReal_toReal (measure_ne_top _ _)]

/-- **C69.** The Chinese restaurant process: for a customer that is not seated `simulate` returns
table `t` with the probability that `logpdf` reports; a seated customer keeps the table. -/
theorem C69_crp (alpha₀ : ℝ) (h₀ : 0 < alpha₀) (ops : List Crp.Op) (r : Row) :
    let s := (Crp.init alpha₀).run ops
    (seats ops r = none → ∀ g : Tab → ℝ≥0∞,
      (Draws.ofRand (s.draw (some r))).E g
        = (s.simulateSupport.map fun t => ENNReal.ofReal (pr (s.logpdf (some r) t)) * g t).sum) ∧
    ∀ t, seats ops r = some t → s.draw (some r) = .pure t := by
  intro s
  have hd : s.data.get? r = seats ops r := congrFun (data_run alpha₀ ops) r
  refine ⟨fun hr g => ?_, fun t ht => ?_⟩
  · obtain ⟨h1, h2, h3, h4, h5⟩ := C02_crp_predictive_normalised alpha₀ h₀ ops r hr
    have hb : (some r).bind s.data.get? = none := by simp [hd, hr]
    have hdr : s.draw (some r) = Rand.logPflip
        (s.simulateSupport.map fun x => Fl.ofLogP (s.logpdf (some r) x))
        (s.simulateSupport.map id) := by
      unfold Crp.draw
      rw [hb, List.map_id]
    rw [hdr, Draws.E_logPflip (p := fun t => pr (s.logpdf (some r) t)) id (fun i _ => pr_nonneg _)
      (fun t _ => ?_) (by rw [h5]; exact one_pos)]
    · rw [h5]
      simp only [div_one, id]
    · unfold Crp.logpdf
      rw [hb]
      exact ⟨⟨by simp [Fl.ofLogP], rfl⟩, by simp [Fl.ofLogP]⟩
  · unfold Crp.draw
    have : (some r).bind s.data.get? = some t := by simp [hd, ht]
    rw [this]

end Cgpm.Props
