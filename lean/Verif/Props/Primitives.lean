import Verif.Lemmas.PrimChain
import Mathlib.Data.List.FinRange

/-!
Properties C05-C07, C09: the univariate primitives of src/primitives.
The specification (`support`, `cells`) is in `Verif/Spec/Primitives.lean`.
C08 is in `Verif/Props/PrimNorm.lean`.
-/
namespace Cgpm.Props
open Cgpm Cgpm.Comp

/-! ### C05 -/

open Classical in
theorem prep_eq_remembered (p : Prim) (x : ℝ) :
    (∃ v, p.fam.prep x = .ok v ∧ remembered p x = some v) ∨
    (∃ e, p.fam.prep x = .error e ∧ remembered p x = none) := by
  by_cases hp : notBeta p
  · have e : remembered p x = if support p x then some x else none := by
      cases p <;> first | exact hp.elim | simp only [remembered]
    by_cases hs : support p x
    · exact .inl ⟨x, Prim.prep_ok hp hs, by rw [e, if_pos hs]⟩
    · obtain ⟨er, he⟩ := Prim.prep_err hp hs
      exact .inr ⟨er, he, by rw [e, if_neg hs]⟩
  · cases p
    case beta q =>
      have e : remembered (.beta q) x
          = if 0 < betaClamp x ∧ betaClamp x < 1 then some (betaClamp x) else none := by
        simp only [remembered, betaClamp, allclose, zero_sub, abs_neg]
        congr
      by_cases h : 0 < betaClamp x ∧ betaClamp x < 1
      · exact .inl ⟨betaClamp x, if_pos h, by rw [e, if_pos h]⟩
      · exact .inr ⟨.valueError, if_neg h, by rw [e, if_neg h]⟩
    all_goals exact absurd trivial hp

theorem prim_data_step (p : Prim) (c : Comp ℝ p.S p.H) (op : Op ℝ p.H) :
    (c.apply p.fam op).state.data.get? = cellStep p c.data.get? op := by
  funext r'
  cases op with
  | inc r x =>
    simp only [apply, cellStep]
    by_cases hr : c.data.get? r = none
    · rcases prep_eq_remembered p x with ⟨v, h1, h2⟩ | ⟨e, h1, h2⟩
      · rw [incorporate_ok hr h1, h2]
        simp only [Out.state_ok, Dict.get?_set, hr, and_true]
      · rw [incorporate_refused hr h1, h2]
        simp only [Out.state_err, hr, and_true]
        split
        · rename_i h; rw [h, hr]
        · rfl
    · rw [incorporate_dup hr, if_neg (by simp [hr]), Out.state_err]
  | unc r =>
    simp only [apply, cellStep]
    cases hr : c.data.get? r with
    | none =>
      rw [unincorporate_missing hr, Out.state_err]
      split
      · rename_i h; rw [h, hr]
      · rfl
    | some v => rw [unincorporate_ok hr, Out.state_ok]; exact Dict.get?_erase _ _ _
  | hyp k =>
    simp only [apply, cellStep, setHypers]
    split <;> rfl

theorem prim_data_run (p : Prim) (c : Comp ℝ p.S p.H) (ops : List (Op ℝ p.H)) :
    (c.run p.fam ops).data.get? = ops.foldl (cellStep p) c.data.get? := by
  induction ops generalizing c with
  | nil => rfl
  | cons op ops ih =>
    simp only [Comp.run, List.foldl_cons] at ih ⊢
    rw [ih, prim_data_step]

theorem prim_inv_run (p : Prim) (h : p.H) (ops : List (Op ℝ p.H)) :
    Inv p.fam ((init p.fam h).run p.fam ops) := (inv_init _ h).run p.lawful ops

theorem prim_vals_support {p : Prim} {c : Comp ℝ p.S p.H} (h : Inv p.fam c) :
    ∀ v ∈ c.data.vals, support p v := fun v hv =>
  let ⟨_, ho⟩ := h.stored v hv; Prim.stored_support ho

/-- **C05.** For every primitive and every history: the rows held are the replayed
ones (each once), and every value held lies in the support. -/
theorem C05_data_is_replay (p : Prim) (h : p.H) (ops : List (Op ℝ p.H)) :
    let c := (init p.fam h).run p.fam ops
    (∀ r, c.data.get? r = cells p ops r) ∧ c.data.keys.Nodup ∧
      ∀ v ∈ c.data.vals, support p v :=
  ⟨fun r => congrFun (prim_data_run p (init p.fam h) ops) r, (prim_inv_run p h ops).wf,
    prim_vals_support (prim_inv_run p h ops)⟩

/-- **C05.** bernoulli: `N` and `x_sum` are the sums over the rows held. -/
theorem C05_bernoulli (h : BernoulliH) (ops : List (Op ℝ BernoulliH)) :
    let c := (init bernoulli h).run bernoulli ops
    c.stat.N = c.data.length ∧ c.stat.x_sum = c.data.vals.sum := by
  intro c
  have e : c.stat = bernoulli.statOf c.data.vals := (prim_inv_run .bernoulli h ops).hstat
  rw [e, bernoulli_stat]; simp [Dict.vals]

/-- **C05.** categorical: `N` is the number of rows held and `counts[i]` the number of
them holding the value `i`. -/
theorem C05_categorical (k : ℕ) (h : CategoricalH) (ops : List (Op ℝ CategoricalH)) :
    let c := (init (categorical k) h).run (categorical k) ops
    c.stat.N = c.data.length ∧ c.stat.counts.length = k ∧
      ∀ i < k, c.stat.counts[i]? = some ((c.data.vals.count (i : ℝ) : ℕ) : ℤ) := by
  intro c
  have hi := prim_inv_run (.categorical k) h ops
  have e : c.stat = (categorical k).statOf c.data.vals := hi.hstat
  obtain ⟨h1, h2, h3⟩ := categorical_stat k c.data.vals
  rw [e]
  refine ⟨by rw [h1]; simp [Dict.vals], h2, fun i hik => ?_⟩
  rw [h3 i hik, List.count]
  congr 2
  apply List.countP_congr
  intro v hv
  obtain ⟨n, _, rfl⟩ := prim_vals_support hi v hv
  simp

/-- **C05.** exponential. -/
theorem C05_exponential (h : AbH) (ops : List (Op ℝ AbH)) :
    let c := (init exponential h).run exponential ops
    c.stat.N = c.data.length ∧ c.stat.sum_x = c.data.vals.sum := by
  intro c
  have e : c.stat = exponential.statOf c.data.vals := (prim_inv_run .exponential h ops).hstat
  rw [e, exponential_stat]; simp [Dict.vals]

/-- **C05.** geometric. -/
theorem C05_geometric (h : AbH) (ops : List (Op ℝ AbH)) :
    let c := (init geometric h).run geometric ops
    c.stat.N = c.data.length ∧ c.stat.sum_x = c.data.vals.sum := by
  intro c
  have e : c.stat = geometric.statOf c.data.vals := (prim_inv_run .geometric h ops).hstat
  rw [e, geometric_stat]; simp [Dict.vals]

/-- **C05.** poisson. -/
theorem C05_poisson (h : AbH) (ops : List (Op ℝ AbH)) :
    let c := (init poisson h).run poisson ops
    c.stat.N = c.data.length ∧ c.stat.sum_x = c.data.vals.sum ∧
      c.stat.sum_log_fact_x = (c.data.vals.map fun x => Real.log (Real.Gamma (x + 1))).sum := by
  intro c
  have e : c.stat = poisson.statOf c.data.vals := (prim_inv_run .poisson h ops).hstat
  rw [e, poisson_stat]; simp [Dict.vals, gammaln]

/-- **C05.** normal. -/
theorem C05_normal (h : NormalH) (ops : List (Op ℝ NormalH)) :
    let c := (init normal h).run normal ops
    c.stat.N = c.data.length ∧ c.stat.sum_x = c.data.vals.sum ∧
      c.stat.sum_x_sq = (c.data.vals.map (· ^ 2)).sum := by
  intro c
  have e : c.stat = normal.statOf c.data.vals := (prim_inv_run .normal h ops).hstat
  rw [e, normal_stat]; simp [Dict.vals, pow_two]

/-- **C05.** lognormal. -/
theorem C05_lognormal (h : NormalH) (ops : List (Op ℝ NormalH)) :
    let c := (init lognormal h).run lognormal ops
    c.stat.N = c.data.length ∧ c.stat.sum_log_x = (c.data.vals.map Real.log).sum ∧
      c.stat.sum_log_x_sq = (c.data.vals.map fun x => Real.log x ^ 2).sum := by
  intro c
  have e : c.stat = lognormal.statOf c.data.vals := (prim_inv_run .lognormal h ops).hstat
  rw [e, lognormal_stat]; simp [Dict.vals, pow_two]

/-- **C05.** vonmises. -/
theorem C05_vonmises (f : ℝ → ℝ) (h : VonmisesH) (ops : List (Op ℝ VonmisesH)) :
    let c := (init (vonmises f) h).run (vonmises f) ops
    c.stat.N = c.data.length ∧ c.stat.sum_sin_x = (c.data.vals.map Real.sin).sum ∧
      c.stat.sum_cos_x = (c.data.vals.map Real.cos).sum := by
  intro c
  have e : c.stat = (vonmises f).statOf c.data.vals := (prim_inv_run (.vonmises f) h ops).hstat
  rw [e, vonmises_stat]; simp [Dict.vals]

/-- **C05.** normal_trunc. -/
theorem C05_normal_trunc (l u : ℝ) (z q : ℝ → ℝ → ℝ) (h : NormalTruncP)
    (ops : List (Op ℝ NormalTruncP)) :
    let c := (init (normalTrunc l u z q) h).run (normalTrunc l u z q) ops
    c.stat.N = c.data.length ∧ c.stat.sum_x = c.data.vals.sum ∧
      c.stat.sum_x_sq = (c.data.vals.map (· ^ 2)).sum := by
  intro c
  have e : c.stat = (normalTrunc l u z q).statOf c.data.vals :=
    (prim_inv_run (.normalTrunc l u z q) h ops).hstat
  rw [e, normalTrunc_stat]; simp [Dict.vals, pow_two]

/-- **C05.** beta (sums over the values as remembered, i.e. after clamping). -/
theorem C05_beta (q : ℝ → ℝ → ℝ) (h : BetaP) (ops : List (Op ℝ BetaP)) :
    let c := (init (beta q) h).run (beta q) ops
    c.stat.N = c.data.length ∧ c.stat.sum_log_x = (c.data.vals.map Real.log).sum ∧
      c.stat.sum_minus_log_x = (c.data.vals.map fun x => Real.log (1 - x)).sum := by
  intro c
  have e : c.stat = (beta q).statOf c.data.vals := (prim_inv_run (.beta q) h ops).hstat
  rw [e, beta_stat]; simp [Dict.vals]

/-- **C05.** Two histories that leave the same rows with the same values report the
same statistics, whatever came and went and in whatever order. -/
theorem C05_order_independent (p : Prim) (h h' : p.H) (ops ops' : List (Op ℝ p.H))
    (same : cells p ops = cells p ops') :
    ((init p.fam h).run p.fam ops).stat = ((init p.fam h').run p.fam ops').stat := by
  have i := prim_inv_run p h ops
  have i' := prim_inv_run p h' ops'
  rw [i.hstat, i'.hstat]
  apply p.lawful.statOf_perm
  apply List.Perm.map
  apply Dict.perm_of_get? i.wf i'.wf
  intro r
  rw [(C05_data_is_replay p h ops).1, (C05_data_is_replay p h' ops').1, same]

/-- **C05.** Incorporating a row and removing it again gives back the very same
component. -/
theorem C05_undo (p : Prim) (h : p.H) (ops : List (Op ℝ p.H)) (r : Row) (x : ℝ) :
    let c := (init p.fam h).run p.fam ops
    (c.incorporate p.fam r x).isOk = true →
      ((c.incorporate p.fam r x).state).unincorporate p.fam r = .ok c := by
  intro c hok
  by_cases hr : c.data.get? r = none
  · rcases prep_eq_remembered p x with ⟨v, h1, _⟩ | ⟨e, h1, _⟩
    · rw [incorporate_ok hr h1, Out.state_ok,
        unincorporate_ok (x := v) (by simp [Dict.get?_set_self])]
      simp [Dict.erase_set_of_not_mem v hr, p.lawful.sub_add]
    · rw [incorporate_refused hr h1] at hok; cases hok
  · rw [incorporate_dup hr] at hok; cases hok

/-- Non-vacuity: a history with a refusal, a removal and a duplicate. -/
example : cells .bernoulli [.inc 0 1, .inc 1 7, .inc 2 0, .unc 2, .inc 0 0, .inc 3 1] 0 = some 1
    ∧ cells .bernoulli [.inc 0 1, .inc 1 7, .inc 2 0, .unc 2, .inc 0 0, .inc 3 1] 1 = none := by
  constructor <;> simp [cells, cellStep, remembered, support]

example : ((init (beta fun _ _ => 0) ⟨1, 1/2⟩).incorporate (beta fun _ _ => 0) 3 (1/4)).isOk
    = true := by
  have : betaClamp (1/4) = 1/4 := by
    unfold betaClamp allclose
    rw [if_neg (by rw [abs_of_nonpos] <;> norm_num [abs_of_pos]),
      if_neg (by rw [abs_of_pos] <;> norm_num [abs_of_pos])]
  simp only [incorporate, init, beta, Dict.has, Dict.get?, this]
  norm_num

/-! ### C06 -/

/-- **C06.** `incorporate` succeeds exactly for an unseen row and a supported value;
`unincorporate` exactly for a row held; a call that raises changes nothing.
(All primitives but beta; see `C06_beta_clamp_violated`.) -/
theorem C06_refusals (p : Prim) (hp : notBeta p) (h : p.H) (ops : List (Op ℝ p.H)) (op : Op ℝ p.H) :
    let c := (init p.fam h).run p.fam ops
    ((c.apply p.fam op).isOk = true ↔ match op with
      | .inc r x => cells p ops r = none ∧ support p x
      | .unc r => cells p ops r ≠ none
      | .hyp k => hypersValid p k) ∧
    ((c.apply p.fam op).isOk = false → (c.apply p.fam op).state = c) := by
  intro c
  have hd : ∀ r, c.data.get? r = cells p ops r := (C05_data_is_replay p h ops).1
  cases op with
  | inc r x =>
    simp only [← hd, apply]
    by_cases hr : c.data.get? r = none
    · by_cases hs : support p x
      · simp [incorporate_ok hr (Prim.prep_ok hp hs), hr, hs]
      · obtain ⟨e, he⟩ := Prim.prep_err hp hs
        simp [incorporate_refused hr he, hs]
    · simp [incorporate_dup hr, hr]
  | unc r =>
    simp only [← hd, apply]
    cases hr : c.data.get? r with
    | none => simp [unincorporate_missing hr]
    | some x => simp [unincorporate_ok hr]
  | hyp k =>
    have hk : p.fam.hypOk k ↔ hypersValid p k := by cases p <;> exact Iff.rfl
    simp only [apply, setHypers, ← hk]
    split <;> simp_all

/-- **C06.** A refused call changes nothing, beta included. -/
theorem C06_refused_changes_nothing (p : Prim) (c : Comp ℝ p.S p.H) (op : Op ℝ p.H)
    (hf : (c.apply p.fam op).isOk = false) : (c.apply p.fam op).state = c := by
  cases op with
  | inc r x =>
    simp only [apply, incorporate] at hf ⊢
    split
    · rfl
    · rename_i h
      cases hx : p.fam.prep x with
      | error e => rfl
      | ok v => simp [h, hx] at hf
  | unc r =>
    simp only [apply, unincorporate] at hf ⊢
    cases hx : c.data.get? r with
    | none => rfl
    | some v => simp [hx] at hf
  | hyp k =>
    simp only [apply, setHypers] at hf ⊢
    split
    · rename_i h; simp [h] at hf
    · rfl

/-- **C06.** `logpdf` raises exactly for a row already held, and otherwise is `-inf`
exactly for the values `incorporate` refuses (all primitives but beta). -/
theorem C06_logpdf_support (p : Prim) (hp : notBeta p) (h : p.H) (ops : List (Op ℝ p.H))
    (r : Row) (x : ℝ) :
    let c := (init p.fam h).run p.fam ops
    (cells p ops r ≠ none → c.logpdf p.fam (some r) x = .error .assertion) ∧
    (cells p ops r = none → ∃ v, c.logpdf p.fam (some r) x = .ok v ∧
      (v = ⊥ ↔ (c.incorporate p.fam r x).isOk = false) ∧ (v = ⊥ ↔ ¬ support p x)) := by
  intro c
  have hd : c.data.get? r = cells p ops r := (C05_data_is_replay p h ops).1 r
  constructor
  · intro hr
    rw [← hd] at hr
    obtain ⟨v, hv⟩ := Option.ne_none_iff_exists'.mp hr
    simp [Comp.logpdf, hv]
  · intro hr
    rw [← hd] at hr
    refine ⟨p.fam.logpdf c.hyp c.stat x, by simp [Comp.logpdf, hr], ?_, p.logpdf_bot_iff _ _ _⟩
    rw [p.logpdf_bot_iff]
    by_cases hs : support p x
    · simp [incorporate_ok hr (Prim.prep_ok hp hs), hs]
    · obtain ⟨e, he⟩ := Prim.prep_err hp hs
      simp [incorporate_refused hr he, hs]

/-- **C06 is false for beta**: the value 0 is accepted by `incorporate` (it is stored
as .001), yet its log density is `-inf` (src/primitives/beta.py:62-65 against :81). -/
theorem C06_beta_clamp_violated (q : ℝ → ℝ → ℝ) (h : BetaP) (r : Row) :
    ((init (beta q) h).incorporate (beta q) r 0).isOk = true ∧
    (init (beta q) h).logpdf (beta q) (some r) 0 = .ok ⊥ := by
  have hc : betaClamp 0 = 1 / 1000 := by
    unfold betaClamp allclose
    rw [if_pos (by simp)]
  constructor
  · simp only [incorporate, init, beta, Dict.has, Dict.get?, hc]
    norm_num
  · simp [Comp.logpdf, init, Dict.get?, beta]

/-- **C06, beta, the part that holds**: away from the tolerance of 0 and 1 the value is
accepted exactly when it lies in (0,1), and otherwise its log density is `-inf`. -/
theorem C06_beta_partial (q : ℝ → ℝ → ℝ) (c : Comp ℝ BetaS BetaP) (r : Row) (x : ℝ)
    (hr : c.data.get? r = none)
    (h0 : ¬ |x| ≤ 1 / 10 ^ 8 + 1 / 10 ^ 5 * |x|) (h1 : ¬ |1 - x| ≤ 1 / 10 ^ 8 + 1 / 10 ^ 5 * |x|) :
    ∃ v, c.logpdf (beta q) (some r) x = .ok v ∧
      (v = ⊥ ↔ (c.incorporate (beta q) r x).isOk = false) ∧ (v = ⊥ ↔ ¬ (0 < x ∧ x < 1)) := by
  have hc : betaClamp x = x := by
    unfold betaClamp allclose
    rw [if_neg (by simpa using h0), if_neg h1]
  refine ⟨(beta q).logpdf c.hyp c.stat x, by simp [Comp.logpdf, hr], ?_,
    Prim.logpdf_bot_iff (.beta q) _ _ _⟩
  rw [show (beta q).logpdf c.hyp c.stat x = ⊥ ↔ ¬ (0 < x ∧ x < 1) from
    Prim.logpdf_bot_iff (.beta q) _ _ _]
  by_cases hs : 0 < x ∧ x < 1
  · have hp : (beta q).prep x = .ok x := by simp only [beta, hc]; rw [if_pos hs]
    rw [incorporate_ok hr hp]; simp [hs]
  · have hp : (beta q).prep x = .error .valueError := by simp only [beta, hc]; rw [if_neg hs]
    rw [incorporate_refused hr hp]; simp [hs]

/-- The refusals of the geometric component surface as TypeError, not ValueError
(src/primitives/geometric.py:51). -/
theorem C06_geometric_raises_type_error (h : AbH) (r : Row) :
    (init geometric h).incorporate geometric r (-1) = .err .typeError (init geometric h) := by
  have : ¬ (isInt (-1) ∧ (0:ℝ) ≤ -1) := by norm_num
  exact incorporate_refused rfl (if_neg this)

example : support (.categorical 3) 2 ∧ ¬ support (.categorical 3) 3 ∧ ¬ support .exponential (-1) := by
  refine ⟨⟨2, by norm_num, by norm_num⟩, ?_, by norm_num [support]⟩
  rintro ⟨n, hn, h⟩
  have : n = 3 := by exact_mod_cast h.symm
  omega

/-! ### C07 -/

/-- **C07.** For every primitive and every history, the log density of a supported
value for a new row is `logpdf_score` after incorporating it minus `logpdf_score`
before.  (For beta the value must be stored unclamped.) -/
theorem C07_predictive_is_score_difference (p : Prim) (h : p.H) (hk : p.fam.hypOk h)
    (ops : List (Op ℝ p.H)) (r : Row) (x : ℝ) (hr : cells p ops r = none)
    (hx : remembered p x = some x) :
    let c := (init p.fam h).run p.fam ops
    c.logpdf p.fam (some r) x =
      .ok (((c.incorporate p.fam r x).state.score p.fam - c.score p.fam : ℝ) : LogP) := by
  intro c
  have hd : c.data.get? r = none := by rw [← hr]; exact (C05_data_is_replay p h ops).1 r
  have i := prim_inv_run p h ops
  have hpr : p.fam.prep x = .ok x := by
    rcases prep_eq_remembered p x with ⟨v, h1, h2⟩ | ⟨e, h1, h2⟩
    · rw [hx] at h2; cases h2; exact h1
    · rw [hx] at h2; cases h2
  have hsupp := Prim.stored_support hpr
  have hkc : p.fam.hypOk c.hyp := hypOk_run hk ops
  have := p.chain hkc (prim_vals_support i) hsupp
  simp only [Comp.logpdf, Option.bind_some, hd]
  rw [incorporate_ok hd hpr]
  simp only [Out.state_ok, Comp.score]
  rw [i.hstat, this]

/-- Generalisation of the chain rule to any starting component satisfying the invariant. -/
theorem prim_chain_from (p : Prim) (hp : notBeta p) (c : Comp ℝ p.S p.H) (i : Inv p.fam c)
    (hk : p.fam.hypOk c.hyp) (l : List (Row × ℝ)) (hl : (l.map Prod.fst).Nodup)
    (hf : ∀ q ∈ l, c.data.get? q.1 = none) (hs : ∀ q ∈ l, support p q.2) :
    (((c.run p.fam (incAll l)).score p.fam : ℝ) : LogP)
      = ((c.score p.fam : ℝ) : LogP) + predictiveSum p.fam c l := by
  induction l generalizing c with
  | nil => simp [Comp.run, incAll, predictiveSum]
  | cons q l ih =>
    obtain ⟨r, x⟩ := q
    have hr : c.data.get? r = none := hf (r, x) (by simp)
    have hx : support p x := hs (r, x) (by simp)
    have hpr := Prim.prep_ok hp hx
    have hinc := incorporate_ok hr hpr
    have key := p.chain hk (prim_vals_support i) hx
    have hn : r ∉ l.map Prod.fst := (List.nodup_cons.mp hl).1
    have := ih (c.incorporate p.fam r x).state (i.incorporate r x)
      (by rw [hinc]; exact hk) (List.nodup_cons.mp hl).2
      (fun q' hq' => by
        rw [hinc, Out.state_ok]
        simp only [Dict.get?_set]
        rw [if_neg (fun e => hn (by rw [← e]; exact List.mem_map_of_mem hq'))]
        exact hf q' (by simp [hq']))
      (fun q' hq' => hs q' (by simp [hq']))
    have e1 : c.run p.fam (incAll ((r, x) :: l))
        = (c.incorporate p.fam r x).state.run p.fam (incAll l) := rfl
    rw [e1, this]
    have e2 : predictiveSum p.fam c ((r, x) :: l)
        = p.fam.logpdf c.hyp c.stat x + predictiveSum p.fam (c.incorporate p.fam r x).state l := by
      simp [predictiveSum, Comp.logpdf, hr]
    have e3 : (c.incorporate p.fam r x).state.score p.fam
        = p.fam.score c.hyp (p.fam.add (p.fam.statOf c.data.vals) x) := by
      rw [hinc]; simp [Comp.score, i.hstat]
    rw [e2, e3, ← add_assoc]
    congr 1
    rw [i.hstat, key, Comp.score, i.hstat, ← WithBot.coe_add]
    congr 1; ring

/-- **C07.** For every collapsed primitive, `logpdf_score` of a data set is the sum of
the one-step-ahead log predictives reported while its rows are observed in order. -/
theorem C07_score_is_chain_of_predictives (p : Prim) (hc : p.collapsed) (h : p.H)
    (hk : p.fam.hypOk h) (l : List (Row × ℝ)) (hl : (l.map Prod.fst).Nodup)
    (hs : ∀ q ∈ l, support p q.2) :
    (((((init p.fam h).run p.fam (incAll l)).score p.fam : ℝ)) : LogP)
      = predictiveSum p.fam (init p.fam h) l := by
  have hp : notBeta p := by cases p <;> trivial
  rw [prim_chain_from p hp (init p.fam h) (inv_init _ h) hk l hl (fun _ _ => rfl) hs]
  have : (init p.fam h).score p.fam = 0 := p.score_zero hc hk
  rw [this]; simp

/-- **C07.** Exchangeability: histories leaving the same rows with the same values, and
the same hyperparameters, report the same score. -/
theorem C07_exchangeable (p : Prim) (h h' : p.H) (ops ops' : List (Op ℝ p.H))
    (same : cells p ops = cells p ops')
    (hh : ((init p.fam h).run p.fam ops).hyp = ((init p.fam h').run p.fam ops').hyp) :
    ((init p.fam h).run p.fam ops).score p.fam = ((init p.fam h').run p.fam ops').score p.fam := by
  simp only [Comp.score]
  rw [C05_order_independent p h h' ops ops' same, hh]

/-- Non-vacuity: a Poisson data set observed in order. -/
example : ((incAll [(0, 3), (1, 0)] : List (Op ℝ AbH)).length = 2) ∧
    poisson.hypOk ⟨1, 2⟩ ∧ ∀ q ∈ [((0 : Row), (3 : ℝ)), (1, 0)], support .poisson q.2 := by
  refine ⟨rfl, ⟨by norm_num, by norm_num⟩, ?_⟩
  intro q hq
  simp at hq
  rcases hq with rfl | rfl
  · exact ⟨3, by norm_num⟩
  · exact ⟨0, by norm_num⟩

/-- Non-vacuity: a bernoulli component that saw a 1 with a uniform prior predicts a
second 1 with probability 2/3. -/
example : ((init bernoulli ⟨1, 1⟩).run bernoulli [.inc 0 1]).logpdf bernoulli (some 1) 1
    = .ok ((Real.log 2 - Real.log 3 : ℝ) : LogP) := by
  have h : (init bernoulli ⟨1, 1⟩).run bernoulli [.inc 0 1]
      = { data := [(0, 1)], stat := ⟨1, 1⟩, hyp := ⟨1, 1⟩ } := by
    simp [Comp.run, Comp.apply, incorporate, init, Dict.has, Dict.get?, Dict.set, bernoulli]
  rw [h]
  simp [Comp.logpdf, Dict.get?, bernoulli, bernoulliPredictive]
  norm_num

/-! ### C09 -/

/-- Sum of squares dominates: the algebraic heart of C09. -/
theorem posterior_scale (l : List ℝ) (m r : ℝ) (hr : 0 < r) :
    0 ≤ (l.map (· ^ 2)).sum + r * m * m
      - (r + l.length) * ((r * m + l.sum) / (r + l.length)) * ((r * m + l.sum) / (r + l.length)) := by
  have hpos : 0 < r + (l.length : ℝ) := by positivity
  -- Cauchy-Schwarz by induction: (r m + Σx)² ≤ (r + n)(r m² + Σx²)
  have cs : (r * m + l.sum) ^ 2 ≤ (r + l.length) * (r * m * m + (l.map (· ^ 2)).sum) := by
    clear hpos
    induction l with
    | nil => simp; nlinarith [sq_nonneg m]
    | cons x l ih =>
      simp only [List.sum_cons, List.length_cons, List.map_cons]
      push_cast
      have hn : 0 < r + (l.length : ℝ) := by positivity
      set A := r * m + l.sum
      set n := r + (l.length : ℝ)
      set Q := r * m * m + (l.map (· ^ 2)).sum
      have e1 : r * m + (x + l.sum) = A + x := by simp only [A]; ring
      have e2 : r + ((l.length : ℝ) + 1) = n + 1 := by simp only [n]; ring
      have e3 : r * m * m + (x ^ 2 + (l.map (· ^ 2)).sum) = Q + x ^ 2 := by simp only [Q]; ring
      rw [e1, e2, e3]
      -- (A+x)² = A² + 2Ax + x² ≤ nQ + Q + n x² + x² since (A - n x)² ≥ 0 and A² ≤ nQ
      have h2 : 2 * A * x ≤ Q + n * x ^ 2 := by
        have : 0 ≤ (A - n * x) ^ 2 := sq_nonneg _
        have : n * (2 * A * x) ≤ n * (Q + n * x ^ 2) := by nlinarith
        exact le_of_mul_le_mul_left this hn
      nlinarith
  have e : (r + l.length) * ((r * m + l.sum) / (r + l.length)) * ((r * m + l.sum) / (r + l.length))
      = (r * m + l.sum) ^ 2 / (r + l.length) := by field_simp
  rw [e, sub_nonneg, div_le_iff₀ hpos]
  linarith

/-- **C09.** normal: after any history, for all admissible hyperparameters, the
posterior scale is at least `s` (hence positive), it is the textbook expression (the
guard for a zero scale never fires) and the other arguments of logarithm and
gamma are positive. -/
theorem C09_normal_scale (h : NormalH) (hk : normal.hypOk h) (ops : List (Op ℝ NormalH)) :
    let c := (init normal h).run normal ops
    let x := c.data.vals
    let q := normalPosterior c.stat.N c.stat.sum_x c.stat.sum_x_sq c.hyp.m c.hyp.r c.hyp.s c.hyp.nu
    c.hyp.s ≤ q.2.2.1 ∧ 0 < q.2.2.1 ∧ 0 < q.2.1 ∧ 0 < q.2.2.2 ∧
    q.2.2.1 = c.hyp.s + (x.map (· ^ 2)).sum + c.hyp.r * c.hyp.m ^ 2
      - (c.hyp.r * c.hyp.m + x.sum) ^ 2 / (c.hyp.r + x.length) := by
  intro c x q
  have hkc : normal.hypOk c.hyp := hypOk_run hk ops
  obtain ⟨hr, hs, hnu⟩ := hkc
  obtain ⟨hN, hx, hxx⟩ := C05_normal h ops
  have hlen : ((c.data.length : ℕ) : ℝ) = (x.length : ℝ) := by simp [x, Dict.vals]
  have key := posterior_scale x c.hyp.m c.hyp.r hr
  have hpos : 0 < c.hyp.r + (x.length : ℝ) := by positivity
  have hsn : c.hyp.s + c.stat.sum_x_sq + c.hyp.r * c.hyp.m * c.hyp.m
      - (c.hyp.r + (c.stat.N : ℝ)) * ((c.hyp.r * c.hyp.m + c.stat.sum_x) / (c.hyp.r + (c.stat.N : ℝ)))
        * ((c.hyp.r * c.hyp.m + c.stat.sum_x) / (c.hyp.r + (c.stat.N : ℝ)))
      = c.hyp.s + ((x.map (· ^ 2)).sum + c.hyp.r * c.hyp.m * c.hyp.m
      - (c.hyp.r + x.length) * ((c.hyp.r * c.hyp.m + x.sum) / (c.hyp.r + x.length))
        * ((c.hyp.r * c.hyp.m + x.sum) / (c.hyp.r + x.length))) := by
    rw [show c.stat.N = c.data.length from hN, show c.stat.sum_x = x.sum from hx,
      show c.stat.sum_x_sq = (x.map (· ^ 2)).sum from hxx, Int.cast_natCast, hlen]
    ring
  have hge : c.hyp.s ≤ q.2.2.1 ∧ q.2.2.1 = c.hyp.s + ((x.map (· ^ 2)).sum + c.hyp.r * c.hyp.m * c.hyp.m
      - (c.hyp.r + x.length) * ((c.hyp.r * c.hyp.m + x.sum) / (c.hyp.r + x.length))
        * ((c.hyp.r * c.hyp.m + x.sum) / (c.hyp.r + x.length))) := by
    simp only [q, normalPosterior, hsn]
    have hs' : 0 < c.hyp.s := hs
    rw [if_neg (by linarith)]
    exact ⟨by linarith, rfl⟩
  have hs' : 0 < c.hyp.s := hs
  have hnu' : 0 < c.hyp.nu := hnu
  refine ⟨hge.1, by linarith [hge.1], ?_, ?_, ?_⟩
  · change 0 < c.hyp.r + (c.stat.N : ℝ)
    rw [show c.stat.N = c.data.length from hN, Int.cast_natCast, hlen]; exact hpos
  · change 0 < c.hyp.nu + (c.stat.N : ℝ)
    rw [show c.stat.N = c.data.length from hN, Int.cast_natCast]; positivity
  · rw [hge.2]; field_simp; ring

/-- **C09.** lognormal: the same for the logarithms of the values. -/
theorem C09_lognormal_scale (h : NormalH) (hk : lognormal.hypOk h) (ops : List (Op ℝ NormalH)) :
    let c := (init lognormal h).run lognormal ops
    let q := normalPosterior c.stat.N c.stat.sum_log_x c.stat.sum_log_x_sq
      c.hyp.m c.hyp.r c.hyp.s c.hyp.nu
    c.hyp.s ≤ q.2.2.1 ∧ 0 < q.2.2.1 ∧ 0 < q.2.1 ∧ 0 < q.2.2.2 := by
  intro c q
  have hkc : lognormal.hypOk c.hyp := hypOk_run hk ops
  obtain ⟨hr, hs, hnu⟩ := hkc
  obtain ⟨hN, hx, hxx⟩ := C05_lognormal h ops
  set y := c.data.vals.map Real.log with hy
  have hlen : ((c.data.length : ℕ) : ℝ) = (y.length : ℝ) := by simp [y, Dict.vals]
  have key := posterior_scale y c.hyp.m c.hyp.r hr
  have hyy : (c.data.vals.map fun x => Real.log x ^ 2).sum = (y.map (· ^ 2)).sum := by
    rw [hy, List.map_map]; rfl
  have hpos : 0 < c.hyp.r + (y.length : ℝ) := by positivity
  have hs' : 0 < c.hyp.s := hs
  have hnu' : 0 < c.hyp.nu := hnu
  have hge : c.hyp.s ≤ q.2.2.1 := by
    simp only [q, normalPosterior]
    rw [show c.stat.N = c.data.length from hN, show c.stat.sum_log_x = y.sum from hx,
      show c.stat.sum_log_x_sq = _ from hxx, hyy, Int.cast_natCast, hlen]
    split
    · exact le_refl _
    · linarith
  refine ⟨hge, by linarith, ?_, ?_⟩
  · change 0 < c.hyp.r + (c.stat.N : ℝ)
    rw [show c.stat.N = c.data.length from hN, Int.cast_natCast]; positivity
  · change 0 < c.hyp.nu + (c.stat.N : ℝ)
    rw [show c.stat.N = c.data.length from hN, Int.cast_natCast]; positivity

/-- Non-vacuity: `m = 0, r = s = nu = 1` after one observation 3: the scale is 11/2. -/
example : (normalPosterior 1 3 9 0 1 1 1).2.2.1 = 11 / 2 := by
  norm_num [normalPosterior]

end Cgpm.Props
