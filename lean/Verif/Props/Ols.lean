import Verif.Lemmas.Ols

/-!
C68: `OrdinaryLeastSquares` answers queries about a normal distribution around its predictions.
-/
namespace Cgpm.Props
open Cgpm Cgpm.Spec Cgpm.Spec.Ols MeasureTheory

variable {o : OlsReg}

theorem ols_unseen {r : Option Row} (hr : ∀ s, r = some s → s ∉ rows o) :
    r.any o.rows.x.has = false ∧ r.bind o.rows.x.get? = none := by
  cases r with
  | none => exact ⟨rfl, rfl⟩
  | some s =>
    have := (Dict.get?_eq_none_iff _ _).mpr (hr s rfl)
    exact ⟨(Dict.has_false_iff _ _).mpr this, this⟩

theorem ols_preprocess (hV : Valid o) {ins : Vals} (h : Given o ins) (T : Vals) :
    Ols.preprocess o.g T (some ins) =
      if T = [] then .ok (none, rowCode (levels o) (inputRow o.g.inputs ins))
      else match T.get? o.g.output with
        | some (some x) => .ok (some x, rowCode (levels o) (inputRow o.g.inputs ins))
        | _ => .error .valueError := by
  have h1 : ins.has o.g.output = false := by
    rw [← Bool.not_eq_true, Dict.has_iff, h.same]; exact hV.apart
  have h2 : o.g.sameKeys ins = true := (sameKeys_iff o.g ins).mpr h.same
  have h3 : (o.g.inputs.map fun i => (ins.get? i).getD none).any Option.isNone = false := by
    rw [← Bool.not_eq_true, List.any_eq_true]
    rintro ⟨v, hv, h0⟩
    cases v with
    | none => exact h.value hv
    | some _ => cases h0
  have h4 : dummyCode (o.g.inputs.map fun i => (ins.get? i).getD none) o.g.discretes
      = .ok (rowCode (levels o) (inputRow o.g.inputs ins)) := C38_code _ _ h.valid
  have h5 : ¬ (rowCode (levels o) (inputRow o.g.inputs ins)).length ≠ o.g.p - 1 := by
    rw [not_not, rowCode_length, hV.p, inputRow, List.length_map]; rfl
  unfold Ols.preprocess
  simp only [h1, h2, h3, h4, h5, Bool.not_true, Bool.false_eq_true, if_false]
  cases T with
  | nil => rfl
  | cons q T =>
    simp only [List.isEmpty_cons, Bool.false_eq_true, if_false, reduceCtorEq]
    cases hq : Dict.get? (q :: T) o.g.output with
    | none => rfl
    | some v => cases v <;> rfl

theorem ols_preprocess_other {inputs : Option Vals} (h : ¬ ∃ ins, inputs = some ins ∧ Given o ins)
    (T : Vals) : ∃ e, Ols.preprocess o.g T inputs = .error e := by
  cases inputs with
  | none => exact ⟨_, rfl⟩
  | some ins =>
    have h : ¬ Given o ins := fun hh => h ⟨ins, rfl, hh⟩
    unfold Ols.preprocess
    simp only
    split
    · exact ⟨_, rfl⟩
    · split
      · exact ⟨_, rfl⟩
      · split
        · exact ⟨_, rfl⟩
        · rename_i h1
          split
          · exact ⟨_, rfl⟩
          · rename_i h2
            have h3 : ¬ ValidRow o.g.discretes.get? (o.g.inputs.map fun i => (ins.get? i).getD none) := by
              intro hv
              refine h ⟨(sameKeys_iff o.g ins).mp (by simpa using h1), hv, fun hn => h2 ?_⟩
              exact List.any_eq_true.mpr ⟨none, hn, rfl⟩
            rcases C38_rejects _ _ h3 with e | e <;> rw [e] <;> exact ⟨_, rfl⟩

/-- **C68** The log density of a value is that of the normal distribution around the prediction, with
the noise as its standard deviation. -/
theorem C68_logpdf (hV : Valid o) {f : List ℝ → ℝ} (hf : o.reg = some f) (hs : 0 < o.noise)
    {r : Option Row} (hr : ∀ s, r = some s → s ∉ rows o) {ins : Vals} (hI : Given o ins) (x : ℝ) :
    o.logpdf r [(o.g.output, some x)] [] (some ins)
      = .ok (Real.log (Rand.normalDensity (f (covariates o ins)) o.noise x)) := by
  unfold OlsReg.logpdf
  rw [(ols_unseen hr).1, if_neg (by simp), if_neg (by simp), ols_preprocess hV hI, if_neg (by simp)]
  simp only [Dict.get?, if_true, OlsReg.predict, hf]
  rw [OlsReg.logpdfGaussian, if_pos hs, OlsReg.log_normalDensity _ hs]
  congr 1
  change _ - 1 / 2 * (x - f (covariates o ins)) * (x - f (covariates o ins)) / (o.noise * o.noise) = _
  field_simp

/-- **C68** The density integrates to one. -/
theorem C68_normalised (m : ℝ) (hs : 0 < o.noise) :
    (∀ x, 0 < Rand.normalDensity m o.noise x) ∧ ∫ x, Rand.normalDensity m o.noise x = 1 :=
  ⟨Rand.normalDensity_pos m hs, Rand.integral_normalDensity m hs⟩

/-- **C68** Exactly these density queries are refused: at a row of the data, with constraints, without a
value of the output, with other inputs than the declared ones, before the regression has been fitted,
or with a noise that is not positive. -/
theorem C68_logpdf_refused (hV : Valid o) (r : Option Row) (T C : Vals) (inputs : Option Vals) :
    (∃ e, o.logpdf r T C inputs = .error e) ↔
      (∃ s, r = some s ∧ s ∈ rows o) ∨ C ≠ [] ∨ (¬ ∃ x, T.get? o.g.output = some (some x)) ∨
      (¬ ∃ ins, inputs = some ins ∧ Given o ins) ∨ o.reg = none ∨ o.noise ≤ 0 := by
  unfold OlsReg.logpdf
  by_cases h1 : ∃ s, r = some s ∧ s ∈ rows o
  · have : r.any o.rows.x.has = true := by
      obtain ⟨s, rfl, hs⟩ := h1
      exact (Dict.has_iff _ _).mpr hs
    rw [if_pos this]
    exact ⟨fun _ => .inl h1, fun _ => ⟨_, rfl⟩⟩
  have hr : ∀ s, r = some s → s ∉ rows o := fun s e hs => h1 ⟨s, e, hs⟩
  rw [(ols_unseen hr).1, if_neg (by simp)]
  by_cases h2 : C = []
  swap
  · rw [if_pos (by simpa using h2)]
    exact ⟨fun _ => .inr (.inl h2), fun _ => ⟨_, rfl⟩⟩
  rw [if_neg (by simp [h2])]
  by_cases h3 : ∃ ins, inputs = some ins ∧ Given o ins
  swap
  · obtain ⟨e, he⟩ := ols_preprocess_other h3 T
    rw [he]
    exact ⟨fun _ => .inr (.inr (.inr (.inl h3))), fun _ => ⟨_, rfl⟩⟩
  obtain ⟨ins, rfl, hI⟩ := h3
  rw [ols_preprocess hV hI]
  by_cases h0 : T = []
  · subst h0
    rw [if_pos rfl]
    refine ⟨fun _ => .inr (.inr (.inl (by simp))), fun _ => ?_⟩
    simp only [OlsReg.predict]
    cases o.reg <;> exact ⟨_, rfl⟩
  rw [if_neg h0]
  by_cases h4 : ∃ x, T.get? o.g.output = some (some x)
  swap
  · refine ⟨fun _ => .inr (.inr (.inl h4)), fun _ => ?_⟩
    split
    · exact ⟨_, rfl⟩
    · rename_i h
      split at h
      · rename_i x hx
        exact absurd ⟨x, hx⟩ h4
      · cases h
  obtain ⟨x, hx⟩ := h4
  rw [hx]
  simp only [OlsReg.predict]
  cases hf : o.reg with
  | none => exact ⟨fun _ => .inr (.inr (.inr (.inr (.inl rfl)))), fun _ => ⟨_, rfl⟩⟩
  | some f =>
    simp only [OlsReg.logpdfGaussian]
    by_cases hs : 0 < o.noise
    · rw [if_pos hs]
      refine Iff.intro (fun h => by obtain ⟨e, he⟩ := h; cases he) ?_
      rintro (h | h | h | h | h | h)
      · exact absurd h h1
      · exact absurd h2 h
      · exact absurd ⟨x, rfl⟩ h
      · exact absurd ⟨ins, rfl, hI⟩ h
      · cases h
      · exact absurd hs (not_lt.mpr h)
    · rw [if_neg hs]
      exact ⟨fun _ => .inr (.inr (.inr (.inr (.inr (not_lt.mp hs))))), fun _ => ⟨_, rfl⟩⟩

/-- **C68** (A departure.)  Values of variables that are no output are accepted, and ignored. -/
theorem C68_foreign_targets_violated (hV : Valid o) {ins : Vals} (hI : Given o ins) (x : ℝ) {c : Col} (hc : c ≠ o.g.output)
    (v : Option ℝ) :
    o.logpdf none [(c, v), (o.g.output, some x)] [] (some ins)
      = o.logpdf none [(o.g.output, some x)] [] (some ins) := by
  unfold OlsReg.logpdf
  rw [ols_preprocess hV hI, ols_preprocess hV hI, if_neg (by simp), if_neg (by simp)]
  simp [Dict.get?, hc]

/-! ### Samples -/

theorem ols_sim {f : List ℝ → ℝ} (hV : Valid o) (hf : o.reg = some f) {r : Option Row}
    (hr : ∀ s, r = some s → s ∉ rows o) {ins : Vals} (hI : Given o ins) (N : Option Int)
    (hN : ∀ n, N = some n → 0 ≤ n) :
    o.simulate r [o.g.output] [] (some ins) N
      = (Rand.traverse (fun _ => OlsReg.normal (f (covariates o ins)) o.noise)
          (List.range (N.getD 1).toNat)).bind fun _ =>
        match N with
        | none => .pure (.inl [(o.g.output, f (covariates o ins))])
        | some 0 => .pure (.inl [(o.g.output, f (covariates o ins))])
        | some n => .pure (.inr (List.replicate n.toNat [(o.g.output, f (covariates o ins))])) := by
  unfold OlsReg.simulate
  rw [if_neg (by simp), if_neg (by simp), (ols_unseen hr).2, ols_preprocess hV hI, if_pos rfl]
  simp only [Rand.ofExcept, Rand.bind, OlsReg.predict, hf]
  rw [if_neg]
  · rfl
  · cases N with
    | none => simp
    | some n => simpa using hN n rfl

theorem ols_draws (m : ℝ) {s : ℝ} (hs : 0 ≤ s) (l : List Nat) :
    Rand.Surely (fun _ => True) (Rand.traverse (fun _ => OlsReg.normal m s) l) := by
  induction l with
  | nil => trivial
  | cons a t ih =>
    unfold Rand.traverse
    refine Rand.Surely.bind (P := fun _ => True) ?_ fun _ _ => Rand.Surely.bind ih fun _ _ => trivial
    rw [OlsReg.normal, if_neg (not_lt.mpr hs)]
    exact fun _ => trivial

/-- **C68** What `simulate` returns: the prediction itself, `N` times if `N` is positive; at a row of the
data its value.  Missing: samples with the density that `logpdf` reports, and a list of `N` samples at a
row of the data (`C68_simulate_violated`, `C68_many_violated`). -/
theorem C68_simulate_partial {f : List ℝ → ℝ} (hV : Valid o) (hf : o.reg = some f) {ins : Vals}
    (hI : Given o ins) (r : Option Row) :
    ((∀ s, r = some s → s ∉ rows o) →
      Rand.Surely (· = .inl [(o.g.output, f (covariates o ins))])
        (o.simulate r [o.g.output] [] (some ins) none) ∧
      ∀ n : Nat, 0 < n → Rand.Surely (· = .inr (List.replicate n [(o.g.output, f (covariates o ins))]))
        (o.simulate r [o.g.output] [] (some ins) (some n))) ∧
    ∀ s x, r = some s → o.rows.x.get? s = some x → ∀ N,
      o.simulate r [o.g.output] [] (some ins) N = .pure (.inl [(o.g.output, x)]) := by
  refine ⟨fun hr => ⟨?_, fun n hn => ?_⟩, ?_⟩
  · rw [ols_sim hV hf hr hI none (by simp)]
    exact Rand.Surely.bind (ols_draws _ hV.noise _) fun _ _ => rfl
  · rw [ols_sim hV hf hr hI (some n) (by simp)]
    refine Rand.Surely.bind (ols_draws _ hV.noise _) fun _ _ => ?_
    obtain ⟨m, rfl⟩ : ∃ m, n = m + 1 := ⟨n - 1, by omega⟩
    exact rfl
  · rintro s x rfl hx N
    unfold OlsReg.simulate
    rw [if_neg (by simp), if_neg (by simp)]
    simp [hx]

theorem prob_surely {α : Type} {P : α → Prop} {m : Rand α} (h : Rand.Surely P m) (hm : m.expect (fun _ => 1) = 1) :
    m.prob P = 1 := by
  classical
  rw [← hm]
  unfold Rand.prob
  clear hm
  induction m with
  | pure a => exact if_pos h
  | raise e => cases h
  | choice p k ih =>
    unfold Rand.expect
    refine Finset.sum_congr rfl fun i hi => ?_
    rw [ih i (h i (Finset.mem_range.mp hi))]
  | normal a b k ih =>
    unfold Rand.expect
    congr 1
    funext x
    rw [ih x (h x)]

/-- **C68** (A departure.)  Samples do not have the density that `logpdf` reports: they are equal to the
prediction with probability one, an event to which the density gives probability zero. -/
theorem C68_simulate_violated {f : List ℝ → ℝ} (hV : Valid o) (hf : o.reg = some f) (hs : 0 < o.noise)
    {ins : Vals} (hI : Given o ins) :
    (o.simulate none [o.g.output] [] (some ins) none).prob
      (fun a => ∃ x ∈ ({f (covariates o ins)} : Set ℝ), a = .inl [(o.g.output, x)]) = 1 ∧
    ∫ x in ({f (covariates o ins)} : Set ℝ), Rand.normalDensity (f (covariates o ins)) o.noise x = 0 := by
  constructor
  · refine prob_surely (((C68_simulate_partial hV hf hI none).1 (by simp)).1.mono ?_) ?_
    · rintro a rfl
      exact ⟨_, rfl, rfl⟩
    · rw [ols_sim hV hf (by simp) hI none (by simp), Rand.expect_bind]
      change Rand.expect (fun _ => (1 : ℝ)) (Rand.traverse _ [0]) = 1
      unfold Rand.traverse OlsReg.normal
      rw [if_neg (not_lt.mpr hs.le)]
      change ∫ x, Rand.normalDensity _ _ x * (1 : ℝ) = 1
      simp only [mul_one]
      exact Rand.integral_normalDensity _ hs
  · simp

/-- **C68** (A departure.)  At a row of the data one sample is returned, not `N`. -/
theorem C68_many_violated {s : Row} {x : ℝ} (hx : o.rows.x.get? s = some x) (n : Int)
    (inputs : Option Vals) :
    o.simulate (some s) [o.g.output] [] inputs (some n) = .pure (.inl [(o.g.output, x)]) := by
  unfold OlsReg.simulate
  rw [if_neg (by simp), if_neg (by simp)]
  simp [hx]

/-- **C68** Exactly these simulations are refused: those about other variables, with constraints, or (at
a row that is not in the data) with other inputs than the declared ones, before the regression has been
fitted, or with a negative `N`. -/
theorem C68_simulate_refused (hV : Valid o) (r : Option Row) (T : List Col) (C : Vals)
    (inputs : Option Vals) (N : Option Int) :
    (∃ e, o.simulate r T C inputs N = .raise e) ↔
      T ≠ [o.g.output] ∨ C ≠ [] ∨ ((∀ s, r = some s → s ∉ rows o) ∧
        ((¬ ∃ ins, inputs = some ins ∧ Given o ins) ∨ o.reg = none ∨ ∃ n, N = some n ∧ n < 0)) := by
  by_cases h1 : T = [o.g.output]
  swap
  · exact ⟨fun _ => .inl h1, fun _ => ⟨.assertion, by rw [OlsReg.simulate, if_pos h1]⟩⟩
  by_cases h2 : C = []
  swap
  · exact ⟨fun _ => .inr (.inl h2), fun _ => ⟨.assertion, by
      rw [OlsReg.simulate, if_neg (not_not.mpr h1), if_pos (by simpa using h2)]⟩⟩
  subst h1 h2
  by_cases hr : ∀ s, r = some s → s ∉ rows o
  swap
  · refine ⟨fun ⟨e, he⟩ => ?_, ?_⟩
    · push Not at hr
      obtain ⟨s, rfl, hs⟩ := hr
      obtain ⟨x, hx⟩ := Dict.exists_of_mem_keys hs
      have : o.simulate (some s) [o.g.output] [] inputs N = .pure (.inl [(o.g.output, x)]) := by
        unfold OlsReg.simulate
        rw [if_neg (by simp), if_neg (by simp)]
        simp [hx]
      rw [this] at he
      cases he
    · rintro (h | h | h)
      · exact absurd rfl h
      · exact absurd rfl h
      · exact absurd h.1 hr
  by_cases h3 : ∃ ins, inputs = some ins ∧ Given o ins
  swap
  · obtain ⟨e, he⟩ := ols_preprocess_other h3 []
    refine ⟨fun _ => .inr (.inr ⟨hr, .inl h3⟩), fun _ => ⟨e, ?_⟩⟩
    unfold OlsReg.simulate
    rw [if_neg (by simp), if_neg (by simp), (ols_unseen hr).2, he]
    rfl
  obtain ⟨ins, rfl, hI⟩ := h3
  cases hf : o.reg with
  | none =>
    refine ⟨fun _ => .inr (.inr ⟨hr, .inr (.inl rfl)⟩), fun _ => ⟨.valueError, ?_⟩⟩
    unfold OlsReg.simulate
    rw [if_neg (by simp), if_neg (by simp), (ols_unseen hr).2, ols_preprocess hV hI, if_pos rfl]
    simp [Rand.ofExcept, Rand.bind, OlsReg.predict, hf]
  | some f =>
    by_cases hN : ∃ n, N = some n ∧ n < 0
    · refine ⟨fun _ => .inr (.inr ⟨hr, .inr (.inr hN)⟩), fun _ => ⟨.valueError, ?_⟩⟩
      obtain ⟨n, rfl, hn⟩ := hN
      unfold OlsReg.simulate
      rw [if_neg (by simp), if_neg (by simp), (ols_unseen hr).2, ols_preprocess hV hI, if_pos rfl]
      simp [Rand.ofExcept, Rand.bind, OlsReg.predict, hf, hn]
    · have hN' : ∀ n, N = some n → 0 ≤ n := fun n e => not_lt.mp fun h => hN ⟨n, e, h⟩
      have hsure : Rand.Surely (fun _ => True) (o.simulate r [o.g.output] [] (some ins) N) := by
        rw [ols_sim hV hf hr hI N hN']
        refine Rand.Surely.bind (ols_draws _ hV.noise _) fun _ _ => ?_
        split <;> trivial
      refine ⟨fun ⟨e, he⟩ => ?_, ?_⟩
      · rw [he] at hsure; cases hsure
      · rintro (h | h | ⟨-, h | h | h⟩)
        · exact absurd rfl h
        · exact absurd rfl h
        · exact absurd ⟨ins, rfl, hI⟩ h
        · cases h
        · exact absurd h hN

/-! ### Transitions -/

theorem ols_vals (hV : Valid o) :
    o.rows.x.vals = (rows o).map (value o) ∧
    o.rows.Y.vals.map RForest.array = (rows o).map (inputsOf o) := by
  have hY : o.rows.Y.WF := by
    have := hV.rows
    rw [← hV.keys] at this
    exact this
  have h1 : o.rows.x.vals = (rows o).map (value o) := by
    unfold Dict.vals rows Dict.keys
    rw [List.map_map]
    refine List.map_congr_left fun p hp => ?_
    rw [Function.comp_apply, value, Dict.get?_of_mem hV.rows (k := p.1) (v := p.2) hp]
    rfl
  have h2 : o.rows.Y.vals = (rows o).map fun r => (o.rows.Y.get? r).getD [] := by
    rw [rows, ← hV.keys]
    unfold Dict.vals Dict.keys
    rw [List.map_map]
    refine List.map_congr_left fun p hp => ?_
    rw [Function.comp_apply, Dict.get?_of_mem hY (k := p.1) (v := p.2) hp]
    rfl
  exact ⟨h1, by rw [h2, List.map_map]; rfl⟩

theorem ols_width (hV : Valid o) {r : Row} (hr : r ∈ rows o) : (inputsOf o r).length = width o := by
  have : r ∈ o.rows.Y.keys := by rw [hV.keys]; exact hr
  obtain ⟨y, hy⟩ := Dict.exists_of_mem_keys this
  rw [inputsOf, hy, List.length_map]
  exact hV.width r y hy

theorem loss_map {ι : Type} (f : List ℝ → ℝ) (l : List ι) (y : ι → List ℝ) (x : ι → ℝ) :
    loss f (l.map y) (l.map x) = (l.map fun i => (x i - f (y i)) ^ 2).sum := by
  unfold loss
  rw [List.zipWith_map, List.zipWith_self]

theorem ols_transition (hV : Valid o) (fit : List (List ℝ) → List ℝ → (List ℝ → ℝ)) (h : rows o ≠ []) :
    o.transition fit = { o with
      reg := some (fit ((rows o).map (inputsOf o)) ((rows o).map (value o)))
      noise := Real.sqrt (loss (fit ((rows o).map (inputsOf o)) ((rows o).map (value o)))
          ((rows o).map (inputsOf o)) ((rows o).map (value o))) / Real.sqrt (rows o).length } := by
  have hlen : o.rows.Y.length = (rows o).length := by
    have := congrArg List.length hV.keys
    simpa [Dict.keys, rows] using this
  unfold OlsReg.transition
  rw [if_pos (by rw [hlen]; exact List.length_pos_of_ne_nil h)]
  simp only
  have hpred : ∀ f : List ℝ → ℝ, (o.rows.Y.vals.map fun y => f (RForest.array y))
      = ((rows o).map (inputsOf o)).map f := by
    intro f
    rw [← (ols_vals hV).2, List.map_map]
    rfl
  have hN : (o.rows.N : ℝ) = (rows o).length := by
    rw [hV.count, rows, Dict.keys, List.length_map]
    norm_cast
  rw [hpred, (ols_vals hV).1, (ols_vals hV).2, hN, loss_map, List.map_map, List.zipWith_map,
    List.zipWith_self]
  rfl

/-- **C68** A transition sets the parameters to those of maximum likelihood: no affine function and no
standard deviation make the rows more likely (unless the noise becomes zero, in which case all rows are
predicted exactly).  Without rows nothing changes. -/
theorem C68_transition {fit : List (List ℝ) → List ℝ → (List ℝ → ℝ)} (hfit : LeastSquares fit)
    (hV : Valid o) :
    (rows o = [] → o.transition fit = o) ∧
    (rows o ≠ [] → ∃ f, (o.transition fit).reg = some f ∧ Affine (width o) f ∧
      (o.transition fit).rows = o.rows ∧ 0 ≤ (o.transition fit).noise ∧
      (0 < (o.transition fit).noise → ∀ h s, Affine (width o) h → 0 < s →
        logLikelihood o h s ≤ logLikelihood o f (o.transition fit).noise) ∧
      ((o.transition fit).noise = 0 → ∀ r ∈ rows o, f (inputsOf o r) = value o r)) := by
  refine ⟨fun h => ?_, fun h => ?_⟩
  · have hlen : o.rows.Y.length = (rows o).length := by
      have := congrArg List.length hV.keys
      simpa [Dict.keys, rows] using this
    unfold OlsReg.transition
    rw [if_neg (by rw [hlen, h]; simp)]
  · obtain ⟨h1, h2⟩ := hfit (width o) ((rows o).map (inputsOf o)) ((rows o).map (value o))
      (by simpa using h) (by simp) (by
        intro y hy
        obtain ⟨r, hr, rfl⟩ := List.mem_map.mp hy
        exact ols_width hV hr)
    rw [ols_transition hV fit h]
    generalize fit ((rows o).map (inputsOf o)) ((rows o).map (value o)) = f at h1 h2
    simp only [loss_map] at h2
    rw [loss_map]
    have hn : (0 : ℝ) < (rows o).length := by exact_mod_cast List.length_pos_of_ne_nil h
    have h0 : 0 ≤ ((rows o).map fun i => (value o i - f (inputsOf o i)) ^ 2).sum :=
      List.sum_nonneg fun x hx => by
        obtain ⟨i, -, rfl⟩ := List.mem_map.mp hx
        positivity
    refine ⟨f, rfl, h1, rfl, by positivity, fun hpos g s hg hs => ?_, fun hz r hr => ?_⟩
    · unfold logLikelihood
      rw [OlsReg.sum_log_normalDensity _ _ _ hs, OlsReg.sum_log_normalDensity _ _ _ hpos]
      refine OlsReg.likelihood_le hn hpos hs ?_ (h2 g hg) _
      rw [div_pow, Real.sq_sqrt h0, Real.sq_sqrt hn.le, mul_div_cancel₀ _ hn.ne']
    · have hS : ((rows o).map fun i => (value o i - f (inputsOf o i)) ^ 2).sum = 0 := by
        rcases div_eq_zero_iff.mp hz with h | h
        · exact (Real.sqrt_eq_zero h0).mp h
        · exact absurd ((Real.sqrt_eq_zero hn.le).mp h) hn.ne'
      have hle := List.single_le_sum (l := (rows o).map fun i => (value o i - f (inputsOf o i)) ^ 2)
        (fun x hx => by
          obtain ⟨i, -, rfl⟩ := List.mem_map.mp hx
          positivity) _ (List.mem_map_of_mem (f := fun i => (value o i - f (inputsOf o i)) ^ 2) hr)
      have := pow_eq_zero_iff (two_ne_zero) |>.mp (le_antisymm (hle.trans hS.le) (sq_nonneg _))
      linarith

/-- **C68** (A departure.)  If some affine function predicts all rows exactly, in particular if there is
only one row, then after a transition every density query raises. -/
theorem C68_exact_violated {fit : List (List ℝ) → List ℝ → (List ℝ → ℝ)} (hfit : LeastSquares fit)
    (hV : Valid o) (hne : rows o ≠ []) {h : List ℝ → ℝ} (hA : Affine (width o) h)
    (hex : ∀ r ∈ rows o, h (inputsOf o r) = value o r) (r : Option Row) (T C : Vals)
    (inputs : Option Vals) : ∃ e, (o.transition fit).logpdf r T C inputs = .error e := by
  have hle := (hfit (width o) ((rows o).map (inputsOf o)) ((rows o).map (value o))
      (by simpa using hne) (by simp) (by
        intro y hy
        obtain ⟨r, hr, rfl⟩ := List.mem_map.mp hy
        exact ols_width hV hr)).2 h hA
  have h0 : loss h ((rows o).map (inputsOf o)) ((rows o).map (value o)) = 0 := by
    rw [loss_map]
    refine List.sum_eq_zero fun x hx => ?_
    obtain ⟨i, hi, rfl⟩ := List.mem_map.mp hx
    rw [hex i hi]
    ring
  have ht := ols_transition hV fit hne
  have hz : (o.transition fit).noise = 0 := by
    rw [ht]
    simp only
    rw [Real.sqrt_eq_zero_of_nonpos (hle.trans h0.le), zero_div]
  have hV' : Valid (o.transition fit) := by
    rw [ht] at hz ⊢
    exact ⟨hV.apart, hV.p, hz.ge, hV.rows, hV.keys, hV.count, hV.width⟩
  exact (C68_logpdf_refused hV' r T C inputs).mpr (.inr (.inr (.inr (.inr (.inr hz.le)))))

/-! ### Histories -/

theorem ols_prep_width (hV : Valid o) {obs : Vals} {inputs : Option Vals} {x : ℝ} {y : List (Option ℝ)}
    (h : Ols.prep o.g obs inputs = .ok (x, y)) : y.length = width o := by
  unfold Ols.prep at h
  split at h
  · cases h
  · by_cases h3 : ∃ ins, inputs = some ins ∧ Given o ins
    · obtain ⟨ins, rfl, hI⟩ := h3
      rw [ols_preprocess hV hI] at h
      have hl : (rowCode (levels o) (inputRow o.g.inputs ins)).length = width o := by
        rw [rowCode_length, inputRow, List.length_map]; rfl
      split at h
      · cases h
      · rename_i hh
        cases h
        split at hh
        · cases hh
        · split at hh
          · cases hh; exact hl
          · cases hh
      · cases h
    · obtain ⟨e, he⟩ := ols_preprocess_other h3 obs
      rw [he] at h
      cases h

theorem ols_inc_valid (hV : Valid o) (r : Row) (obs : Vals) (inputs : Option Vals) :
    Valid (o.incorporate r obs inputs).state := by
  unfold OlsReg.incorporate RegRows.incorporate
  by_cases h1 : o.rows.x.has r = true
  · rw [if_pos h1]; exact { hV with }
  rw [if_neg h1]
  by_cases h2 : o.rows.Y.has r = true
  · rw [if_pos h2]; exact { hV with }
  rw [if_neg h2]
  cases hp : Ols.prep o.g obs inputs with
  | error e => exact { hV with }
  | ok a =>
    obtain ⟨x, y⟩ := a
    have hx1 : o.rows.x.get? r = none := (Dict.has_false_iff _ _).mp (by simpa using h1)
    have hy1 : o.rows.Y.get? r = none := (Dict.has_false_iff _ _).mp (by simpa using h2)
    refine ⟨hV.apart, hV.p, hV.noise, Dict.wf_set hV.rows r x, ?_, ?_, ?_⟩
    · show (o.rows.Y.set r y).keys = (o.rows.x.set r x).keys
      rw [Dict.set_of_not_mem _ hx1, Dict.set_of_not_mem _ hy1]
      have := hV.keys
      simp only [Dict.keys, List.map_append] at this ⊢
      rw [this]
      rfl
    · show o.rows.N + 1 = ((o.rows.x.set r x).length : ℤ)
      rw [Dict.set_of_not_mem _ hx1, hV.count]
      simp
    · intro r' y' h
      change (o.rows.Y.set r y).get? r' = some y' at h
      rw [Dict.get?_set] at h
      split at h
      · cases h; exact ols_prep_width hV hp
      · exact hV.width r' y' h

theorem ols_unc_valid (hV : Valid o) (r : Row) : Valid (o.unincorporate r).state := by
  unfold OlsReg.unincorporate RegRows.unincorporate
  by_cases h1 : o.rows.x.has r = true
  · rw [if_pos h1]
    have h2 : o.rows.Y.has r = true := by
      rw [Dict.has_iff, hV.keys, ← Dict.has_iff]; exact h1
    simp only [h2, if_true]
    obtain ⟨v, hv⟩ := Dict.exists_of_mem_keys ((Dict.has_iff _ _).mp h1)
    refine ⟨hV.apart, hV.p, hV.noise, Dict.wf_erase hV.rows r, ?_, ?_, ?_⟩
    · show (o.rows.Y.erase r).keys = (o.rows.x.erase r).keys
      rw [Dict.keys_erase, Dict.keys_erase, hV.keys]
    · show o.rows.N - 1 = ((o.rows.x.erase r).length : ℤ)
      have := Dict.length_erase hV.rows hv
      rw [hV.count]
      omega
    · intro r' y' h
      change (o.rows.Y.erase r).get? r' = some y' at h
      rw [Dict.get?_erase] at h
      split at h
      · cases h
      · exact hV.width r' y' h
  · rw [if_neg h1]; exact { hV with }

/-- The calls of a history that are about rows. -/
def olsRowCalls (ops : List OlsReg.Op) : List (RowOp (Vals × Option Vals)) :=
  ops.filterMap fun op => match op with
    | .inc r obs inputs => some (.inc r (obs, inputs))
    | .unc r => some (.unc r)
    | .transition => none

theorem ols_run (fit : List (List ℝ) → List ℝ → (List ℝ → ℝ)) (ops : List OlsReg.Op) (hV : Valid o) :
    Valid (o.run fit ops) ∧ (o.run fit ops).g = o.g ∧
    (o.run fit ops).rows = runRows (fun (s : RegRows ℝ) r (v : Vals × Option Vals) =>
      s.incorporate r (Ols.prep o.g v.1 v.2)) RegRows.unincorporate o.rows (olsRowCalls ops) := by
  induction ops generalizing o with
  | nil => exact ⟨hV, rfl, rfl⟩
  | cons op ops ih =>
    cases op with
    | inc r obs inputs =>
      have hs : (o.incorporate r obs inputs).state
          = { o with rows := (o.rows.incorporate r (Ols.prep o.g obs inputs)).state } := by
        unfold OlsReg.incorporate
        cases o.rows.incorporate r (Ols.prep o.g obs inputs) <;> rfl
      obtain ⟨h1, h2, h3⟩ := ih (ols_inc_valid hV r obs inputs)
      rw [hs] at h1 h2 h3
      have : o.run fit (.inc r obs inputs :: ops) = OlsReg.run fit (o.incorporate r obs inputs).state ops := rfl
      rw [this, hs]
      exact ⟨h1, h2, h3⟩
    | unc r =>
      have hs : (o.unincorporate r).state = { o with rows := (o.rows.unincorporate r).state } := by
        unfold OlsReg.unincorporate
        cases o.rows.unincorporate r <;> rfl
      obtain ⟨h1, h2, h3⟩ := ih (ols_unc_valid hV r)
      rw [hs] at h1 h2 h3
      have : o.run fit (.unc r :: ops) = OlsReg.run fit (o.unincorporate r).state ops := rfl
      rw [this, hs]
      exact ⟨h1, h2, h3⟩
    | transition =>
      have hsame : (o.transition fit).g = o.g ∧ (o.transition fit).rows = o.rows ∧
          0 ≤ (o.transition fit).noise := by
        unfold OlsReg.transition
        split
        · exact ⟨rfl, rfl, by positivity⟩
        · exact ⟨rfl, rfl, hV.noise⟩
      have hV' : Valid (o.transition fit) := by
        obtain ⟨e1, e2, e3⟩ := hsame
        refine ⟨by rw [e1]; exact hV.apart, ?_, e3, by rw [e2]; exact hV.rows, by rw [e2]; exact hV.keys,
          by rw [e2]; exact hV.count, ?_⟩
        · rw [width, levels, e1]; exact hV.p
        · rw [width, levels, e1, e2]; exact hV.width
      obtain ⟨h1, h2, h3⟩ := ih hV'
      rw [hsame.1] at h2
      rw [hsame.1, hsame.2.1] at h3
      exact ⟨h1, h2, h3⟩

/-- **C68** A regression that the constructor returns meets the conditions of the theorems above after any
history of calls; its rows are those of the history. -/
theorem C68_history (fit : List (List ℝ) → List ℝ → (List ℝ → ℝ)) {output : Col} {inputs : List Col}
    {types : List InputType} {noise : Option ℝ} {reg : Option (List ℝ → ℝ)}
    (hk : ∀ k, .nominal (some k) ∈ types → 0 < k)
    (hnew : OlsReg.new output inputs types noise reg = .ok o) (hs : ∀ s, noise = some s → 0 ≤ s)
    (ops : List OlsReg.Op) :
    o.noise = noise.getD 1 ∧ o.reg = reg ∧ rows o = [] ∧
    Valid (o.run fit ops) ∧ (o.run fit ops).g.output = output ∧ (o.run fit ops).g.inputs = inputs ∧
    levels (o.run fit ops) = olsLevels types ∧
    ∀ r, RegHolds (o.run fit ops).rows r (kept (olsKeeps output inputs (olsLevels types)) (olsRowCalls ops) r) := by
  unfold OlsReg.new at hnew
  cases hg : RegSchema.new Ols.predictorCount output inputs types with
  | error e => rw [hg] at hnew; cases hnew
  | ok g =>
    rw [hg] at hnew
    cases hnew
    have hok := ols_schema hk hg
    have hC := C42_ols hk hg (olsRowCalls ops)
    have hV : Valid ⟨g, .empty, noise.getD 1, reg⟩ := by
      refine ⟨?_, ?_, ?_, List.nodup_nil, rfl, rfl, fun r y h => by cases h⟩
      · rw [hok.outp, hok.inp]; exact hok.apart
      · rw [hok.width, width, levels, hok.lev, hok.inp]
      · cases noise with
        | none => norm_num
        | some s => exact hs s rfl
    obtain ⟨h1, h2, h3⟩ := ols_run fit ops hV
    refine ⟨rfl, rfl, rfl, h1, ?_, ?_, ?_, fun r => ?_⟩
    · rw [h2]; exact hok.outp
    · rw [h2]; exact hok.inp
    · rw [levels, h2]; exact hok.lev
    · rw [h3]; exact hC.rows r

/-! ### A concrete case -/

/-- A regression on the input 1 with one row. -/
noncomputable def olsEx : OlsReg :=
  ⟨⟨0, [1], 2, []⟩, ⟨1, [(7, 4)], [(7, [some 5])]⟩, 1, some fun y => 2 * y.getD 0 0⟩

theorem olsEx_valid : Valid olsEx where
  apart := by simp [olsEx]
  p := by simp [olsEx, width, rowWidth, levels, cellWidth, Dict.get?]
  noise := by norm_num [olsEx]
  rows := by simp [olsEx, Dict.keys]
  keys := rfl
  count := by simp [olsEx]
  width := by
    intro r x h
    simp only [olsEx, Dict.get?] at h
    split at h
    · cases h; simp [olsEx, width, rowWidth, levels, cellWidth, Dict.get?]
    · cases h

theorem olsEx_given : Given olsEx [(1, some 3)] where
  same := by simp [Dict.keys, olsEx]
  valid := by
    intro i v _
    simp [ValidCell, levels, olsEx]
  value := by simp [inputRow, olsEx, Dict.get?]

example : covariates olsEx [(1, some 3)] = [3] := by
  simp [covariates, rowCode, codeOf, levels, olsEx, inputRow, Dict.get?]

example : (∀ s, (none : Option Row) = some s → s ∉ rows olsEx) ∧ rows olsEx = [7] ∧ 0 < olsEx.noise := by
  simp [rows, olsEx, Dict.keys]

/-- One row is always predicted exactly: after the first row and a transition, no density can be asked. -/
example (fit : List (List ℝ) → List ℝ → (List ℝ → ℝ)) (hfit : LeastSquares fit) (r : Option Row)
    (T C : Vals) (inputs : Option Vals) :
    ∃ e, (olsEx.transition fit).logpdf r T C inputs = .error e := by
  refine C68_exact_violated hfit olsEx_valid (by simp [rows, olsEx, Dict.keys]) (h := fun _ => 4)
    ⟨4, List.replicate (width olsEx) 0, by simp, fun y _ => ?_⟩ ?_ r T C inputs
  · rw [OlsReg.zipWith_sum (p := min (width olsEx) y.length) (w := List.replicate (width olsEx) 0)
      (y := y) (by simp; omega) (by omega) _ 0 0]
    simp
  · intro r hr
    simp only [rows, olsEx, Dict.keys, List.map_cons, List.map_nil, List.mem_singleton] at hr
    subst hr
    simp [value, olsEx, Dict.get?]

/-- A least squares fit exists. -/
example : LeastSquares OlsReg.leastFit := OlsReg.leastFit_leastSquares

/-- Two rows with the same inputs and different values. -/
noncomputable def olsTwo : OlsReg :=
  { olsEx with rows := ⟨2, [(7, 4), (8, 6)], [(7, [some 5]), (8, [some 5])]⟩ }

theorem olsTwo_valid : Valid olsTwo where
  apart := olsEx_valid.apart
  p := olsEx_valid.p
  noise := olsEx_valid.noise
  rows := by simp [olsTwo, Dict.keys]
  keys := rfl
  count := by simp [olsTwo]
  width := by
    intro r x h
    simp only [olsTwo, Dict.get?] at h
    split at h
    · cases h; simp [olsTwo, olsEx, width, rowWidth, levels, cellWidth, Dict.get?]
    · split at h
      · cases h; simp [olsTwo, olsEx, width, rowWidth, levels, cellWidth, Dict.get?]
      · cases h

/-- There the noise after a transition is positive, whatever the fit. -/
example (fit : List (List ℝ) → List ℝ → (List ℝ → ℝ)) : 0 < (olsTwo.transition fit).noise := by
  rw [ols_transition olsTwo_valid fit (by simp [rows, olsTwo, Dict.keys])]
  generalize fit _ _ = f
  have h : loss f ((rows olsTwo).map (inputsOf olsTwo)) ((rows olsTwo).map (value olsTwo))
      = (4 - f [5]) ^ 2 + (6 - f [5]) ^ 2 := by
    simp [loss, rows, olsTwo, Dict.keys, inputsOf, value, Dict.get?, RForest.array]
  have h2 : (0 : ℝ) < (rows olsTwo).length := by simp [rows, olsTwo, Dict.keys]
  show 0 < Real.sqrt _ / Real.sqrt _
  rw [h]
  refine div_pos (Real.sqrt_pos.mpr ?_) (Real.sqrt_pos.mpr h2)
  nlinarith [sq_nonneg (5 - f [5])]

end Cgpm.Props
