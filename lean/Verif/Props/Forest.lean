import Verif.Lemmas.Forest

/-!
C67: `RandomForest` answers queries about a uniform distribution mixed with its forest.
-/
namespace Cgpm.Props
open Cgpm Cgpm.Spec Cgpm.Spec.Forest
open Cgpm.Spec.Knn (IsLog)

variable {o : RForest}

theorem eq_logOf {a : Fl} {p : ℝ} (h : IsLog a p) (hp : 0 ≤ p) : a = Knn.logOf p := by
  have := (Knn.isLog_logOf hp).1
  exact Fl.mass_inj h.1 this.1 (h.2.trans this.2.symm)

theorem forest_calc (hV : Valid o) {a : ℝ} (ha : 0 ≤ a ∧ a ≤ 1) {y : List (Option ℝ)}
    (hy : y.length = o.g.p) (x : Nat) :
    RForest.calcPredictiveLogp x y o.clf o.obj.counts.length a
      = .ok (Knn.logOf (chance o.g.k a o.clf (RForest.array y) x)) := by
  have hc := fun c h => (hV.clf c h).1
  obtain ⟨s, h1, h2, -⟩ := RForest.calcPredictiveLogp_eq hV.k ha hc hy x
  rw [hV.counts, h1, ← eq_logOf h2 (RForest.chance_nonneg ha hc (by rw [RForest.array, List.length_map, hy]) x)]

theorem density_nonneg (hV : Valid o) {y : List ℝ} (hy : y.length = o.g.p) (x : Nat) :
    0 ≤ density o y x := RForest.chance_nonneg hV.alpha (fun c h => (hV.clf c h).1) hy x

theorem forest_unseen {r : Option Row} (hr : ∀ s, r = some s → s ∉ rows o) :
    r.any o.obj.rows.x.has = false ∧ r.bind o.obj.rows.x.get? = none := by
  cases r with
  | none => exact ⟨rfl, rfl⟩
  | some s =>
    have := (Dict.get?_eq_none_iff _ _).mpr (hr s rfl)
    exact ⟨(Dict.has_false_iff _ _).mpr this, this⟩

theorem forest_logpdf (hV : Valid o) {r : Option Row} (hr : ∀ s, r = some s → s ∉ rows o) {ins : Vals}
    (hI : Given o ins) {x : Nat} (hx : x < o.g.k) :
    o.logpdf r [(o.g.output, some (x : ℝ))] [] (some ins)
      = .ok (Knn.logOf (density o (covariates ins) x)) := by
  unfold RForest.logpdf
  rw [if_neg (by simp), if_neg (by simp [Dict.keys]), (forest_unseen hr).1, if_neg (by simp),
    RForest.preprocess_given hV hI (v := x) (by simp [Dict.get?]),
    if_pos ⟨by simp, by positivity, by exact_mod_cast hx⟩]
  simp only [Int.floor_natCast, Int.toNat_natCast]
  have hlen := RForest.covariates_length hV hI
  rw [← RForest.array_read, RForest.array, List.length_map] at hlen
  rw [forest_calc hV hV.alpha hlen, RForest.array_read]
  rfl

/-- **C67** The log density of a category is that of the mixture; any other value has density zero. -/
theorem C67_logpdf (hV : Valid o) {r : Option Row} (hr : ∀ s, r = some s → s ∉ rows o) {ins : Vals}
    (hI : Given o ins) :
    (∀ x < o.g.k, ∃ a, o.logpdf r [(o.g.output, some (x : ℝ))] [] (some ins) = .ok a ∧
      IsLog a (density o (covariates ins) x)) ∧
    ∀ v : ℝ, (∀ x < o.g.k, v ≠ x) → o.logpdf r [(o.g.output, some v)] [] (some ins) = .ok .ninf := by
  refine ⟨fun x hx => ⟨_, forest_logpdf hV hr hI hx,
    (Knn.isLog_logOf (density_nonneg hV (RForest.covariates_length hV hI) x)).1⟩, fun v hv => ?_⟩
  unfold RForest.logpdf
  rw [if_neg (by simp), if_neg (by simp [Dict.keys]), (forest_unseen hr).1, if_neg (by simp),
    RForest.preprocess_given hV hI (v := v) (by simp [Dict.get?]), if_neg]
  rintro ⟨h1, h2, h3⟩
  have h0 : 0 ≤ ⌊v⌋ := Int.floor_nonneg.mpr h2
  have hxn : v = (⌊v⌋.toNat : ℝ) := by
    have h7 : ((⌊v⌋.toNat : ℤ) : ℝ) = (⌊v⌋ : ℝ) := by rw [Int.toNat_of_nonneg h0]
    rw [Int.cast_natCast] at h7
    exact h1.trans h7.symm
  refine hv ⌊v⌋.toNat ?_ hxn
  rw [hxn] at h3
  exact_mod_cast h3

/-- **C67** The densities of the categories add up to one. -/
theorem C67_normalised (hV : Valid o) {ins : Vals} (hI : Given o ins) :
    (∀ x, 0 ≤ density o (covariates ins) x) ∧
    ∑ x ∈ Finset.range o.g.k, density o (covariates ins) x = 1 :=
  ⟨density_nonneg hV (RForest.covariates_length hV hI),
    RForest.sum_chance hV.k _ hV.clf (RForest.covariates_length hV hI)⟩

theorem forest_one (hV : Valid o) {r : Option Row} (hr : ∀ s, r = some s → s ∉ rows o) {ins : Vals}
    (hI : Given o ins) (g : Dict Col Nat → ℝ) :
    (o.simulateOne r [o.g.output] [] (some ins)).expect g
      = ∑ x ∈ Finset.range o.g.k, density o (covariates ins) x * g [(o.g.output, x)] := by
  have hy := RForest.covariates_length hV hI
  have h1 : Net.collect (fun x : Nat => o.logpdf r [(o.g.output, some (x : ℝ))] [] (some ins))
      (List.range o.g.k) = .ok ((List.range o.g.k).map fun x => Knn.logOf (density o (covariates ins) x)) :=
    Kde.collect_map fun x hx => forest_logpdf hV hr hI (List.mem_range.mp hx)
  have hsum : ((List.range o.g.k).map fun x => density o (covariates ins) x).sum = 1 := by
    rw [← (C67_normalised hV hI).2]; rfl
  have h2 := (Rand.logPflip_eq (l := List.range o.g.k) (a := fun x => Knn.logOf (density o (covariates ins) x))
    (p := fun x => density o (covariates ins) x) id (fun i _ => density_nonneg hV hy i)
    (fun i _ => Knn.isLog_logOf (density_nonneg hV hy i)) (by rw [hsum]; exact one_pos)).1
  unfold RForest.simulateOne
  rw [if_neg (by simp), if_neg (by simp), (forest_unseen hr).2]
  simp only
  rw [h1, Rand.expect_bind]
  change ((Rand.logPflip _ (List.range o.g.k)).bind _).expect g = _
  rw [Rand.expect_bind]
  rw [List.map_id] at h2
  rw [h2, hsum, div_one]
  rfl

/-- **C67** Samples have the density that `logpdf` reports, and the `N` samples of one call are
independent. -/
theorem C67_simulate (hV : Valid o) {r : Option Row} (hr : ∀ s, r = some s → s ∉ rows o) {ins : Vals}
    (hI : Given o ins) :
    (∀ x < o.g.k, (o.simulate r [o.g.output] [] (some ins) none).prob (· = .inl [(o.g.output, x)])
      = density o (covariates ins) x) ∧
    ∀ xs : List Nat, (∀ x ∈ xs, x < o.g.k) →
      (o.simulate r [o.g.output] [] (some ins) (some xs.length)).prob
        (· = .inr (xs.map fun x => [(o.g.output, x)]))
      = (xs.map fun x => density o (covariates ins) x).prod := by
  have hone : ∀ x < o.g.k, (o.simulateOne r [o.g.output] [] (some ins)).prob (· = [(o.g.output, x)])
      = density o (covariates ins) x := by
    intro x hx
    unfold Rand.prob
    rw [forest_one hV hr hI, Finset.sum_eq_single x]
    · simp
    · intro b _ hb
      rw [if_neg (by simpa using hb), mul_zero]
    · intro h
      exact absurd (Finset.mem_range.mpr hx) h
  refine ⟨fun x hx => ?_, fun xs hxs => ?_⟩
  · unfold RForest.simulate
    simp only [Rand.prob_bind_pure, Sum.inl.injEq]
    exact hone x hx
  · unfold RForest.simulate
    simp only [Rand.prob_bind_pure, Sum.inr.injEq, Int.toNat_natCast]
    rw [Rand.prob_traverse _ _ _ (by simp), List.map_map]
    congr 1
    exact List.map_congr_left fun x hx => hone x (hxs x hx)

/-- **C67** At a row of the data, `simulate` returns its category, as often as asked. -/
theorem C67_observed {s : Row} {x : Nat} (hs : o.obj.rows.x.get? s = some x) (inputs : Option Vals) :
    o.simulate (some s) [o.g.output] [] inputs none = .pure (.inl [(o.g.output, x)]) ∧
    ∀ n : Nat, o.simulate (some s) [o.g.output] [] inputs (some n)
      = .pure (.inr (List.replicate n [(o.g.output, x)])) := by
  have h1 : o.simulateOne (some s) [o.g.output] [] inputs = .pure [(o.g.output, x)] := by
    unfold RForest.simulateOne
    rw [if_neg (by simp), if_neg (by simp)]
    simp [hs]
  have h2 : ∀ l : List Nat, Rand.traverse (fun _ => o.simulateOne (some s) [o.g.output] [] inputs) l
      = .pure (List.replicate l.length [(o.g.output, x)]) := by
    intro l
    induction l with
    | nil => rfl
    | cons a t ih =>
      unfold Rand.traverse
      rw [ih, h1]
      rfl
  refine ⟨?_, fun n => ?_⟩
  · unfold RForest.simulate
    simp only [h1]
    rfl
  · unfold RForest.simulate
    simp only
    rw [h2]
    simp [Rand.bind]

/-- **C67** Exactly these density queries are refused: those with constraints, about other variables,
at a row of the data, about a missing value, or with other inputs than the declared ones. -/
theorem C67_logpdf_refused (hV : Valid o) (r : Option Row) (T C : Vals) (inputs : Option Vals)
    (hw : ∀ ins, inputs = some ins → ins.keys.Nodup) :
    (∃ e, o.logpdf r T C inputs = .error e) ↔
      C ≠ [] ∨ T.keys ≠ [o.g.output] ∨ (∃ s, r = some s ∧ s ∈ rows o) ∨
      T.get? o.g.output = some none ∨ ¬ ∃ ins, inputs = some ins ∧ Given o ins := by
  unfold RForest.logpdf
  by_cases h1 : C = []
  · rw [if_neg (by simp [h1])]
    by_cases h2 : T.keys = [o.g.output]
    · rw [if_neg (not_not.mpr h2)]
      by_cases h3 : ∃ s, r = some s ∧ s ∈ rows o
      · obtain ⟨s, rfl, hs⟩ := h3
        have : (some s).any o.obj.rows.x.has = true := (Dict.has_iff _ _).mpr hs
        rw [if_pos this]
        exact ⟨fun _ => .inr (.inr (.inl ⟨s, rfl, hs⟩)), fun _ => ⟨_, rfl⟩⟩
      · have hr : ∀ s, r = some s → s ∉ rows o := fun s e hs => h3 ⟨s, e, hs⟩
        rw [(forest_unseen hr).1, if_neg (by simp)]
        have hmem : o.g.output ∈ T.keys := by rw [h2]; simp
        obtain ⟨v, hv⟩ := Dict.exists_of_mem_keys hmem
        by_cases h5 : ∃ ins, inputs = some ins ∧ Given o ins
        · obtain ⟨ins, rfl, hI⟩ := h5
          cases v with
          | none =>
            refine ⟨fun _ => .inr (.inr (.inr (.inl hv))), fun _ => ?_⟩
            have h6 : ins.has o.g.output = false := by
              rw [← Bool.not_eq_true, Dict.has_iff, hI.same]; exact hV.apart
            simp [Forest.preprocess, h6, hv]
          | some v =>
            rw [RForest.preprocess_given hV hI hv]
            have hlen := RForest.covariates_length hV hI
            rw [← RForest.array_read, RForest.array, List.length_map] at hlen
            refine ⟨fun ⟨e, he⟩ => ?_, ?_⟩
            · exfalso
              split at he
              · rename_i h; split at h <;> cases h; cases he
              · rename_i h1 h; split at h
                · cases h
                · cases h; exact h1 rfl
              · rename_i h
                split at h
                · cases h
                  rw [forest_calc hV hV.alpha hlen] at he
                  cases he
                · cases h
            · rintro (h | h | h | h | h)
              · exact absurd h1 h
              · exact absurd h2 h
              · exact absurd h h3
              · rw [hv] at h; cases h
              · exact absurd ⟨ins, rfl, hI⟩ h
        · refine ⟨fun _ => .inr (.inr (.inr (.inr h5))), fun _ => ?_⟩
          obtain ⟨e, he, hne⟩ := RForest.preprocess_other hV hw (fun ins e h => h5 ⟨ins, e, h⟩) T
          rw [he]
          cases e <;> first | exact absurd rfl hne | exact ⟨_, rfl⟩
    · rw [if_pos h2]
      exact ⟨fun _ => .inr (.inl h2), fun _ => ⟨_, rfl⟩⟩
  · rw [if_pos (by simpa using h1)]
    exact ⟨fun _ => .inl h1, fun _ => ⟨_, rfl⟩⟩

theorem forest_logpdf_other (hV : Valid o) {r : Option Row} (hr : ∀ s, r = some s → s ∉ rows o)
    {inputs : Option Vals} (hw : ∀ ins, inputs = some ins → ins.keys.Nodup)
    (h : ¬ ∃ ins, inputs = some ins ∧ Given o ins) :
    ∃ e, o.simulateOne r [o.g.output] [] inputs = .raise e := by
  obtain ⟨e, he⟩ := (C67_logpdf_refused hV r [(o.g.output, some ((0 : Nat) : ℝ))] [] inputs hw).mpr
    (.inr (.inr (.inr (.inr h))))
  unfold RForest.simulateOne
  rw [if_neg (by simp), if_neg (by simp), (forest_unseen hr).2]
  simp only
  obtain ⟨k, hk⟩ : ∃ k, o.g.k = k + 1 := ⟨o.g.k - 1, by have := hV.k; omega⟩
  refine ⟨e, ?_⟩
  rw [hk, List.range_succ_eq_map, Net.collect, he]
  rfl

/-- **C67** Exactly these simulations are refused: those about other variables, with constraints, or (at
a row that is not in the data) with other inputs than the declared ones. -/
theorem C67_simulate_refused (hV : Valid o) (r : Option Row) (T : List Col) (C : Vals)
    (inputs : Option Vals) (N : Option Int) (hN : ∀ n, N = some n → 0 < n)
    (hw : ∀ ins, inputs = some ins → ins.keys.Nodup) :
    (∃ e, o.simulate r T C inputs N = .raise e) ↔
      T ≠ [o.g.output] ∨ C ≠ [] ∨
      ((∀ s, r = some s → s ∉ rows o) ∧ ¬ ∃ ins, inputs = some ins ∧ Given o ins) := by
  have hraise : ∀ e, o.simulateOne r T C inputs = .raise e → o.simulate r T C inputs N = .raise e := by
    intro e he
    cases N with
    | none => simp [RForest.simulate, he, Rand.bind]
    | some n =>
      have := hN n rfl
      obtain ⟨m, hm⟩ : ∃ m : Nat, n.toNat = m + 1 := ⟨n.toNat - 1, by omega⟩
      simp only [RForest.simulate, hm, List.range_succ_eq_map, Rand.traverse, he, Rand.bind]
  constructor
  · rintro ⟨e, he⟩
    by_contra hcon
    push Not at hcon
    obtain ⟨rfl, rfl, h⟩ := hcon
    by_cases hr : ∀ s, r = some s → s ∉ rows o
    · obtain ⟨ins, rfl, hI⟩ := h hr
      have h1 : (o.simulateOne r [o.g.output] [] (some ins)).expect (fun _ => 1) = 1 := by
        rw [forest_one hV hr hI]
        simp only [mul_one]
        exact (C67_normalised hV hI).2
      have h2 : (o.simulate r [o.g.output] [] (some ins) N).expect (fun _ => 1) = 1 := by
        cases N with
        | none =>
          rw [RForest.simulate, Rand.expect_bind]
          exact h1
        | some n =>
          rw [RForest.simulate, Rand.expect_bind]
          change Rand.expect (fun _ => (1 : ℝ)) _ = 1
          induction List.range n.toNat with
          | nil => rfl
          | cons a t ih =>
            rw [Rand.traverse, Rand.expect_bind]
            simp only [Rand.expect_bind]
            change Rand.expect (fun _ => Rand.expect (fun _ => (1 : ℝ)) _) _ = 1
            rw [ih]
            exact h1
      rw [he] at h2
      exact zero_ne_one h2
    · push Not at hr
      obtain ⟨s, rfl, hs⟩ := hr
      obtain ⟨x, hx⟩ := Dict.exists_of_mem_keys hs
      have := C67_observed hx inputs
      cases N with
      | none => rw [this.1] at he; cases he
      | some n =>
        have hn := hN n rfl
        have h2 := this.2 n.toNat
        rw [Int.toNat_of_nonneg hn.le] at h2
        rw [h2] at he; cases he
  · rintro (h | h | ⟨h1, h2⟩)
    · exact ⟨.assertion, hraise _ (by rw [RForest.simulateOne, if_pos h])⟩
    · by_cases hT : T = [o.g.output]
      · exact ⟨.assertion, hraise _ (by rw [RForest.simulateOne, if_neg (not_not.mpr hT),
          if_pos (by simpa using h)])⟩
      · exact ⟨.assertion, hraise _ (by rw [RForest.simulateOne, if_pos hT])⟩
    · by_cases hT : T = [o.g.output]
      · by_cases hC : C = []
        · subst hT hC
          obtain ⟨e, he⟩ := forest_logpdf_other hV h1 hw h2
          exact ⟨e, hraise e he⟩
        · exact ⟨.assertion, hraise _ (by rw [RForest.simulateOne, if_neg (not_not.mpr hT),
            if_pos (by simpa using hC)])⟩
      · exact ⟨.assertion, hraise _ (by rw [RForest.simulateOne, if_pos hT])⟩

/-! ### The rows -/

theorem dict_vals_keys {V : Type} {d : Dict Row V} (hd : d.WF) (v0 : V) :
    d.vals = d.keys.map fun k => (d.get? k).getD v0 := by
  unfold Dict.vals Dict.keys
  rw [List.map_map]
  refine List.map_congr_left fun p hp => ?_
  rw [Function.comp_apply, Dict.get?_of_mem hd (k := p.1) (v := p.2) hp]
  rfl

theorem forest_vals (hV : Valid o) :
    o.obj.rows.x.vals = (rows o).map (category o) ∧
    o.obj.rows.Y.vals.map RForest.array = (rows o).map (inputsOf o) ∧
    o.obj.rows.x.vals.zip o.obj.rows.Y.vals
      = (rows o).map fun r => (category o r, (o.obj.rows.Y.get? r).getD []) := by
  have hY : o.obj.rows.Y.WF := by
    have := hV.rows
    rw [← hV.keys] at this
    exact this
  have h1 := dict_vals_keys hV.rows 0
  have h2 := dict_vals_keys hY []
  rw [hV.keys] at h2
  refine ⟨h1, ?_, ?_⟩
  · rw [h2, List.map_map]; rfl
  · rw [h1, h2, List.zip_map']; rfl

theorem forest_width (hV : Valid o) {r : Row} (hr : r ∈ rows o) :
    ((o.obj.rows.Y.get? r).getD []).length = o.g.p := by
  have : r ∈ o.obj.rows.Y.keys := by rw [hV.keys]; exact hr
  obtain ⟨y, hy⟩ := Dict.exists_of_mem_keys this
  rw [hy]
  exact hV.width r y hy

theorem forest_likelihood (hV : Valid o) {a : ℝ} (ha : 0 ≤ a ∧ a ≤ 1) :
    ∃ s, RForest.calcLogLikelihood o.obj.rows.x.vals o.obj.rows.Y.vals o.clf o.obj.counts.length a
        = .ok s ∧ IsLog s (likelihood o a) ∧ s ≠ .pinf := by
  have h1 : Net.collect (fun p => RForest.calcPredictiveLogp p.1 p.2 o.clf o.obj.counts.length a)
      (o.obj.rows.x.vals.zip o.obj.rows.Y.vals) = .ok (((rows o).map fun r =>
        (category o r, (o.obj.rows.Y.get? r).getD [])).map fun p =>
          Knn.logOf (chance o.g.k a o.clf (RForest.array p.2) p.1)) := by
    rw [(forest_vals hV).2.2]
    refine Kde.collect_map fun p hp => ?_
    obtain ⟨r, hr, rfl⟩ := List.mem_map.mp hp
    exact forest_calc hV ha (forest_width hV hr) _
  unfold RForest.calcLogLikelihood
  rw [h1, List.map_map]
  have := Knn.isLog_flSum (rows o) (p := fun r => chance o.g.k a o.clf (inputsOf o r) (category o r))
    fun r hr => RForest.chance_nonneg ha (fun c h => (hV.clf c h).1)
      (by rw [inputsOf, List.length_map]; exact forest_width hV hr) _
  exact ⟨_, rfl, this.1, this.2⟩

/-- **C67** `logpdf_score` is the log probability of the categories of the rows given their inputs. -/
theorem C67_score (hV : Valid o) : ∃ a, o.logpdfScore = .ok a ∧ IsLog a (likelihood o o.alpha) := by
  obtain ⟨s, h1, h2, -⟩ := forest_likelihood hV hV.alpha
  exact ⟨s, h1, h2⟩

theorem alphas_mem {a : ℝ} (h : a ∈ RForest.alphas) : 0 < a ∧ a < 1 := by
  obtain ⟨i, hi, rfl⟩ := List.mem_map.mp h
  have : (i : ℝ) ≤ 29 := by
    have := List.mem_range.mp hi
    exact_mod_cast (by omega : i ≤ 29)
  constructor
  · positivity
  · nlinarith

theorem likelihood_pos (hV : Valid o) {a : ℝ} (ha : 0 < a ∧ a < 1) : 0 < likelihood o a := by
  refine List.prod_pos fun x hx => ?_
  obtain ⟨r, hr, rfl⟩ := List.mem_map.mp hx
  have hk : (0 : ℝ) < o.g.k := by exact_mod_cast hV.k
  unfold chance
  cases hc : o.clf with
  | none => exact div_pos one_pos hk
  | some c =>
    exact add_pos_of_pos_of_nonneg (mul_pos ha.1 (div_pos one_pos hk))
      (mul_nonneg (by linarith [ha.2]) (RForest.share_nonneg (hV.clf c hc).1
        (by rw [inputsOf, List.length_map]; exact forest_width hV hr) _))

/-- What follows the choice of alpha. -/
noncomputable def forestRefit (fit : List (List ℝ) → List Nat → Rand Classifier) (o : RForest) (alpha : ℝ) :
    Rand RForest :=
  if rows o = [] then .pure { o with alpha }
  else (fit ((rows o).map (inputsOf o)) ((rows o).map (category o))).bind fun c =>
    .pure { o with alpha, clf := some c }

theorem forest_step (hV : Valid o) (fit : List (List ℝ) → List Nat → Rand Classifier) :
    (∀ g, (o.step fit).expect g = (RForest.alphas.map fun a => likelihood o a *
        (forestRefit fit o a).expect g).sum / (RForest.alphas.map (likelihood o)).sum) ∧
    ∀ P : RForest → Prop, (∀ a ∈ RForest.alphas, Rand.Surely P (forestRefit fit o a)) →
      Rand.Surely P (o.step fit) := by
  have key := fun (a : ℝ) (h : a ∈ RForest.alphas) =>
    forest_likelihood hV (a := a) ⟨(alphas_mem h).1.le, (alphas_mem h).2.le⟩
  have : Inhabited Fl := ⟨.nan⟩
  choose! s e1 e2 using key
  have hc := Kde.collect_map (f := fun a => RForest.calcLogLikelihood o.obj.rows.x.vals
    o.obj.rows.Y.vals o.clf o.obj.counts.length a) e1
  have hpos : 0 < (RForest.alphas.map (likelihood o)).sum := by
    refine List.sum_pos _ (fun x hx => ?_) (by simp [RForest.alphas])
    obtain ⟨a, ha, rfl⟩ := List.mem_map.mp hx
    exact likelihood_pos hV (alphas_mem ha)
  have hf := Rand.logPflip_eq (l := RForest.alphas) (a := s) (p := likelihood o) id
    (fun a ha => (likelihood_pos hV (alphas_mem ha)).le) (fun a ha => e2 a ha) hpos
  rw [List.map_id] at hf
  have heq : o.step fit = (Rand.logPflip (RForest.alphas.map s) RForest.alphas).bind
      (forestRefit fit o) := by
    unfold RForest.step
    rw [hc]
    change (Rand.logPflip _ _).bind _ = _
    congr 1
    funext a
    unfold forestRefit
    have hlen : o.obj.rows.Y.length = (rows o).length := by
      have := congrArg List.length hV.keys
      simpa [Dict.keys, rows] using this
    simp only
    rw [hlen, (forest_vals hV).1, (forest_vals hV).2.1]
    by_cases h0 : rows o = []
    · rw [if_pos h0, h0, if_neg (by simp)]
    · rw [if_neg h0, if_pos (List.length_pos_of_ne_nil h0)]
  rw [heq]
  refine ⟨fun g => ?_, fun P hP => ?_⟩
  · rw [Rand.expect_bind, hf.1]; rfl
  · refine Rand.Surely.bind hf.2 ?_
    rintro a ⟨b, hb, rfl⟩
    exact hP _ hb

/-- **C67** A transition draws alpha from its grid, with the probability that the likelihood of the rows
gives it under the present forest, and then fits the forest to the rows, if there are any. -/
theorem C67_transition (hV : Valid o) (fit : List (List ℝ) → List Nat → Rand Classifier)
    (g : RForest → ℝ) :
    (o.transition fit none).expect g = (RForest.alphas.map fun a => likelihood o a /
        (RForest.alphas.map (likelihood o)).sum *
      if rows o = [] then g { o with alpha := a }
      else (fit ((rows o).map (inputsOf o)) ((rows o).map (category o))).expect fun c =>
        g { o with alpha := a, clf := some c }).sum := by
  have h1 : o.transition fit none = o.step fit := by
    change (o.step fit).bind (fun o => .pure o) = _
    generalize o.step fit = m
    induction m with
    | pure a => rfl
    | raise e => rfl
    | choice p k ih => simp only [Rand.bind, ih]
    | normal a b k ih => simp only [Rand.bind, ih]
  rw [h1, (forest_step hV fit).1, div_eq_mul_inv, ← List.sum_map_mul_right]
  congr 1
  refine List.map_congr_left fun a _ => ?_
  have : (forestRefit fit o a).expect g = if rows o = [] then g { o with alpha := a }
      else (fit ((rows o).map (inputsOf o)) ((rows o).map (category o))).expect fun c =>
        g { o with alpha := a, clf := some c } := by
    unfold forestRefit
    split
    · rfl
    · rw [Rand.expect_bind]; rfl
  rw [this]
  ring

/-- **C67** `transition(N)` makes `N` such passes. -/
theorem C67_transitions (fit : List (List ℝ) → List Nat → Rand Classifier) (n : Nat) :
    o.transition fit (some 0) = .pure o ∧
    o.transition fit (some (n + 1 : Nat)) = (o.transition fit none).bind fun o' =>
      o'.transition fit (some n) := by
  refine ⟨rfl, ?_⟩
  simp only [RForest.transition, Option.getD_some, Option.getD_none, Int.toNat_natCast]
  change (o.step fit).bind _ = Rand.bind ((o.step fit).bind fun o => .pure o) _
  rw [Rand.bind_assoc]
  rfl

/-! ### Histories -/

theorem forest_steps_valid {fit : List (List ℝ) → List Nat → Rand Classifier} (hfit : Fits fit) (n : Nat)
    (hV : Valid o) :
    Rand.Surely (fun o' => Valid o' ∧ o'.g = o.g ∧ o'.obj = o.obj) (RForest.steps fit n o) := by
  induction n generalizing o with
  | zero => exact ⟨hV, rfl, rfl⟩
  | succ n ih =>
    unfold RForest.steps
    refine Rand.Surely.bind (P := fun o' => Valid o' ∧ o'.g = o.g ∧ o'.obj = o.obj) ?_ ?_
    · refine (forest_step hV fit).2 _ fun a ha => ?_
      have ha' := alphas_mem ha
      unfold forestRefit
      split
      · exact ⟨{ hV with alpha := ⟨ha'.1.le, ha'.2.le⟩ }, rfl, rfl⟩
      · rename_i hne
        refine Rand.Surely.bind (hfit o.g.p _ _ (by simpa using hne) (by simp) ?_) ?_
        · intro y hy
          obtain ⟨r, hr, rfl⟩ := List.mem_map.mp hy
          rw [inputsOf, List.length_map]
          exact forest_width hV hr
        · rintro c ⟨h1, h2⟩
          refine ⟨{ hV with alpha := ⟨ha'.1.le, ha'.2.le⟩, clf := ?_ }, rfl, rfl⟩
          intro c' hc'
          cases hc'
          refine ⟨h1, fun j hj => ?_⟩
          obtain ⟨r, hr, rfl⟩ := List.mem_map.mp (h2 j hj)
          obtain ⟨x, hx⟩ := Dict.exists_of_mem_keys hr
          rw [category, hx]
          exact hV.category r x hx
    · rintro o' ⟨h1, h2, h3⟩
      refine (ih h1).mono ?_
      rintro o'' ⟨h4, h5, h6⟩
      exact ⟨h4, h5.trans h2, h6.trans h3⟩

theorem forest_inc_valid (hV : Valid o) (r : Row) (obs : Vals) (inputs : Option Vals) :
    Valid (o.incorporate r obs inputs).state := by
  unfold RForest.incorporate Forest.Obj.incorporate RegRows.incorporate
  by_cases h1 : o.obj.rows.x.has r = true
  · rw [if_pos h1]; exact { hV with }
  rw [if_neg h1]
  by_cases h2 : o.obj.rows.Y.has r = true
  · rw [if_pos h2]; exact { hV with }
  rw [if_neg h2]
  cases hp : Forest.preprocess o.g obs inputs with
  | error e => exact { hV with }
  | ok a =>
    obtain ⟨x, y⟩ := a
    have hx1 : o.obj.rows.x.get? r = none := (Dict.has_false_iff _ _).mp (by simpa using h1)
    have hy1 : o.obj.rows.Y.get? r = none := (Dict.has_false_iff _ _).mp (by simpa using h2)
    have hxy : x < o.g.k ∧ y.length = o.g.p := by
      unfold Forest.preprocess at hp
      cases inputs with
      | none => cases hp
      | some ins =>
        simp only at hp
        split at hp
        · cases hp
        · split at hp
          · cases hp
          · cases hp
          · split at hp
            · cases hp
            · split at hp
              · cases hp
              · split at hp
                · cases hp
                · rename_i h4
                  split at hp
                  · cases hp
                  · rename_i v _ _ _ h5
                    cases hp
                    rw [not_not] at h4 h5
                    refine ⟨?_, h4⟩
                    have h0 : 0 ≤ ⌊v⌋ := Int.floor_nonneg.mpr h5.2.1
                    have h6 := h5.2.2
                    rw [h5.1] at h6
                    have : ⌊v⌋ < (o.g.k : ℤ) := by exact_mod_cast h6
                    omega
    refine { hV with counts := ?_, rows := ?_, keys := ?_, category := ?_, width := ?_ }
    · simpa [Out.map, List.length_modify] using hV.counts
    · exact Dict.wf_set hV.rows r x
    · show (o.obj.rows.Y.set r y).keys = (o.obj.rows.x.set r x).keys
      rw [Dict.set_of_not_mem _ hx1, Dict.set_of_not_mem _ hy1]
      have := hV.keys
      simp only [Dict.keys, List.map_append] at this ⊢
      rw [this]
      rfl
    · intro r' x' h
      change (o.obj.rows.x.set r x).get? r' = some x' at h
      rw [Dict.get?_set] at h
      split at h
      · cases h; exact hxy.1
      · exact hV.category r' x' h
    · intro r' y' h
      change (o.obj.rows.Y.set r y).get? r' = some y' at h
      rw [Dict.get?_set] at h
      split at h
      · cases h; exact hxy.2
      · exact hV.width r' y' h

theorem forest_unc_valid (hV : Valid o) (r : Row) : Valid (o.unincorporate r).state := by
  unfold RForest.unincorporate Forest.Obj.unincorporate RegRows.unincorporate
  by_cases h1 : o.obj.rows.x.has r = true
  · rw [if_pos h1]
    have h2 : o.obj.rows.Y.has r = true := by
      rw [Dict.has_iff, hV.keys, ← Dict.has_iff]; exact h1
    simp only [h2, if_true]
    refine { hV with rows := ?_, keys := ?_, category := ?_, width := ?_ }
    · exact Dict.wf_erase hV.rows r
    · show (o.obj.rows.Y.erase r).keys = (o.obj.rows.x.erase r).keys
      rw [Dict.keys_erase, Dict.keys_erase, hV.keys]
    · intro r' x' h
      change (o.obj.rows.x.erase r).get? r' = some x' at h
      rw [Dict.get?_erase] at h
      split at h
      · cases h
      · exact hV.category r' x' h
    · intro r' y' h
      change (o.obj.rows.Y.erase r).get? r' = some y' at h
      rw [Dict.get?_erase] at h
      split at h
      · cases h
      · exact hV.width r' y' h
  · rw [if_neg h1]; exact { hV with }

/-- The calls of a history that are about rows. -/
def rowCalls (ops : List RForest.Op) : List (RowOp (Vals × Option Vals)) :=
  ops.filterMap fun op => match op with
    | .inc r obs inputs => some (.inc r (obs, inputs))
    | .unc r => some (.unc r)
    | .transition _ => none

theorem forest_run {fit : List (List ℝ) → List Nat → Rand Classifier} (hfit : Fits fit)
    (ops : List RForest.Op) (hV : Valid o) :
    Rand.Surely (fun o' => Valid o' ∧ o'.g = o.g ∧ o'.obj = runRows (fun s r (v : Vals × Option Vals) =>
      s.incorporate o.g r v.1 v.2) Forest.Obj.unincorporate o.obj (rowCalls ops)) (o.run fit ops) := by
  induction ops generalizing o with
  | nil => exact ⟨hV, rfl, rfl⟩
  | cons op ops ih =>
    unfold RForest.run
    cases op with
    | inc r obs inputs =>
      have hs : (o.incorporate r obs inputs).state = { o with obj := (o.obj.incorporate o.g r obs inputs).state } := by
        unfold RForest.incorporate
        cases o.obj.incorporate o.g r obs inputs <;> rfl
      refine (ih (forest_inc_valid hV r obs inputs)).mono ?_
      rintro o' ⟨h1, h2, h3⟩
      rw [hs] at h2 h3
      exact ⟨h1, h2, h3⟩
    | unc r =>
      have hs : (o.unincorporate r).state = { o with obj := (o.obj.unincorporate r).state } := by
        unfold RForest.unincorporate
        cases o.obj.unincorporate r <;> rfl
      refine (ih (forest_unc_valid hV r)).mono ?_
      rintro o' ⟨h1, h2, h3⟩
      rw [hs] at h2 h3
      exact ⟨h1, h2, h3⟩
    | transition N =>
      refine Rand.Surely.bind (forest_steps_valid hfit _ hV) ?_
      rintro o' ⟨h1, h2, h3⟩
      refine (ih h1).mono ?_
      rintro o'' ⟨h4, h5, h6⟩
      refine ⟨h4, h5.trans h2, ?_⟩
      rw [h6, h2, h3]
      rfl

/-- **C67** A forest that the constructor returns (with an untrained classifier, or one for its inputs
and categories) meets the conditions of the theorems above after any history of calls, in which no
transition raises; its rows are those of the history. -/
theorem C67_history {fit : List (List ℝ) → List Nat → Rand Classifier} (hfit : Fits fit) {output : Col}
    {inputs : List Col} {n k : Nat} {alpha : Option ℝ} {clf : Option Classifier} {o : RForest}
    (hnew : RForest.new output inputs n k alpha clf = .ok o) (hk : 1 ≤ k) (hn : inputs.Nodup)
    (ha : ∀ a, alpha = some a → 0 ≤ a ∧ a ≤ 1)
    (hc : ∀ c, clf = some c → Proper inputs.length c ∧ ∀ j ∈ c.classes, j < k) (ops : List RForest.Op) :
    Valid o ∧ o.alpha = alpha.getD (1 / 10) ∧ o.clf = clf ∧ rows o = [] ∧
    Rand.Surely (fun o' => Valid o' ∧ o'.obj = Forest.run o.g (rowCalls ops) ∧
      ∀ r, RegHolds o'.obj.rows r (kept (forestKeeps output inputs k) (rowCalls ops) r))
      (o.run fit ops) := by
  unfold RForest.new at hnew
  cases hg : Forest.new output inputs n k with
  | error e => rw [hg] at hnew; cases hnew
  | ok g =>
    rw [hg] at hnew
    cases hnew
    have hC := C42_forest hg (rowCalls ops)
    unfold Forest.new at hg
    split at hg
    · cases hg
    · split at hg
      · cases hg
      · rename_i h2
        split at hg
        · cases hg
        · rename_i h3
          rw [not_not] at h3
          cases hg
          have hV : Valid ⟨⟨output, inputs, k, n⟩, Forest.Obj.empty ⟨output, inputs, k, n⟩,
              alpha.getD (1 / 10), clf⟩ :=
            { inputs := h3, nodup := hn, apart := by simpa using h2, k := hk,
              counts := List.length_replicate,
              alpha := by
                cases alpha with
                | none => norm_num
                | some a => exact ha a rfl
              clf := by rw [h3]; exact hc
              rows := List.nodup_nil, keys := rfl
              category := fun r x h => by cases h
              width := fun r x h => by cases h }
          refine ⟨hV, rfl, rfl, rfl, (forest_run hfit ops hV).mono ?_⟩
          rintro o' ⟨h1, h4, h5⟩
          refine ⟨h1, h5, fun r => ?_⟩
          rw [h5]
          exact hC.rows r

/-! ### A concrete case -/

/-- A forest that has only seen category 1. -/
def onlyOne : Classifier := ⟨[1], fun _ => [1]⟩

theorem onlyOne_proper (p : Nat) : Proper p onlyOne :=
  ⟨by simp [onlyOne], by simp [onlyOne], by simp [onlyOne], by simp [onlyOne]⟩

/-- A way of fitting that only remembers the first category. -/
def fitFirst (_ : List (List ℝ)) (X : List Nat) : Rand Classifier := .pure ⟨[X.headD 0], fun _ => [1]⟩

theorem fitFirst_fits : Fits fitFirst := by
  intro p Y X hX _ _
  refine ⟨⟨by simp, by simp, by simp, by simp⟩, ?_⟩
  intro j hj
  obtain ⟨x, X, rfl⟩ := List.exists_cons_of_ne_nil hX
  simp only [List.headD_cons, List.mem_singleton] at hj
  rw [hj]
  exact List.mem_cons_self

/-- A forest of two categories with the input 1, and alpha = 1/2. -/
noncomputable def forestEx : RForest := ⟨⟨0, [1], 2, 1⟩, ⟨⟨1, [(7, 1)], [(7, [some 5])]⟩, [0, 1]⟩, 1 / 2, some onlyOne⟩

theorem forestEx_valid : Valid forestEx where
  inputs := rfl
  nodup := by simp [forestEx]
  apart := by simp [forestEx]
  k := by simp [forestEx]
  counts := rfl
  alpha := by constructor <;> norm_num [forestEx]
  clf := by
    intro c hc
    cases hc
    exact ⟨onlyOne_proper _, by simp [onlyOne, forestEx]⟩
  rows := by simp [forestEx, Dict.keys]
  keys := rfl
  category := by
    intro r x h
    simp only [forestEx, Dict.get?] at h
    split at h
    · cases h; simp [forestEx]
    · cases h
  width := by
    intro r x h
    simp only [forestEx, Dict.get?] at h
    split at h
    · cases h; rfl
    · cases h

theorem forestEx_given : Given forestEx [(1, some 3)] where
  nodup := by simp [Dict.keys]
  same := by simp [Dict.keys, forestEx]
  value := by
    intro c hc
    simp only [Dict.keys, List.map_cons, List.map_nil, List.mem_singleton] at hc
    subst hc
    exact ⟨3, rfl⟩

example : density forestEx (covariates [(1, some 3)]) 0 = 1 / 4 ∧
    density forestEx (covariates [(1, some 3)]) 1 = 3 / 4 := by
  constructor <;> norm_num [density, chance, share, forestEx, onlyOne]

example : (∀ s, (none : Option Row) = some s → s ∉ rows forestEx) ∧ rows forestEx = [7] := by
  simp [rows, forestEx, Dict.keys]

example (fit : List (List ℝ) → List Nat → Rand Classifier) (hfit : Fits fit) :
    ∃ o, RForest.new 0 [1] 1 2 none none = .ok o ∧
      Rand.Surely (fun o' => Valid o') (o.run fit [.inc 7 [(0, some 1)] (some [(1, some 5)]),
        .transition (some 3), .unc 7]) :=
  ⟨_, rfl, (C67_history hfit (rfl : RForest.new 0 [1] 1 2 none none = .ok _) (by norm_num) (by simp)
    (by simp) (by simp) _).2.2.2.2.mono fun _ h => h.1⟩

end Cgpm.Props
