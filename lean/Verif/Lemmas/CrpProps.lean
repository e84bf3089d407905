import Verif.Spec.Crp
import Verif.Lemmas.Crp
import Verif.Lemmas.Math

/-! Lemmas connecting the Crp model to the specification of C01-C04. -/
namespace Cgpm.Props
open Cgpm Crp

/-! ### Bridging lemmas -/

theorem ncard_get? {d : Dict Row Tab} (hd : d.WF) (t : Tab) :
    Set.ncard {r | d.get? r = some t} = nSeated d t := by
  have h1 : {r | d.get? r = some t} =
      (((d.filter (fun p => p.2 = t)).map Prod.fst).toFinset : Set Row) := by
    ext r
    simp only [Set.mem_ofPred_eq, List.coe_toFinset, List.mem_map, List.mem_filter,
      decide_eq_true_eq]
    constructor
    · intro h; exact ⟨(r, t), ⟨Dict.mem_of_get? h, rfl⟩, rfl⟩
    · rintro ⟨⟨a, b⟩, ⟨h, rfl⟩, rfl⟩; exact Dict.get?_of_mem hd h
  have hnd : ((d.filter (fun p => p.2 = t)).map Prod.fst).Nodup :=
    List.Nodup.sublist (List.Sublist.map _ List.filter_sublist) hd
  rw [h1, Set.ncard_coe_finset, List.toFinset_card_of_nodup hnd, List.length_map, nSeated,
    List.countP_eq_length_filter]

theorem ncard_get?_total {d : Dict Row Tab} (hd : d.WF) :
    Set.ncard {r | d.get? r ≠ none} = d.length := by
  have h1 : {r | d.get? r ≠ none} = ((d.keys).toFinset : Set Row) := by
    ext r
    simp only [Set.mem_ofPred_eq, List.coe_toFinset, ne_eq, Dict.get?_eq_none_iff, not_not]
  rw [h1, Set.ncard_coe_finset, List.toFinset_card_of_nodup hd, Dict.keys, List.length_map]

theorem data_step {s : Crp} (h : Inv s) (op : Op) (r : Row) :
    (s.apply op).state.data.get? r = seatStep s.data.get? op r := by
  cases op with
  | inc r₀ x =>
    change (s.incorporate r₀ x).state.data.get? r = _
    by_cases hr : s.data.get? r₀ = none
    · rw [incorporate_ok h hr, Out.state_ok]
      simp only [seatStep, hr, and_true]
      rw [← Dict.set_of_not_mem _ hr, Dict.get?_set]
    · rw [incorporate_dup hr]; simp [seatStep, hr]
  | unc r₀ =>
    change (s.unincorporate r₀).state.data.get? r = _
    cases hr : s.data.get? r₀ with
    | none =>
      rw [unincorporate_missing hr]
      simp only [seatStep, Out.state_err]
      split
      · subst_vars; exact hr
      · rfl
    | some x =>
      rw [unincorporate_ok h hr]
      simp only [seatStep, Out.state_ok, Dict.get?_erase]
  | hyp a =>
    change (s.setHypers a).state.data.get? r = _
    unfold setHypers; split <;> rfl

theorem data_run (alpha : ℝ) (ops : List Op) :
    (fun r => ((init alpha).run ops).data.get? r) = seats ops := by
  have key : ∀ (s : Crp), Inv s → ∀ ops,
      (fun r => (s.run ops).data.get? r) = ops.foldl seatStep (fun r => s.data.get? r) := by
    intro s hs ops
    induction ops generalizing s with
    | nil => rfl
    | cons op ops ih =>
      have := ih (s.apply op).state (inv_apply hs op)
      simp only [run, List.foldl_cons] at this ⊢
      rw [this]
      congr 1
      funext r
      exact data_step hs op r
  exact key _ (inv_init alpha) ops



theorem pySorted_perm (l : List Nat) : (pySorted l).Perm l := List.perm_insertionSort _ _

theorem le_foldl_max (t : List Nat) (x : Nat) : x ≤ t.foldl max x ∧ ∀ y ∈ t, y ≤ t.foldl max x := by
  induction t generalizing x with
  | nil => simp
  | cons a t ih =>
    have := ih (max x a)
    simp only [List.foldl_cons, List.mem_cons, forall_eq_or_imp]
    exact ⟨by omega, by omega, this.2⟩

theorem le_pyMax {l : List Nat} {x : Nat} (h : x ∈ l) : x ≤ pyMax l := by
  cases l with
  | nil => simp at h
  | cons a t =>
    rcases List.mem_cons.mp h with rfl | h
    · exact (le_foldl_max t x).1
    · exact (le_foldl_max t a).2 x h

theorem fresh_not_mem (l : List Nat) (i : Nat) : pyMax l + 1 + i ∉ l := by
  intro h; have := le_pyMax h; omega

theorem denom_pos {s : Crp} (h : Inv s) (ha : 0 < s.alpha) : (0 : ℝ) < s.N + s.alpha := by
  have : (0 : ℝ) ≤ (s.N : ℝ) := by rw [h.hN]; positivity
  linarith

/-- Numerator of the predictive probability. -/
noncomputable def wt (s : Crp) (x : Tab) : ℝ :=
  match s.counts.get? x with | some c => (c : ℝ) | none => s.alpha

theorem wt_pos {s : Crp} (h : Inv s) (ha : 0 < s.alpha) (x : Tab) : 0 < wt s x := by
  unfold wt; split
  · rename_i c hc; exact_mod_cast counts_pos h hc
  · exact ha

theorem pr_predictive {s : Crp} (h : Inv s) (ha : 0 < s.alpha) (x : Tab) :
    Real.exp (calcPredictiveLogp x s.N s.counts s.alpha) = wt s x / (s.N + s.alpha) :=
  exp_log_sub (wt_pos h ha x) (denom_pos h ha)

theorem sum_intCast (l : List Int) : (l.map (fun c : Int => (c : ℝ))).sum = ((l.sum : Int) : ℝ) := by
  induction l with
  | nil => simp
  | cons a l ih => rw [List.map_cons, List.sum_cons, ih, List.sum_cons]; push_cast; ring

theorem sum_occupied {s : Crp} (h : Inv s) : (s.counts.keys.map (wt s)).sum = s.N := by
  have h1 : s.counts.keys.map (wt s) = s.counts.vals.map (fun c : Int => (c : ℝ)) := by
    simp only [Dict.keys, Dict.vals, List.map_map]
    apply List.map_congr_left
    rintro ⟨k, v⟩ hk
    simp [wt, Dict.get?_of_mem h.wfCounts hk]
  rw [h1, sum_intCast, sum_counts h]

theorem sum_map_div (l : List Tab) (f : Tab → ℝ) (c : ℝ) :
    (l.map (fun x => f x / c)).sum = (l.map f).sum / c := by
  induction l with
  | nil => simp
  | cons a l ih => simp only [List.map_cons, List.sum_cons, ih]; ring



/-- The increment identity on states satisfying the invariant. -/
theorem score_incorporate {s : Crp} (h : Inv s) (ha : 0 < s.alpha) {r : Row} {x : Tab}
    (hr : s.data.get? r = none) :
    (s.incorporate r x).state.logpdfScore =
      s.logpdfScore + calcPredictiveLogp x s.N s.counts s.alpha := by
  rw [incorporate_ok h hr, Out.state_ok]
  have hpos := denom_pos h ha
  have hc := h.hCounts x
  unfold logpdfScore calcLogpdfMarginal calcPredictiveLogp
  have hg : gammaln (((s.N + 1 : Int) : ℝ) + s.alpha) =
      Real.log (s.N + s.alpha) + gammaln (s.N + s.alpha) := by
    rw [← gammaln_add_one hpos]; congr 1; push_cast; ring
  simp only [hg]
  unfold countOf at hc
  by_cases h0 : nSeated s.data x = 0
  · simp only [h0, if_true] at hc
    simp only [hc, h0, Dict.set_of_not_mem _ hc, Dict.vals, List.map_append, List.map_cons,
      List.map_nil, List.sum_append, List.sum_cons, List.sum_nil, List.length_append,
      List.length_cons, List.length_nil, List.length_map]
    have : gammaln (((0 : Nat) : Int) + 1 : Int) = 0 := by simp
    rw [this]; push_cast; ring
  · simp only [h0, if_false] at hc
    have hset := Dict.perm_cons_erase (Dict.wf_set h.wfCounts x ((nSeated s.data x : Int) + 1))
      (Dict.get?_set_self _ _ _)
    have hold := Dict.perm_cons_erase h.wfCounts hc
    rw [Dict.erase_set] at hset
    have hl : (s.counts.set x ((nSeated s.data x : Int) + 1)).vals.length = s.counts.vals.length := by
      simp only [Dict.vals, List.length_map, hset.length_eq, hold.length_eq, List.length_cons]
    have hs1 : ((s.counts.set x ((nSeated s.data x : Int) + 1)).vals.map
        (fun c : Int => gammaln (c : ℝ))).sum =
        gammaln ((nSeated s.data x : ℝ) + 1) +
          ((s.counts.erase x).vals.map (fun c : Int => gammaln (c : ℝ))).sum := by
      simp only [Dict.vals]
      rw [((hset.map Prod.snd).map _).sum_eq]; simp
    have hs2 : (s.counts.vals.map (fun c : Int => gammaln (c : ℝ))).sum =
        gammaln (nSeated s.data x : ℝ) +
          ((s.counts.erase x).vals.map (fun c : Int => gammaln (c : ℝ))).sum := by
      simp only [Dict.vals]
      rw [((hold.map Prod.snd).map _).sum_eq]; simp
    have hp : (0 : ℝ) < (nSeated s.data x : ℝ) := by
      have : 0 < nSeated s.data x := by omega
      exact_mod_cast this
    rw [hl, hs1, hs2, gammaln_add_one hp, hc]
    push_cast; ring

/-- Scores only see the multiset of counts. -/
theorem score_congr {s s' : Crp} (hα : s.alpha = s'.alpha) (hN : s.N = s'.N)
    (hv : s.counts.vals.Perm s'.counts.vals) : s.logpdfScore = s'.logpdfScore := by
  unfold logpdfScore calcLogpdfMarginal
  rw [hα, hN, hv.length_eq, (hv.map _).sum_eq]

theorem score_seatAll {s : Crp} (h : Inv s) (ha : 0 < s.alpha) (l : List (Row × Tab))
    (hl : (l.map Prod.fst).Nodup) (hf : ∀ p ∈ l, s.data.get? p.1 = none) :
    (s.run (seatAll l)).logpdfScore = s.logpdfScore + predictives s l := by
  induction l generalizing s with
  | nil => simp [seatAll, run, predictives]
  | cons p l ih =>
    obtain ⟨r, x⟩ := p
    have hr := hf (r, x) (by simp)
    have hok := incorporate_ok h (x := x) hr
    have := ih (s := (s.incorporate r x).state) (inv_incorporate h r x)
      (by rw [hok]; exact ha) (by simp at hl; exact hl.2) (by
        intro p hp
        have hne : p.1 ≠ r := by
          rintro e
          simp only [List.map_cons, List.nodup_cons] at hl
          exact hl.1 (e ▸ List.mem_map_of_mem (f := Prod.fst) hp)
        rw [hok, Out.state_ok]
        simp only [← Dict.set_of_not_mem _ hr, Dict.get?_set_ne _ _ hne]
        exact hf p (by simp [hp]))
    simp only [seatAll, List.map_cons, run, List.foldl_cons, predictives] at this ⊢
    change (List.foldl _ (s.incorporate r x).state _).logpdfScore = _
    rw [this, score_incorporate h ha hr]; ring

end Cgpm.Props
