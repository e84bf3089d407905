import Verif.Lemmas.CrpProps

/-!
Properties C01-C04: the Chinese restaurant process of src/primitives/crp.py.
The specification is in `Verif/Spec/Crp.lean`.
-/
namespace Cgpm.Props
open Cgpm Crp

/-! ### C01 -/

/-- **C01.** For every history of calls: the customer -> table map is the replayed
one; the count reported for table `t` is the number of customers seated there, and
a table is listed iff somebody sits at it; `N` is the number of customers. -/
theorem C01_crp_bookkeeping (alpha : ℝ) (ops : List Op) :
    (∀ r, ((init alpha).run ops).data.get? r = seats ops r) ∧
    (∀ t, ((init alpha).run ops).counts.get? t =
      if seatedAt (seats ops) t = 0 then none else some (seatedAt (seats ops) t : Int)) ∧
    ((init alpha).run ops).N = seatedTotal (seats ops) ∧
    ((init alpha).run ops).data.keys.Nodup ∧ ((init alpha).run ops).counts.keys.Nodup := by
  have h := inv_run (inv_init alpha) ops
  have hd := data_run alpha ops
  refine ⟨fun r => congrFun hd r, fun t => ?_, ?_, h.wfData, h.wfCounts⟩
  · rw [h.hCounts t, ← hd]
    simp only [countOf, seatedAt, ncard_get? h.wfData]
  · rw [h.hN, ← hd, seatedTotal, ncard_get?_total h.wfData]

/-- **C01.** A call is refused exactly when it seats a seated customer, removes an
unknown one or sets a non-positive concentration, and a refused call changes nothing. -/
theorem C01_crp_refusals (alpha : ℝ) (ops : List Op) (op : Op) :
    let s := (init alpha).run ops
    (((s.apply op).isOk = true) ↔ match op with
      | .inc r _ => seats ops r = none
      | .unc r => seats ops r ≠ none
      | .hyp a => 0 < a) ∧
    (((s.apply op).isOk = false) → (s.apply op).state = s) := by
  intro s
  have h : Inv s := inv_run (inv_init alpha) ops
  have hd : ∀ r, s.data.get? r = seats ops r := fun r => congrFun (data_run alpha ops) r
  cases op with
  | inc r x =>
    simp only [← hd, apply]
    by_cases hr : s.data.get? r = none
    · simp [incorporate_ok h hr, hr]
    · simp [incorporate_dup hr, hr]
  | unc r =>
    simp only [← hd, apply]
    cases hr : s.data.get? r with
    | none => simp [unincorporate_missing hr]
    | some x => simp [unincorporate_ok h hr]
  | hyp a =>
    simp only [apply, setHypers]
    split <;> simp_all

/-- Non-vacuity: a history with a duplicate, a removal that empties a table and a
re-seating. -/
example : ((init 1).run [.inc 0 5, .inc 1 5, .inc 0 7, .inc 2 3, .unc 2, .unc 9]).counts = [(5, 2)]
    ∧ ((init 1).run [.inc 0 5, .inc 1 5, .inc 0 7, .inc 2 3, .unc 2, .unc 9]).N = 2 := by
  constructor <;> rfl

/-! ### C02 -/

/-- **C02.** For every reachable CRP and every customer that is not seated, the
support enumerated by `simulate` lists every occupied table once plus exactly one
unoccupied table, every listed probability is positive and they sum to one. -/
theorem C02_crp_predictive_normalised (alpha₀ : ℝ) (h₀ : 0 < alpha₀) (ops : List Op)
    (r : Row) (hr : seats ops r = none) :
    let s := (init alpha₀).run ops
    s.simulateSupport.Nodup ∧
    (∀ t, seatedAt (seats ops) t ≠ 0 → t ∈ s.simulateSupport) ∧
    (∃! t, t ∈ s.simulateSupport ∧ seatedAt (seats ops) t = 0) ∧
    (∀ t, 0 < pr (s.logpdf (some r) t)) ∧
    (s.simulateSupport.map (fun t => pr (s.logpdf (some r) t))).sum = 1 := by
  intro s
  have h : Inv s := inv_run (inv_init alpha₀) ops
  have ha : 0 < s.alpha := alpha_run (by simpa [init] using h₀) ops
  have hd : ∀ r, s.data.get? r = seats ops r := fun r => congrFun (data_run alpha₀ ops) r
  have hc := (C01_crp_bookkeeping alpha₀ ops).2.1
  have hpos := denom_pos h ha
  have hocc : ∀ t, seatedAt (seats ops) t ≠ 0 ↔ t ∈ s.counts.keys := by
    intro t
    rw [← Dict.get?_isSome_iff, hc t]; split <;> simp_all
  have hlp : ∀ t, pr (s.logpdf (some r) t) =
      wt s t / (s.N + s.alpha) := by
    intro t
    have : (some r).bind s.data.get? = none := by simp [hd r, hr]
    simp only [logpdf, this, pr_coe]
    exact pr_predictive h ha t
  have hfresh : s.counts.get? (pyMax s.counts.keys + 1) = none := by
    rw [Dict.get?_eq_none_iff]; exact fresh_not_mem _ 0
  have hppos : ∀ t, 0 < pr (s.logpdf (some r) t) := by
    intro t; rw [hlp t]; exact div_pos (wt_pos h ha t) hpos
  by_cases he : s.counts = []
  · have hk : s.simulateSupport = [0] := by simp [simulateSupport, he]
    have hN : s.N = 0 := by rw [← sum_counts h, he]; rfl
    have hz : ∀ t, seatedAt (seats ops) t = 0 := by
      intro t; by_contra hne; have := (hocc t).mp hne; simp [he, Dict.keys] at this
    refine ⟨by simp [hk], fun t ht => absurd (hz t) ht, ⟨0, ?_, ?_⟩, hppos, ?_⟩
    · simp [hk, hz]
    · simp [hk]
    · rw [hk]; simp only [List.map_cons, List.map_nil, List.sum_cons, List.sum_nil, add_zero, hlp,
        hN]
      simp [wt, he, ha.ne']
  · have hk : s.simulateSupport = pySorted s.counts.keys ++ [pyMax s.counts.keys + 1] := by
      simp [simulateSupport, he]
    have hp := pySorted_perm s.counts.keys
    refine ⟨?_, ?_, ⟨pyMax s.counts.keys + 1, ?_, ?_⟩, hppos, ?_⟩
    · rw [hk]
      refine List.Nodup.append (hp.nodup_iff.mpr h.wfCounts) (List.nodup_singleton _) ?_
      rw [List.disjoint_singleton]
      rw [hp.mem_iff]
      exact fresh_not_mem _ 0
    · intro t ht; rw [hk, List.mem_append, hp.mem_iff]; exact Or.inl ((hocc t).mp ht)
    · constructor
      · simp [hk]
      · by_contra hne; exact fresh_not_mem _ 0 ((hocc _).mp hne)
    · rintro t ⟨ht, ht0⟩
      rw [hk, List.mem_append, hp.mem_iff] at ht
      rcases ht with ht | ht
      · exact absurd ht0 ((hocc t).mpr ht)
      · simpa using ht
    · rw [hk, List.map_append, List.sum_append, (hp.map _).sum_eq]
      have hw : wt s (pyMax s.counts.keys + 1) = s.alpha := by simp [wt, hfresh]
      simp only [hlp, List.map_cons, List.map_nil, List.sum_cons, List.sum_nil, add_zero, hw,
        sum_map_div, sum_occupied h]
      field_simp

/-- **C02.** Every unoccupied label gets the same probability, alpha/(N+alpha); an
occupied table gets its share of the customers. -/
theorem C02_crp_predictive_value (alpha₀ : ℝ) (h₀ : 0 < alpha₀) (ops : List Op)
    (r : Row) (hr : seats ops r = none) (t : Tab) :
    let s := (init alpha₀).run ops
    pr (s.logpdf (some r) t) =
      (if seatedAt (seats ops) t = 0 then s.alpha else (seatedAt (seats ops) t : ℝ)) /
        (seatedTotal (seats ops) + s.alpha) := by
  intro s
  have h : Inv s := inv_run (inv_init alpha₀) ops
  have ha : 0 < s.alpha := alpha_run (by simpa [init] using h₀) ops
  have hd : ∀ r, s.data.get? r = seats ops r := fun r => congrFun (data_run alpha₀ ops) r
  have hb := C01_crp_bookkeeping alpha₀ ops
  have : (some r).bind s.data.get? = none := by simp [hd r, hr]
  simp only [logpdf, this, pr_coe]
  have hw : wt s t = if seatedAt (seats ops) t = 0 then s.alpha else (seatedAt (seats ops) t : ℝ) := by
    unfold wt; rw [hb.2.1 t]
    by_cases h0 : seatedAt (seats ops) t = 0 <;> simp [h0]
  rw [pr_predictive h ha t, hb.2.2.1, hw]
  rfl

/-- **C02.** A seated customer has density 1 at its own table and 0 elsewhere. -/
theorem C02_crp_observed_row (alpha₀ : ℝ) (ops : List Op) (r : Row) (own t : Tab)
    (hr : seats ops r = some own) :
    pr (((init alpha₀).run ops).logpdf (some r) t) = if own = t then 1 else 0 := by
  have hd : ((init alpha₀).run ops).data.get? r = some own := by
    rw [← hr]; exact congrFun (data_run alpha₀ ops) r
  have : (some r).bind ((init alpha₀).run ops).data.get? = some own := by simp [hd]
  simp only [logpdf, this]
  split
  · simp
  · simp

example : seats [.inc 0 5, .inc 1 5, .inc 2 3] 7 = none ∧ seats [.inc 0 5, .inc 1 5, .inc 2 3] 1 = some 5 := by
  constructor <;> simp [seats, seatStep]

/-! ### C03 -/

/-- **C03.** Seating an unseated customer raises the score by exactly the predictive
log density of the table it takes. -/
theorem C03_score_increment (alpha₀ : ℝ) (h₀ : 0 < alpha₀) (ops : List Op) (r : Row) (x : Tab)
    (hr : seats ops r = none) :
    let s := (init alpha₀).run ops
    (((s.apply (.inc r x)).state.logpdfScore : ℝ) : LogP) =
      (s.logpdfScore : LogP) + s.logpdf (some r) x := by
  intro s
  have h : Inv s := inv_run (inv_init alpha₀) ops
  have ha : 0 < s.alpha := alpha_run (by simpa [init] using h₀) ops
  have hd : s.data.get? r = none := by rw [← hr]; exact congrFun (data_run alpha₀ ops) r
  have : (some r).bind s.data.get? = none := by simp [hd]
  simp only [logpdf, this, ← WithBot.coe_add]
  congr 1
  exact score_incorporate h ha hd

/-- **C03.** Removing a customer lowers the score by exactly the predictive log
density, in the remaining state, of the table it occupied. -/
theorem C03_score_decrement (alpha₀ : ℝ) (h₀ : 0 < alpha₀) (ops : List Op) (r : Row) (x : Tab)
    (hr : seats ops r = some x) :
    let s := (init alpha₀).run ops
    let s' := (s.apply (.unc r)).state
    ((s.logpdfScore : ℝ) : LogP) = (s'.logpdfScore : LogP) + s'.logpdf (some r) x := by
  intro s s'
  have h : Inv s := inv_run (inv_init alpha₀) ops
  have ha : 0 < s.alpha := alpha_run (by simpa [init] using h₀) ops
  have hd : s.data.get? r = some x := by rw [← hr]; exact congrFun (data_run alpha₀ ops) r
  have h' : Inv s' := inv_apply h _
  have hs' : s' = (s.unincorporate r).state := rfl
  rw [unincorporate_ok h hd, Out.state_ok] at hs'
  have hd' : s'.data.get? r = none := by rw [hs']; exact Dict.get?_erase_self _ _
  have ha' : 0 < s'.alpha := by rw [hs']; exact ha
  have : (some r).bind s'.data.get? = none := by simp [hd']
  simp only [logpdf, this, ← WithBot.coe_add]
  congr 1
  rw [← score_incorporate h' ha' hd', incorporate_ok h' hd', Out.state_ok]
  have hperm : s.data.Perm (s'.data ++ [(r, x)]) := by
    rw [hs']
    exact (Dict.perm_cons_erase h.wfData hd).trans (List.perm_append_singleton _ _).symm
  apply score_congr
  · rw [hs']
  · rw [hs']; simp
  · have hw : (s'.counts.set x ((nSeated s'.data x : Int) + 1)).WF := Dict.wf_set h'.wfCounts _ _
    apply List.Perm.map
    apply Dict.perm_of_get? h.wfCounts hw
    have hinv := inv_incorporate h' r x
    rw [incorporate_ok h' hd', Out.state_ok] at hinv
    intro t
    rw [h.hCounts t]
    have := hinv.hCounts t
    simp only at this
    rw [this]
    simp only [countOf, nSeated_perm hperm t]

/-- **C03.** The score of a seating is the sum of the one-step-ahead log predictives
along the order in which the customers were seated (hence the same for every order). -/
theorem C03_score_is_chain_of_predictives (alpha : ℝ) (ha : 0 < alpha) (l : List (Row × Tab))
    (hl : (l.map Prod.fst).Nodup) :
    ((init alpha).run (seatAll l)).logpdfScore = predictives (init alpha) l := by
  rw [score_seatAll (inv_init alpha) ha l hl (fun _ _ => rfl)]
  simp [logpdfScore, calcLogpdfMarginal, init, Dict.vals]

/-- **C03.** Exchangeability: if the seating reached by one history is the seating
reached by another after renaming customers (`σ`) and tables (`τ`, injective on the
occupied tables), and the concentrations agree, the scores agree. -/
theorem C03_exchangeable (alpha alpha' : ℝ) (ops ops' : List Op)
    (σ : Equiv.Perm Row) (τ : Tab → Tab)
    (hτ : Set.InjOn τ {t | seatedAt (seats ops) t ≠ 0})
    (hσ : ∀ r, seats ops' (σ r) = (seats ops r).map τ)
    (hα : ((init alpha).run ops).alpha = ((init alpha').run ops').alpha) :
    ((init alpha).run ops).logpdfScore = ((init alpha').run ops').logpdfScore := by
  have hb := C01_crp_bookkeeping alpha ops
  have hb' := C01_crp_bookkeeping alpha' ops'
  set s := (init alpha).run ops with hs
  set s' := (init alpha').run ops' with hs'
  have h : Inv s := inv_run (inv_init alpha) ops
  have h' : Inv s' := inv_run (inv_init alpha') ops'
  have hocc : ∀ t, t ∈ s.counts.keys ↔ seatedAt (seats ops) t ≠ 0 := by
    intro t; rw [← Dict.get?_isSome_iff, hb.2.1 t]; split <;> simp_all
  have hτ' : ∀ t₁ ∈ s.counts.keys, ∀ t₂ ∈ s.counts.keys, τ t₁ = τ t₂ → t₁ = t₂ :=
    fun t₁ h₁ t₂ h₂ e => hτ ((hocc t₁).mp h₁) ((hocc t₂).mp h₂) e
  -- occupied tables contain every seat
  have hseat : ∀ r t, seats ops r = some t → t ∈ s.counts.keys := by
    intro r t hr
    rw [mem_keys_counts h, Dict.vals, List.mem_map]
    have : s.data.get? r = some t := by rw [hb.1 r, hr]
    exact ⟨(r, t), Dict.mem_of_get? this, rfl⟩
  have himg : ∀ t ∈ s.counts.keys,
      {r | seats ops' r = some (τ t)} = σ '' {r | seats ops r = some t} := by
    intro t ht
    ext r'
    obtain ⟨r, rfl⟩ := σ.surjective r'
    simp only [Set.mem_ofPred_eq, hσ, Set.mem_image_equiv, Equiv.symm_apply_apply]
    constructor
    · intro hh
      cases hr : seats ops r with
      | none => simp [hr] at hh
      | some t' =>
        simp only [hr, Option.map_some, Option.some.injEq] at hh
        rw [hτ' t' (hseat r t' hr) t ht hh]
    · intro hh; simp [hh]
  have hcard : ∀ t ∈ s.counts.keys, seatedAt (seats ops') (τ t) = seatedAt (seats ops) t := by
    intro t ht
    unfold seatedAt
    rw [himg t ht, Set.ncard_image_of_injective _ σ.injective]
  have hN : s.N = s'.N := by
    rw [hb.2.2.1, hb'.2.2.1]
    unfold seatedTotal
    have : {r | seats ops' r ≠ none} = σ '' {r | seats ops r ≠ none} := by
      ext r'
      obtain ⟨r, rfl⟩ := σ.surjective r'
      simp only [Set.mem_ofPred_eq, hσ, Set.mem_image_equiv, Equiv.symm_apply_apply, ne_eq,
        Option.map_eq_none_iff]
    rw [this, Set.ncard_image_of_injective _ σ.injective]
  apply score_congr hα hN
  -- counts' is the relabelled counts
  let relabelled : Dict Tab Int := s.counts.map (fun p => (τ p.1, p.2))
  have hvals : s.counts.vals = Dict.vals relabelled := by
    simp only [relabelled, Dict.vals, List.map_map]; rfl
  rw [hvals]
  apply List.Perm.map
  have hwf : Dict.WF relabelled := by
    unfold Dict.WF Dict.keys
    simp only [relabelled, List.map_map]
    have : (Prod.fst ∘ fun p : Tab × Int => (τ p.1, p.2)) = τ ∘ Prod.fst := rfl
    rw [this, ← List.map_map]
    exact List.Nodup.map_on (fun a ha b hb e => hτ' a ha b hb e) h.wfCounts
  apply Dict.perm_of_get? hwf h'.wfCounts
  intro t'
  apply Option.ext
  intro c
  rw [← Dict.mem_iff_get? hwf, hb'.2.1 t']
  simp only [relabelled, List.mem_map, Prod.mk.injEq]
  constructor
  · rintro ⟨⟨t, c'⟩, hm, rfl, rfl⟩
    have hg := Dict.get?_of_mem h.wfCounts hm
    have hk := Dict.mem_keys_of_get? hg
    rw [hcard t hk]
    rw [← hb.2.1 t]; exact hg
  · intro hc
    split at hc
    · simp at hc
    · rename_i hne
      have hne' : {r | seats ops' r = some t'}.Nonempty := by
        rw [Set.nonempty_iff_ne_empty]; intro he
        apply hne; unfold seatedAt; rw [he]; simp
      obtain ⟨r', hr'⟩ := hne'
      obtain ⟨r, rfl⟩ := σ.surjective r'
      simp only [Set.mem_ofPred_eq, hσ] at hr'
      cases hr : seats ops r with
      | none => simp [hr] at hr'
      | some t =>
        simp only [hr, Option.map_some, Option.some.injEq] at hr'
        subst hr'
        have hk := hseat r t hr
        refine ⟨(t, c), ?_, rfl, rfl⟩
        rw [Dict.mem_iff_get? h.wfCounts, hb.2.1 t, ← hcard t hk, if_neg hne]
        simpa using hc

/-- Non-vacuity: two histories in different orders with different labels. -/
example : ∃ (σ : Equiv.Perm Row) (τ : Tab → Tab),
    (∀ t₁ t₂, τ t₁ = τ t₂ → t₁ = t₂) ∧
    ∀ r, seats [.inc 1 10, .inc 0 11, .inc 2 10, .unc 2] (σ r) = (seats [.inc 0 0, .inc 1 1] r).map τ := by
  refine ⟨Equiv.swap 0 1, (· + 10), fun _ _ h => by simpa using h, ?_⟩
  intro r
  by_cases h0 : r = 0
  · subst h0; simp [seats, seatStep]
  · by_cases h1 : r = 1
    · subst h1; simp [seats, seatStep]
    · rw [Equiv.swap_apply_of_ne_of_ne h0 h1]; simp [seats, seatStep, h0, h1]

/-! ### C04 -/

/-- **C04.** Gibbs proposals for a seated row.  Let `s'` be the restaurant with the row
removed.  The proposed tables are listed without repetition, contain every table
occupied in `s'`, and exactly `m` of them are empty in `s'`; the proposed log weights
are, up to the single factor `N' + alpha`, the predictive probabilities of `s'`, with the
mass of a fresh table split evenly over the `m` empty ones. -/
theorem C04_gibbs_is_conditional (alpha₀ : ℝ) (h₀ : 0 < alpha₀) (ops : List Op)
    (r : Row) (own : Tab) (hr : seats ops r = some own) (m : Nat) (hm : 0 < m) :
    let s := (init alpha₀).run ops
    let s' := (s.apply (.unc r)).state
    let occupied' := fun t => seatedAt (seats (ops ++ [.unc r])) t ≠ 0
    ∃ tables w, s.gibbsTables (some r) m = .ok tables ∧
      s.gibbsLogps r m = .ok (tables.map w) ∧
      tables.Nodup ∧
      own ∈ tables ∧
      (∀ t, occupied' t → t ∈ tables) ∧
      (Set.ncard {t | t ∈ tables ∧ ¬ occupied' t} = m) ∧
      ∀ t ∈ tables, (occupied' t →
          Real.exp (w t) = (s'.N + s'.alpha) * pr (s'.logpdf (some r) t)) ∧
        (¬ occupied' t →
          Real.exp (w t) = (s'.N + s'.alpha) * pr (s'.logpdf (some r) t) / m) := by
  intro s s' occupied'
  have h : Inv s := inv_run (inv_init alpha₀) ops
  have ha : 0 < s.alpha := alpha_run (by simpa [init] using h₀) ops
  have hd : s.data.get? r = some own := by rw [← hr]; exact congrFun (data_run alpha₀ ops) r
  have hrun : (init alpha₀).run (ops ++ [.unc r]) = s' := by simp [run, s', s]
  have h' : Inv s' := inv_apply h _
  have ha' : s'.alpha = s.alpha := by
    change (s.unincorporate r).state.alpha = _
    rw [unincorporate_ok h hd]; rfl
  have hocc : ∀ t, occupied' t ↔ s'.counts.get? t ≠ none := by
    intro t
    have := (C01_crp_bookkeeping alpha₀ (ops ++ [.unc r])).2.1 t
    rw [hrun] at this
    rw [this]
    simp only [occupied']
    split <;> simp_all
  -- counts after removal
  have hn := nSeated_erase h.wfData hd
  have hdata' : s'.data = s.data.erase r := by
    change (s.unincorporate r).state.data = _
    rw [unincorporate_ok h hd]; rfl
  have hc' : ∀ t, s'.counts.get? t = countOf (s.data.erase r) t := by
    intro t; rw [h'.hCounts t, hdata']
  have hownpos : 0 < nSeated s.data own := by have := hn own; simp at this; omega
  have hcown : s.counts.get? own = some (nSeated s.data own : Int) := by
    rw [h.hCounts, countOf, if_neg (by omega)]
  have hother : ∀ t, t ≠ own → s'.counts.get? t = s.counts.get? t := by
    intro t ht
    have := hn t
    rw [if_neg (Ne.symm ht)] at this
    rw [hc' t, h.hCounts t, countOf, countOf, this, Nat.add_zero]
  have hne : s.counts ≠ [] := by
    intro he; rw [he] at hcown; simp at hcown
  have hsing : s.singleton (some r) = decide (nSeated s.data own = 1) := by
    have : (some r).bind s.data.get? = some own := by simp [hd]
    simp only [Crp.singleton, this, hcown]
    congr 1
    simp only [Option.some.injEq]
    exact propext (by omega)
  have hp := pySorted_perm s.counts.keys
  have hownk : own ∈ s.counts.keys := Dict.mem_keys_of_get? hcown
  set mAux := if s.singleton (some r) then m - 1 else m with hmAux
  set aux := (List.range mAux).map (fun i => pyMax s.counts.keys + 1 + i) with haux
  have hauxmem : ∀ t ∈ aux, s.counts.get? t = none := by
    intro t ht
    simp only [haux, List.mem_map] at ht
    obtain ⟨i, -, rfl⟩ := ht
    rw [Dict.get?_eq_none_iff]; exact fresh_not_mem _ i
  have hauxnd : aux.Nodup := by
    apply List.Nodup.map _ List.nodup_range
    intro a b hab; simpa using hab
  have htab : s.gibbsTables (some r) m = .ok (pySorted s.counts.keys ++ aux) := by
    simp only [gibbsTables, if_neg (by omega : ¬ m = 0)]
    have : ¬ (s.counts.isEmpty = true ∧ 0 < mAux) := by simp [hne]
    simp only [← hmAux, this, if_false]; rfl
  have hnd : (pySorted s.counts.keys ++ aux).Nodup := by
    refine List.Nodup.append (hp.nodup_iff.mpr h.wfCounts) hauxnd ?_
    intro t ht ht'
    rw [hp.mem_iff] at ht
    exact (Dict.get?_eq_none_iff _ _).mp (hauxmem t ht') ht
  have hlp : ∀ t, (s'.N + s'.alpha) * pr (s'.logpdf (some r) t) = wt s' t := by
    intro t
    have h1 : s'.data.get? r = none := by rw [hdata']; exact Dict.get?_erase_self _ _
    have : (some r).bind s'.data.get? = none := by simp [h1]
    have hpos := denom_pos h' (by rw [ha']; exact ha)
    simp only [logpdf, this, pr_coe, pr_predictive h' (by rw [ha']; exact ha) t]
    field_simp
  refine ⟨pySorted s.counts.keys ++ aux, fun t => Real.log (s.gibbsWeight own m t), htab, ?_, hnd,
    ?_, ?_, ?_, ?_⟩
  · simp only [gibbsLogps, hd, htab]
  · rw [List.mem_append, hp.mem_iff]; exact Or.inl hownk
  · intro t ht
    rw [hocc] at ht
    rw [List.mem_append, hp.mem_iff]
    left
    by_cases hto : t = own
    · subst hto; exact hownk
    · rw [hother t hto] at ht
      rw [← not_not (a := t ∈ _), ← Dict.get?_eq_none_iff]; exact ht
  · -- counting the empty proposals
    have hset : {t | t ∈ pySorted s.counts.keys ++ aux ∧ ¬ occupied' t} =
        ((if nSeated s.data own = 1 then own :: aux else aux).toFinset : Set Tab) := by
      ext t
      simp only [Set.mem_ofPred_eq, List.mem_append, hp.mem_iff, hocc, not_not, List.coe_toFinset]
      by_cases hto : t = own
      · subst hto
        have hna : t ∉ aux := fun hm' => by simp [hauxmem t hm'] at hcown
        have h1 := hn t
        simp only [if_true] at h1
        rw [hc' t, countOf]
        by_cases hs1 : nSeated s.data t = 1
        · have : nSeated (s.data.erase r) t = 0 := by omega
          simp [this, hs1, hownk]
        · have : nSeated (s.data.erase r) t ≠ 0 := by omega
          simp [this, hs1, hna]
      · rw [hother t hto]
        have hiff : t ∈ (if nSeated s.data own = 1 then own :: aux else aux) ↔ t ∈ aux := by
          split <;> simp [hto]
        rw [hiff]
        constructor
        · rintro ⟨h1 | h1, h2⟩
          · exact absurd h1 ((Dict.get?_eq_none_iff _ _).mp h2)
          · exact h1
        · intro h1; exact ⟨Or.inr h1, hauxmem t h1⟩
    have hna : own ∉ aux := fun hm' => by simp [hauxmem own hm'] at hcown
    have hnd2 : (if nSeated s.data own = 1 then own :: aux else aux).Nodup := by
      split
      · exact List.nodup_cons.mpr ⟨hna, hauxnd⟩
      · exact hauxnd
    rw [hset, Set.ncard_coe_finset, List.toFinset_card_of_nodup hnd2]
    have hlen : aux.length = mAux := by simp [haux]
    by_cases hs1 : nSeated s.data own = 1
    · simp only [hs1, if_true, List.length_cons, hlen, hmAux, hsing, decide_true]; omega
    · simp [hs1, hlen, hmAux, hsing]
  · intro t ht
    have hmpos : (0 : ℝ) < m := by exact_mod_cast hm
    rw [hlp t, hocc t]
    have hw : s.gibbsWeight own m t =
        if s'.counts.get? t = none then wt s' t / m else wt s' t := by
      unfold gibbsWeight wt
      by_cases hto : t = own
      · subst hto
        have h1 := hn t
        simp only [if_true] at h1
        rw [if_pos rfl, hcown, hc' t, countOf, ha']
        by_cases hs1 : nSeated s.data t = 1
        · have : nSeated (s.data.erase r) t = 0 := by omega
          simp [hs1, this]
        · have h2 : ¬ ((nSeated s.data t : Int) = 1) := by omega
          have h3 : ¬ nSeated (s.data.erase r) t = 0 := by omega
          simp only [h2, if_false, h3, reduceCtorEq]
          push_cast [h1]; ring
      · rw [if_neg hto, hother t hto, ha']
        cases s.counts.get? t <;> simp
    have hwpos : 0 < wt s' t := wt_pos h' (by rw [ha']; exact ha) t
    constructor
    · intro hne'
      rw [if_neg hne'] at hw
      simp only [hw]; rw [Real.exp_log hwpos]
    · intro hne'
      rw [not_not] at hne'
      rw [if_pos hne'] at hw
      simp only [hw]; rw [Real.exp_log (by positivity)]

/-- **C04.** The row must be seated. -/
theorem C04_gibbs_needs_seated_row (alpha₀ : ℝ) (ops : List Op) (r : Row) (m : Nat)
    (hr : seats ops r = none) :
    ((init alpha₀).run ops).gibbsLogps r m = .error .assertion := by
  have hd : ((init alpha₀).run ops).data.get? r = none := by
    rw [← hr]; exact congrFun (data_run alpha₀ ops) r
  simp [gibbsLogps, hd]

/-- Non-vacuity: row 2 is alone at table 3; with `m = 2` its own table is reused and one
new table is proposed. -/
example : seats [.inc 0 5, .inc 1 5, .inc 2 3] 2 = some 3 ∧
    ((init 1).run [.inc 0 5, .inc 1 5, .inc 2 3]).gibbsTables (some 2) 2 = .ok [3, 5, 6] := by
  constructor
  · simp [seats, seatStep]
  · rfl

end Cgpm.Props
