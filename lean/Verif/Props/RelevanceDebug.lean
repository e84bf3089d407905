import Verif.Props.Relevance
import Verif.Lemmas.RelevanceDebug

/-!
The part of C30 about the checks of src/mixtures/relevance.py that are made when the environment variable
`GPMCCDEBUG` is set.
-/
namespace Cgpm.Props
open Cgpm Cgpm.View Cgpm.Net

variable {C : Cat} {Ω : Type} {close : C.V → C.V → Bool} {ord : PyOrder} {sim : Simulator C Ω}
  {ω : Tab → Draws Ω} {z : Nat} {v : View C} {X : C.Tbl} {T : Row} {Q : List Row}

/-- **C30** (views), collapsed components, with the debug checks on: both assertions hold, so the
computation returns; its answer is the one given with the checks off, and the view is as it was.
`C30_view` says what that answer is. -/
theorem C30_debug (hC : C.Lawful) (hCh : C.Chain) (hR : Reachable X v) (hord : ord.Lists)
    (hs : Schema v z) (hc : ClosedInputs v) (hq : RelevanceQuery v T Q) :
    ∃ a v' v'', v.relevanceProbability close X ord sim ω z T Q = .ok a v' ∧
      v.relevanceProbabilityDebug close X ord sim ω z T Q = .ok a v'' ∧ v.Equiv v'' := by
  have hI := hR.inv hC
  choose W hW using C30_view_alternatives hC hR hq
  obtain ⟨a, v', v'', h1, h2, h3⟩ := relevanceDebug_ok (close := close) (sim := sim) hC hCh hI hord
    hs hc hq (fun k t => (hW k t).at hC hq) ω
  exact ⟨_, v', v'', h1, h2, (At.start hI).equiv hC h3⟩

/-- **C30** (views): the cases that the debug check enumerates are all the cases in which the target is
apart from the query rows, each once up to the names of new clusters.  The target is in a cluster of `S`
or a new one; the query rows are in another cluster of `S`, or in a new one. -/
theorem C30_debug_cases {K : List Tab} (hne : K ≠ []) (hK : K.Nodup) :
    ∃ pairs, tablesDifferent K = .ok pairs ∧ (pairs.map Prod.fst).Nodup ∧
      (∀ t, t ∈ pairs.map Prod.fst ↔ t ∈ choices K.toFinset) ∧
      ∀ t ks, (t, ks) ∈ pairs → ks.Nodup ∧
        ∀ k, k ∈ ks ↔ k ≠ t ∧ (k ∈ choices K.toFinset ∨ k = K.toFinset.sup id + 2 ∧ t ∉ K) := by
  have hsup := pyMax_sup hne
  have hlt : ∀ t ∈ K, t < K.toFinset.sup id + 1 := fun t ht =>
    Nat.lt_succ_of_le (Finset.le_sup (f := id) (List.mem_toFinset.mpr ht))
  have hnd : (K ++ [K.toFinset.sup id + 1]).Nodup := by
    refine List.nodup_append.mpr ⟨hK, by simp, ?_⟩
    intro a ha b hb e
    rw [List.mem_singleton] at hb
    exact absurd (hlt a ha) (by rw [e, hb]; exact lt_irrefl _)
  have hmem : ∀ t, t ∈ K ++ [K.toFinset.sup id + 1] ↔ t ∈ choices K.toFinset := fun t => by
    unfold choices
    rw [Finset.mem_insert, List.mem_toFinset, List.mem_append, List.mem_singleton, or_comm]
  refine ⟨_, by rw [tablesDifferent, if_neg (by simpa using hne)], ?_, fun t => ?_, ?_⟩
  · simp only [List.map_map, Function.comp_def, List.map_id', hsup]
    exact hnd
  · simp only [List.map_map, Function.comp_def, List.map_id', hsup]
    exact hmem t
  · intro t ks h
    simp only [hsup] at h
    obtain ⟨t', ht', e⟩ := List.mem_map.mp h
    cases e
    by_cases htK : t ∈ K
    · rw [if_pos (hlt t htK), List.append_nil]
      refine ⟨hnd.filter _, fun k => ?_⟩
      rw [List.mem_filter, hmem]
      simp [htK, and_comm]
    · have hte : t = K.toFinset.sup id + 1 := by
        have := (hmem t).mp ht'
        unfold choices at this
        rcases Finset.mem_insert.mp this with h | h
        · exact h
        · exact absurd (List.mem_toFinset.mp h) htK
      have hge : ¬ t < K.toFinset.sup id + 1 := by rw [hte]; exact lt_irrefl _
      rw [if_neg hge]
      have hout : K.toFinset.sup id + 1 + 1 ∉ K ++ [K.toFinset.sup id + 1] := by
        intro h
        rcases List.mem_append.mp h with h | h
        · exact absurd (hlt _ h) (by exact Nat.not_lt.mpr (Nat.le_succ _))
        · rw [List.mem_singleton] at h
          exact absurd h (Nat.succ_ne_self _)
      refine ⟨List.nodup_append.mpr ⟨hnd.filter _, by simp, ?_⟩, fun k => ?_⟩
      · intro a ha b hb e
        rw [List.mem_singleton] at hb
        exact hout (by rw [← hb, ← e]; exact (List.mem_filter.mp ha).1)
      · rw [List.mem_append, List.mem_filter, hmem, List.mem_singleton]
        simp only [decide_eq_true_eq, htK, not_false_eq_true, and_true]
        constructor
        · rintro (⟨h1, h2⟩ | h1)
          · exact ⟨h2, Or.inl h1⟩
          · refine ⟨?_, Or.inr h1⟩
            rw [h1, hte]; exact Nat.succ_ne_self _
        · rintro ⟨h1, h2 | h2⟩
          · exact Or.inl ⟨h2, h1⟩
          · exact Or.inr h2

/-! ### Every catalogue -/

theorem overPairs_keeps {f : Tab → Tab → View C → Res (View C) Fl} {R : View C → Prop}
    (h : ∀ t k u a u', R u → f t k u = .ok a u' → R u') {l : List (Tab × List Tab)} {u u' : View C}
    {as : List (List Fl)} (hu : R u) (hf : overPairs f l u = .ok as u') : R u' := by
  induction l generalizing u as with
  | nil => cases hf; exact hu
  | cons p t ih =>
    obtain ⟨t0, ks⟩ := p
    simp only [overPairs] at hf
    split at hf
    · cases hf
    · rename_i a u1 h1
      split at hf
      · cases hf
      · rename_i b u2 h2
        cases hf
        exact ih (overTables_keeps (fun k u a u' => h t0 k u a u') hu h1) h2

/-- **C30** (views), every catalogue of component types: if the computation returns with the debug checks
on, the view is as it was and the answer is the one given with the checks off. -/
theorem C30_debug_restores (hC : C.Lawful) (hR : Reachable X v) (hq : RelevanceQuery v T Q) {a : Fl}
    {v' : View C} (h : v.relevanceProbabilityDebug close X ord sim ω z T Q = .ok a v') :
    v.Equiv v' ∧ ∃ v'', v.relevanceProbability close X ord sim ω z T Q = .ok a v'' := by
  have hI := hR.inv hC
  obtain ⟨u, g1, g2⟩ := at_out hC hI hq
  have hM : ∀ k u a u', At X v (outSeat v T Q) u →
      termMarginal close X ord sim (ω k) z (v.rowValues X T) (Q.map fun r => (r, v.rowValues X r)) k
        u = .ok a u' → At X v (outSeat v T Q) u' := by
    intro k u a u' hu ht
    obtain ⟨u1, e1, e2⟩ := at_query hI hq hu k
    obtain ⟨u2, e3, e4⟩ := unquery hC hq e2
    unfold termMarginal at ht
    simp only [List.map_map, Function.comp_def, e1, e2.inv.scoreAt_ok, List.map_id', e3] at ht
    split at ht
    · cases ht
    · cases ht; exact e4
  have hJ : ∀ t k u a u', At X v (outSeat v T Q) u →
      termJoint X T (v.rowValues X T) (Q.map fun r => (r, v.rowValues X r)) t k u = .ok a u' →
        At X v (outSeat v T Q) u' := by
    intro t k u a u' hu ht
    obtain ⟨u1, e1, e2⟩ := at_joint hI hq hu k t
    obtain ⟨u2, e3, e4⟩ := unjoint hC hq e2
    unfold termJoint at ht
    by_cases e : t = k
    · subst e
      simp only [List.map_map, Function.comp_def, e1, e2.inv.scoreAt_ok, List.map_id', e3] at ht
      cases ht; exact e4
    · simp only [List.map_map, Function.comp_def, e1, e2.inv.scoreAt_ne e, List.map_id', e3] at ht
      cases ht; exact e4
  have hD : ∀ {K ls lc u u'}, At X v (outSeat v T Q) u →
      debugCheck X T (v.rowValues X T) (Q.map fun r => (r, v.rowValues X r)) K ls lc u = .ok () u' →
        At X v (outSeat v T Q) u' := by
    intro K ls lc u u' hu hd
    unfold debugCheck at hd
    split at hd
    · cases hd
    split at hd
    · cases hd
    split at hd
    · cases hd
    rename_i terms u1 h1
    split at hd
    · cases hd
    split at hd
    · cases hd
    split at hd
    · cases hd
    split at hd
    · cases hd
      exact overPairs_keeps (fun t k u a u' => hJ t k u a u') hu h1
    · cases hd
  obtain ⟨kT, hkT⟩ := Option.ne_none_iff_exists'.mp hq.seated
  have hkT' : (v.seat T).getD 0 = kT := by rw [hkT]; rfl
  have hlen : ¬ Q.length < 1 := by
    have := List.length_pos_iff.mpr hq.nonempty
    omega
  have hcon : ¬ Q.contains T = true := by
    rw [List.contains_iff_mem]; exact hq.apart
  unfold relevanceProbabilityDebug at h
  rw [if_neg hlen, if_neg hcon, hkT, seatsOf_ok v hq.rows] at h
  simp only [g1, zipWith_seats] at h
  unfold relevanceProbability
  rw [if_neg hlen, if_neg hcon, hkT, seatsOf_ok v hq.rows]
  simp only [g1, zipWith_seats]
  cases hcore : u.relevanceCoreDebug close X ord sim ω z T (v.rowValues X T)
      (Q.map fun r => (r, v.rowValues X r)) with
  | err e u' => rw [hcore] at h; cases h
  | ok b u' =>
    have e2 : At X v (outSeat v T Q) u' ∧ ∃ w, At X v (outSeat v T Q) w ∧
        u.relevanceCore close X ord sim ω z T (v.rowValues X T)
          (Q.map fun r => (r, v.rowValues X r)) = .ok b w := by
      unfold relevanceCoreDebug at hcore
      unfold relevanceCore
      split at hcore
      · cases hcore
      rename_i tables htab
      split at hcore
      · cases hcore
      rename_i base hb
      split at hcore
      · cases hcore
      rename_i cond u1 hc1
      split at hcore
      · cases hcore
      rename_i lc hlc
      split at hcore
      · cases hcore
      rename_i same u2 hc2
      split at hcore
      · cases hcore
      rename_i ls hls
      split at hcore
      · cases hcore
      rename_i u3 hd
      cases hcore
      have k2 := overTables_keeps (fun k u a u' => hJ k k u a u')
        (overTables_keeps (fun k u a u' => hM k u a u') g2 hc1) hc2
      refine ⟨hD k2 hd, u2, k2, ?_⟩
      simp only [htab, hb, hc1, hlc, hc2, hls]
    obtain ⟨e2, w, e3, e4⟩ := e2
    obtain ⟨u1, f1, f2⟩ := restore hI hq e2
    obtain ⟨u3, f3, f4⟩ := restore hI hq e3
    rw [hcore] at h
    simp only [List.map_cons, hkT'] at f1 f3
    simp only [f1] at h
    split at h
    · cases h
      exact ⟨(At.start hI).equiv hC f2, u3, by simp only [e4, f3]⟩
    · cases h

/-- The hypotheses of `C30_debug` are those of `C30_view`, met by the example beside it.  Two clusters:
six cases and the one of two new clusters. -/
example : tablesDifferent [0, 5] = .ok [(0, [5, 6]), (5, [0, 6]), (6, [0, 5, 7])] := by
  rfl

end Cgpm.Props
