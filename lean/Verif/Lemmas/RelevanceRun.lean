import Verif.Lemmas.RelevanceSum

/-! A run of the relevance computation of a view. -/
namespace Cgpm.Props
open Cgpm Cgpm.View Cgpm.Net

variable {C : Cat} {Ω : Type}

theorem At.reach {X : C.Tbl} {v0 u u' : View C} {s : Row → Option Tab} (h : At X v0 s u)
    (hR : Reachable X u) {r : Row} (ha : Suits X v0 r) {k : Tab}
    (hi : u.incorporate X r (v0.rowValues X r) (some k) 0 = .ok u') : Reachable X u' := by
  have hl : legal (X, u) (.inc r (v0.rowValues X r) (some k) 0) := by
    intro _ c d hd
    have hm := Dict.mem_of_get? hd
    refine ⟨h.obs r _ hm, ?_⟩
    obtain ⟨d0, h1, h2⟩ := h.frame hm
    exact (admissible_iff _ _ _).mpr ((accepts_frame h2 r).mpr (ha _ h1))
  have := hR.step hl
  simpa only [View.apply, hi, Out.state_ok] using this

theorem reach_incRows {X : C.Tbl} {v0 u u' : View C} {s : Row → Option Tab} (h : At X v0 s u)
    (hR : Reachable X u) {Q : List Row} (hn : Q.Nodup) (hQ : ∀ r ∈ Q, s r = none)
    (ha : ∀ r ∈ Q, Suits X v0 r) (f : Row → Tab)
    (hi : incRows X (Q.map fun r => (r, v0.rowValues X r, f r)) u = .ok u') : Reachable X u' := by
  induction Q generalizing u s with
  | nil => cases hi; exact hR
  | cons q Q ih =>
    obtain ⟨hq, hn⟩ := List.nodup_cons.mp hn
    obtain ⟨u1, g1, g2⟩ := h.inc (hQ q (by simp)) (ha q (by simp)) (f q)
    simp only [List.map_cons, incRows, g1, Out.bind] at hi
    refine ih g2 (At.reach h hR (ha q (by simp)) g1) hn (fun r hr => ?_) (fun r hr => ha r (by simp [hr]))
      hi
    have hne : r ≠ q := fun e => hq (e ▸ hr)
    rw [upd_ne _ _ hne]
    exact hQ r (by simp [hr])

theorem reach_uncRows {X : C.Tbl} {u u' : View C} (hR : Reachable X u) {Q : List Row}
    (hi : uncRows Q u = .ok u') : Reachable X u' := by
  induction Q generalizing u with
  | nil => cases hi; exact hR
  | cons q Q ih =>
    simp only [uncRows] at hi
    have := hR.step (op := .unc q) trivial
    cases h1 : u.unincorporate q with
    | err e w => rw [h1] at hi; cases hi
    | ok w =>
      rw [h1] at hi
      simp only [View.apply, h1, Out.state_ok] at this
      exact ih this hi

section
variable {X : C.Tbl} {v : View C} {T : Row} {Q : List Row}

/-- The seats of the rows of a query. -/
theorem seatsOf_ok (v : View C) {l : List Row} (h : ∀ r ∈ l, v.seat r ≠ none) :
    v.seatsOf l = .ok (l.map fun r => (v.seat r).getD 0) := by
  induction l with
  | nil => rfl
  | cons r t ih =>
    obtain ⟨k, hk⟩ := Option.ne_none_iff_exists'.mp (h r (by simp))
    simp only [seatsOf, hk, ih fun r hr => h r (by simp [hr]), Except.map, List.map_cons,
      Option.getD_some]

theorem zipWith_seats (v : View C) (X : C.Tbl) (l : List Row) (f : Row → Tab) :
    List.zipWith (fun (q : Row × Dict Col C.Cell) k => (q.1, q.2, k))
      (l.map fun r => (r, v.rowValues X r)) (l.map f) =
      l.map fun r => (r, v.rowValues X r, f r) := by
  induction l with
  | nil => rfl
  | cons r t ih => simp only [List.map_cons, List.zipWith_cons_cons, ih]

theorem outSeat_others (hq : RelevanceQuery v T Q) : ∃ r, outSeat v T Q r ≠ none := by
  obtain ⟨r, h1, h2, h3⟩ := hq.other
  exact ⟨r, by rw [outSeat_of_not h1 h2]; exact h3⟩

theorem at_out (hL : C.Lawful) (hI : Inv X v) (hq : RelevanceQuery v T Q) :
    ∃ u, uncRows (T :: Q) v = .ok u ∧ At X v (outSeat v T Q) u :=
  (At.start hI).uncAll hL (List.nodup_cons.mpr ⟨hq.apart, hq.once⟩) (by
    intro r hr
    rcases List.mem_cons.mp hr with rfl | hr
    · exact hq.seated
    · exact hq.rows r hr)

theorem at_query (hI : Inv X v) (hq : RelevanceQuery v T Q) {u : View C}
    (hu : At X v (outSeat v T Q) u) (k : Tab) :
    ∃ u', incRows X (Q.map fun r => (r, v.rowValues X r, k)) u = .ok u' ∧
      At X v (querySeat v T Q k) u' :=
  hu.incAll hq.once (fun _ hr => outSeat_mem (Or.inr hr)) (fun r hr => hI.suits (hq.rows r hr))
    fun _ => k

theorem at_joint (hI : Inv X v) (hq : RelevanceQuery v T Q) {u : View C}
    (hu : At X v (outSeat v T Q) u) (k t : Tab) :
    ∃ u', incRows X ((T, v.rowValues X T, t) :: Q.map fun r => (r, v.rowValues X r, k)) u = .ok u' ∧
      At X v (jointSeat v T Q k t) u' := by
  obtain ⟨u1, g1, g2⟩ := hu.inc (outSeat_mem (Or.inl rfl)) (hI.suits hq.seated) t
  obtain ⟨u2, g3, g4⟩ := g2.incAll hq.once (fun r hr => by
    have hne : r ≠ T := fun e => hq.apart (e ▸ hr)
    rw [upd_ne _ _ hne]; exact outSeat_mem (Or.inr hr)) (fun r hr => hI.suits (hq.rows r hr)) fun _ => k
  refine ⟨u2, by simp only [incRows, g1, Out.bind, g3], g4.congr fun r => ?_⟩
  unfold jointSeat
  by_cases h : r ∈ Q
  · have hne : r ≠ T := fun e => hq.apart (e ▸ h)
    rw [upd_ne _ _ hne, querySeat_mem h]
    unfold put; rw [if_pos h]
  · unfold put; rw [if_neg h]
    unfold upd
    by_cases hT : r = T
    · rw [if_pos hT, if_pos hT]
    · rw [if_neg hT, if_neg hT, querySeat_of_not h]

theorem unjoint (hL : C.Lawful) (hq : RelevanceQuery v T Q) {u : View C} {k t : Tab}
    (hu : At X v (jointSeat v T Q k t) u) :
    ∃ u', uncRows (T :: Q) u = .ok u' ∧ At X v (outSeat v T Q) u' := by
  have hT : jointSeat v T Q k t T = some t := by
    unfold jointSeat upd; rw [if_pos rfl]
  have hQ : ∀ r ∈ Q, jointSeat v T Q k t r = some k := fun r hr => by
    have hne : r ≠ T := fun e => hq.apart (e ▸ hr)
    unfold jointSeat; rw [upd_ne _ _ hne, querySeat_mem hr]
  obtain ⟨u', g1, g2⟩ := hu.uncAll hL (List.nodup_cons.mpr ⟨hq.apart, hq.once⟩) (by
    intro r hr
    rcases List.mem_cons.mp hr with rfl | hr
    · rw [hT]; simp
    · rw [hQ r hr]; simp)
  refine ⟨u', g1, g2.congr fun r => ?_⟩
  by_cases h : r = T ∨ r ∈ Q
  · rw [outSeat_mem h]; unfold put; rw [if_pos (List.mem_cons.mpr h)]
  · unfold put; rw [if_neg (fun hn => h (List.mem_cons.mp hn))]
    obtain ⟨h1, h2⟩ := not_or.mp h
    unfold jointSeat
    rw [upd_ne _ _ h1, querySeat_of_not h2]

theorem unquery (hL : C.Lawful) (hq : RelevanceQuery v T Q) {u : View C} {k : Tab}
    (hu : At X v (querySeat v T Q k) u) :
    ∃ u', uncRows Q u = .ok u' ∧ At X v (outSeat v T Q) u' := by
  obtain ⟨u', g1, g2⟩ := hu.uncAll hL hq.once fun r hr => by rw [querySeat_mem hr]; simp
  refine ⟨u', g1, g2.congr fun r => ?_⟩
  by_cases h : r ∈ Q
  · rw [outSeat_mem (Or.inr h)]; unfold put; rw [if_pos h]
  · unfold put; rw [if_neg h, querySeat_of_not h]

theorem occupied_out {u : View C} (hu : At X v (outSeat v T Q) u) (hI : Inv X v) :
    occupied u = otherTabs v T Q := by
  ext k
  rw [mem_occupied hu.inv, Crp.occupied_iff hu.inv.crp]
  change (∃ r, u.seat r = some k) ↔ _
  rw [hu.seat]
  unfold otherTabs
  simp only [List.mem_toFinset, List.mem_map, List.mem_filter, decide_eq_true_eq]
  constructor
  · rintro ⟨r, hr⟩
    have hn : ¬ (r = T ∨ r ∈ Q) := fun h => by rw [outSeat_mem h] at hr; cases hr
    obtain ⟨h1, h2⟩ := not_or.mp hn
    rw [outSeat_of_not h1 h2] at hr
    exact ⟨(r, k), ⟨Dict.mem_of_get? hr, h1, h2⟩, rfl⟩
  · rintro ⟨⟨r, k'⟩, ⟨hm, h1, h2⟩, rfl⟩
    exact ⟨r, by rw [outSeat_of_not h1 h2]; exact Dict.get?_of_mem hI.crp.wfData hm⟩

theorem occupied_query {u : View C} {k : Tab} (hu : At X v (querySeat v T Q k) u) (hI : Inv X v)
    (hL : C.Lawful) (hq : RelevanceQuery v T Q) :
    occupied u = insert k (otherTabs v T Q) := by
  obtain ⟨u0, -, h0⟩ := at_out hL hI hq
  rw [← occupied_out h0 hI]
  ext t
  rw [Finset.mem_insert, mem_occupied hu.inv, Crp.occupied_iff hu.inv.crp, mem_occupied h0.inv,
    Crp.occupied_iff h0.inv.crp]
  change (∃ r, u.seat r = some t) ↔ _ ∨ ∃ r, u0.seat r = some t
  rw [hu.seat, h0.seat]
  constructor
  · rintro ⟨r, hr⟩
    by_cases h : r ∈ Q
    · rw [querySeat_mem h] at hr
      exact Or.inl (Option.some.inj hr).symm
    · rw [querySeat_of_not h] at hr
      exact Or.inr ⟨r, hr⟩
  · rintro (rfl | ⟨r, hr⟩)
    · obtain ⟨q, hq'⟩ := List.exists_mem_of_ne_nil _ hq.nonempty
      exact ⟨q, querySeat_mem hq'⟩
    · have : r ∉ Q := fun h => by rw [outSeat_mem (Or.inr h)] at hr; cases hr
      exact ⟨r, by rw [querySeat_of_not this]; exact hr⟩

variable {close : C.V → C.V → Bool} {ord : PyOrder} {sim : Simulator C Ω} {z : Nat}

theorem termMarginal_ok (hL : C.Lawful) (hCh : C.Chain) (hI : Inv X v) (hord : ord.Lists)
    (hs : Schema v z) (hc : ClosedInputs v) (hq : RelevanceQuery v T Q) {W : Tab → Tab → View C}
    (hW : ∀ k t, At X v (jointSeat v T Q k t) (W k t)) {u0 u : View C}
    (h0 : At X v (outSeat v T Q) u0) (hu : At X v (outSeat v T Q) u) (ω : Draws Ω) (k : Tab) :
    ∃ a u', termMarginal close X ord sim ω z (v.rowValues X T)
        (Q.map fun r => (r, v.rowValues X r)) k u = .ok a u' ∧ At X v (outSeat v T Q) u' ∧
      ∃ m, a = .fin m ∧ Real.exp (m - u0.atScore k) =
        ∑ t ∈ choices (insert k (otherTabs v T Q)), Real.exp ((W k t).score - u0.score) := by
  obtain ⟨u1, g1, g2⟩ := at_query hI hq hu k
  have hTq : querySeat v T Q k T = none := by
    rw [querySeat_of_not hq.apart, outSeat_mem (Or.inl rfl)]
  have hne : ∃ r, querySeat v T Q k r ≠ none := by
    obtain ⟨q, hq'⟩ := List.exists_mem_of_ne_nil _ hq.nonempty
    exact ⟨q, by rw [querySeat_mem hq']; simp⟩
  choose w hw1 hw2 using fun t => g2.inc hTq (hI.suits hq.seated) t
  obtain ⟨x, hx1, hx2⟩ := predictive_sum (close := close) (sim := sim) (ω := ω) hCh hI.wf g2 hc hs
    hord hne hTq hw1
  obtain ⟨u2, g3, g4⟩ := unquery hL hq g2
  refine ⟨_, u2, ?_, g4, x + u1.atScore k, rfl, ?_⟩
  · unfold termMarginal
    simp only [List.map_map, Function.comp_def, g1, g2.inv.scoreAt_ok, hx1, List.map_id', g3]
    rfl
  · have e := h0.off hL g2 (off_query k)
    rw [show x + u1.atScore k - u0.atScore k = x + (u1.score - u0.score) by linarith, Real.exp_add,
      hx2, occupied_query g2 hI hL hq, Finset.sum_mul]
    refine Finset.sum_congr rfl fun t _ => ?_
    rw [← Real.exp_add, ((hw2 t).equiv hL (hW k t)).score]
    congr 1; ring

theorem termJoint_ok (hL : C.Lawful) (hI : Inv X v)
    (hq : RelevanceQuery v T Q) {W : Tab → Tab → View C}
    (hW : ∀ k t, At X v (jointSeat v T Q k t) (W k t)) {u0 u : View C}
    (h0 : At X v (outSeat v T Q) u0) (hu : At X v (outSeat v T Q) u) (k : Tab) :
    ∃ a u', termJoint X T (v.rowValues X T)
        (Q.map fun r => (r, v.rowValues X r)) k k u = .ok a u' ∧ At X v (outSeat v T Q) u' ∧
      ∃ m, a = .fin m ∧ Real.exp (m - u0.atScore k) = Real.exp ((W k k).score - u0.score) := by
  obtain ⟨u1, g1, g2⟩ := at_joint hI hq hu k k
  obtain ⟨u2, g3, g4⟩ := unjoint hL hq g2
  refine ⟨_, u2, ?_, g4, u1.atScore k, rfl, ?_⟩
  · unfold termJoint
    simp only [List.map_map, Function.comp_def, g1, g2.inv.scoreAt_ok, List.map_id', g3]
  · rw [h0.off hL g2 (off_joint k), (g2.equiv hL (hW k k)).score]

/-- The list of tables of the code is the set of choices. -/
theorem tables_choices {u : View C} (hu : At X v (outSeat v T Q) u) (hI : Inv X v)
    (hq : RelevanceQuery v T Q) :
    ∃ l, tablesSame (pySorted u.crp.counts.keys) = .ok l ∧ l ≠ [] ∧
      ∀ A : Tab → ℝ, (l.map A).sum = ∑ k ∈ choices (otherTabs v T Q), A k := by
  obtain ⟨K, hK⟩ : ∃ K, K = pySorted u.crp.counts.keys := ⟨_, rfl⟩
  have hperm : K.Perm u.crp.counts.keys := hK ▸ pySorted_perm _
  have hnd : K.Nodup := hperm.nodup_iff.mpr hu.inv.crp.wfCounts
  have hset : K.toFinset = otherTabs v T Q := by
    rw [← occupied_out hu hI]
    ext k
    rw [List.mem_toFinset, hperm.mem_iff, mem_occupied hu.inv]
  have hne : K ≠ [] := by
    obtain ⟨r, hr⟩ := outSeat_others hq
    obtain ⟨k, hk⟩ := Option.ne_none_iff_exists'.mp hr
    have : k ∈ K := by
      rw [hperm.mem_iff, Crp.occupied_iff hu.inv.crp]
      exact ⟨r, by have := hu.seat; rw [← this] at hk; exact hk⟩
    exact List.ne_nil_of_mem this
  refine ⟨K ++ [pyMax K + 1], ?_, by simp, fun A => ?_⟩
  · rw [← hK, tablesSame, if_neg (by simpa using hne)]
  · rw [List.map_append, List.sum_append, sum_choices, ← hset, List.sum_toFinset _ hnd,
      pyMax_sup hne, add_comm]
    simp

theorem relevanceCore_ok (hL : C.Lawful) (hCh : C.Chain) (hI : Inv X v) (hord : ord.Lists)
    (hs : Schema v z) (hc : ClosedInputs v) (hq : RelevanceQuery v T Q) {W : Tab → Tab → View C}
    (hW : ∀ k t, At X v (jointSeat v T Q k t) (W k t)) {u : View C}
    (hu : At X v (outSeat v T Q) u) (ω : Tab → Draws Ω) :
    ∃ a u', u.relevanceCore close X ord sim ω z T (v.rowValues X T)
        (Q.map fun r => (r, v.rowValues X r)) = .ok (.fin a) u' ∧ At X v (outSeat v T Q) u' ∧
      a = (∑ k ∈ choices (otherTabs v T Q), Real.exp (W k k).score) /
        ∑ k ∈ choices (otherTabs v T Q), ∑ t ∈ choices (insert k (otherTabs v T Q)),
          Real.exp (W k t).score := by
  obtain ⟨l, hl1, hl2, hl3⟩ := tables_choices hu hI hq
  have hbase := collect_ok (fun t => u.scoreAt t t) (fun t => u.atScore t) l
    fun t _ => hu.inv.scoreAt_ok t
  obtain ⟨cond, u1, c1, c2, c3⟩ := overTables_ok (l := l) (R := At X v (outSeat v T Q))
    (fun k _ u2 hu2 => termMarginal_ok (close := close) (sim := sim) hL hCh hI hord hs hc hq hW hu
      hu2 (ω k) k) hu
  obtain ⟨same, u2, d1, d2, d3⟩ := overTables_ok (l := l) (R := At X v (outSeat v T Q))
    (fun k _ u2 hu2 => termJoint_ok hL hI hq hW hu hu2 k) c2
  obtain ⟨yc, hc1, hc2⟩ := lse_terms hl2 c3
  obtain ⟨ys, hs1, hs2⟩ := lse_terms hl2 d3
  refine ⟨Real.exp (ys - yc), u2, ?_, d2, ?_⟩
  · unfold relevanceCore
    simp only [hl1, hbase, c1, hc1, d1, hs1]
    simp [Fl.sub, Fl.neg, Fl.add, Fl.exp, sub_eq_add_neg]
  · rw [Real.exp_sub, hs2, hc2, hl3, hl3]
    have hB : Real.exp u.score ≠ 0 := (Real.exp_pos _).ne'
    have e1 : ∀ x : ℝ, Real.exp (x - u.score) = Real.exp x / Real.exp u.score := fun x =>
      Real.exp_sub _ _
    simp only [e1, ← Finset.sum_div]
    rw [div_div_div_cancel_right₀ hB]

theorem restore (hI : Inv X v) (hq : RelevanceQuery v T Q) {u : View C}
    (hu : At X v (outSeat v T Q) u) :
    ∃ u1, incRows X ((T :: Q).map fun r => (r, v.rowValues X r, (v.seat r).getD 0)) u = .ok u1 ∧
      At X v v.seat u1 := by
  obtain ⟨u1, f1, f2⟩ := hu.incAll (Q := T :: Q) (List.nodup_cons.mpr ⟨hq.apart, hq.once⟩)
    (fun r hr => outSeat_mem (List.mem_cons.mp hr)) (fun r hr => by
      rcases List.mem_cons.mp hr with rfl | hr
      · exact hI.suits hq.seated
      · exact hI.suits (hq.rows r hr)) fun r => (v.seat r).getD 0
  refine ⟨u1, f1, f2.congr fun r => ?_⟩
  by_cases h : r ∈ T :: Q
  · unfold put; rw [if_pos h]
    have hr : v.seat r ≠ none := by
      rcases List.mem_cons.mp h with rfl | hr
      · exact hq.seated
      · exact hq.rows r hr
    obtain ⟨k, hk⟩ := Option.ne_none_iff_exists'.mp hr
    simp [hk]
  · unfold put; rw [if_neg h]
    have := mt List.mem_cons.mpr h
    obtain ⟨h1, h2⟩ := not_or.mp this
    exact outSeat_of_not h1 h2

theorem relevanceProbability_ok (hL : C.Lawful) (hCh : C.Chain) (hI : Inv X v) (hord : ord.Lists)
    (hs : Schema v z) (hc : ClosedInputs v) (hq : RelevanceQuery v T Q) {W : Tab → Tab → View C}
    (hW : ∀ k t, At X v (jointSeat v T Q k t) (W k t)) (ω : Tab → Draws Ω) :
    ∃ a v', v.relevanceProbability close X ord sim ω z T Q = .ok (.fin a) v' ∧
      At X v v.seat v' ∧
      a = (∑ k ∈ choices (otherTabs v T Q), Real.exp (W k k).score) /
        ∑ k ∈ choices (otherTabs v T Q), ∑ t ∈ choices (insert k (otherTabs v T Q)),
          Real.exp (W k t).score := by
  obtain ⟨u, g1, g2⟩ := at_out hL hI hq
  obtain ⟨a, u', e1, e2, e3⟩ := relevanceCore_ok (close := close) (sim := sim) hL hCh hI hord hs hc
    hq hW g2 ω
  obtain ⟨kT, hkT⟩ := Option.ne_none_iff_exists'.mp hq.seated
  obtain ⟨u1, f1, f2⟩ := restore hI hq e2
  have hkT' : (v.seat T).getD 0 = kT := by rw [hkT]; rfl
  refine ⟨a, u1, ?_, f2, e3⟩
  unfold relevanceProbability
  have hlen : ¬ Q.length < 1 := by
    have := List.length_pos_iff.mpr hq.nonempty
    omega
  have hcon : ¬ Q.contains T = true := by
    rw [List.contains_iff_mem]; exact hq.apart
  rw [if_neg hlen, if_neg hcon, hkT, seatsOf_ok v hq.rows]
  simp only [g1, e1, zipWith_seats]
  simp only [List.map_cons, hkT'] at f1
  rw [f1]

end

end Cgpm.Props
