import Verif.Model.RelevanceDebug
import Verif.Lemmas.RelevanceRun
import Verif.Lemmas.RowRelabel

/-! The cases that the check of the relevance computation adds up. -/
namespace Cgpm
namespace View
variable {C : Cat}

/-- A cluster of the same rows has the same score. -/
theorem dim_clScore_eq (hL : C.Lawful) {X : C.Tbl} {s s' : Row → Option Tab} {c : Col} {a b : Dim C}
    (ha : DimOk X s c a) (hb : DimOk X s' c b) (hf : Dim.Frame a b) {t : Tab}
    (ho : ∀ r, s r = some t ↔ s' r = some t) : clScore t a = clScore t b := by
  unfold clScore
  congr 1
  have hocc : Occ s t ↔ Occ s' t := exists_congr fun r => ho r
  cases hA : a.clusters.get? t with
  | none =>
    have : b.clusters.get? t = none := by
      rw [Dict.get?_eq_none_iff, hb.keys, ← hocc, ← ha.keys, ← Dict.get?_eq_none_iff]; exact hA
    rw [this]; rfl
  | some ca =>
    have : t ∈ b.clusters.keys := by
      rw [hb.keys, ← hocc, ← ha.keys]; exact Dict.mem_keys_of_get? hA
    obtain ⟨cb, hB⟩ := Dict.exists_of_mem_keys this
    rw [hB]
    have g1 := ha.core.cl t ca hA
    have g2 := hb.core.cl t cb hB
    rw [hf.fam] at g2
    have g3 := g2.congr (g' := fun r => valIn t (filing X s a r)) fun r => by
      rw [filing_frame hf]
      unfold filing
      have := ho r
      cases h1 : s r with
      | none =>
        cases h2 : s' r with
        | none => rfl
        | some k' =>
          have hk : k' ≠ t := fun e => by rw [h1, h2, e] at this; simp at this
          simp only [Option.map_some, Option.map_none]
          cases stored X a r <;> simp [valIn, hk]
      | some k1 =>
        cases h2 : s' r with
        | none =>
          have hk : k1 ≠ t := fun e => by rw [h1, h2, e] at this; simp at this
          simp only [Option.map_some, Option.map_none]
          cases stored X a r <;> simp [valIn, hk]
        | some k' =>
          rw [h1, h2] at this
          simp only [Option.some.injEq] at this
          simp only [Option.map_some]
          cases stored X a r with
          | none => simp [valIn]
          | some o => simp only [valIn, this]
    have hs := (g1.stat_unique (hL _) g3).2
    have hh : ca.hyp = cb.hyp := by rw [ha.shared.cl t ca hA, hb.shared.cl t cb hB, hf.hyp]
    simp only [Option.map_some, Comp.score, hs, hh, hf.fam]

theorem At.cluster_eq (hL : C.Lawful) {X : C.Tbl} {v0 a b : View C} {s s' : Row → Option Tab}
    (ha : At X v0 s a) (hb : At X v0 s' b) {t : Tab} (ho : ∀ r, s r = some t ↔ s' r = some t) :
    (a.dims.vals.map (clScore t)).sum = (b.dims.vals.map (clScore t)).sum := by
  have hS : Same a b := ha.same.symm.trans hb.same
  refine sum_rel (R := fun x y => clScore t x = clScore t y)
    ha.inv.wf hb.inv.wf (fun c => ?_) fun _ _ e => e
  have h := hS c
  cases hA : a.dims.get? c with
  | none =>
    rw [hA] at h
    cases hB : b.dims.get? c with
    | none => exact .none
    | some d => rw [hB] at h; cases h
  | some da =>
    rw [hA] at h
    cases hB : b.dims.get? c with
    | none => rw [hB] at h; cases h
    | some db =>
      rw [hB] at h
      cases h with
      | some hf =>
        have g1 := ha.inv.dim _ (Dict.mem_of_get? hA)
        have g2 := hb.inv.dim _ (Dict.mem_of_get? hB)
        rw [ha.seat] at g1
        rw [hb.seat] at g2
        exact .some (dim_clScore_eq hL g1 g2 hf ho)

/-- The score of a view restricted to two clusters. -/
noncomputable def pairScore (v : View C) (t k : Tab) : ℝ :=
  v.crp.logpdfScore + ((v.dims.vals.map (clScore k)).sum + (v.dims.vals.map (clScore t)).sum)

theorem Inv.scoreAt_ne {X : C.Tbl} {v : View C} (h : Inv X v) {t k : Tab} (hn : t ≠ k) :
    v.scoreAt t k = .ok (v.pairScore t k) := by
  unfold scoreAt
  rw [h.clusterScore_ok, h.clusterScore_ok]
  simp only [hn, ne_eq, not_false_eq_true, if_true, Except.map, pairScore]

end View

namespace Props
open Cgpm Cgpm.View Cgpm.Net
variable {C : Cat} {Ω : Type}

section
variable {X : C.Tbl} {v : View C} {T : Row} {Q : List Row}

theorem off_target (hq : RelevanceQuery v T Q) (k t : Tab) :
    Off t (querySeat v T Q k) (jointSeat v T Q k t) := by
  intro t' ht r
  unfold jointSeat upd
  by_cases h : r = T
  · subst h
    rw [if_pos rfl, querySeat_of_not hq.apart, outSeat_mem (Or.inl rfl)]
    simp [Ne.symm ht]
  · rw [if_neg h]

theorem pair_off (hL : C.Lawful) (hI : Inv X v) (hq : RelevanceQuery v T Q) {k t : Tab}
    (hn : t ≠ k) {u j : View C} (hu : At X v (outSeat v T Q) u)
    (hj : At X v (jointSeat v T Q k t) j) :
    j.pairScore t k - u.pairScore t k = j.score - u.score := by
  obtain ⟨m, -, hm⟩ := at_query hI hq hu k
  have e1 := hu.off hL hm (off_query k)
  have e2 := hm.off hL hj (off_target hq k t)
  have e3 := hu.cluster_eq hL hm (off_query k t hn)
  have e4 := hm.cluster_eq hL hj (off_target hq k t k (Ne.symm hn))
  unfold pairScore
  unfold atScore at e1 e2
  linarith

theorem termJoint_ne_ok (hL : C.Lawful) (hI : Inv X v) (hq : RelevanceQuery v T Q)
    {W : Tab → Tab → View C} (hW : ∀ k t, At X v (jointSeat v T Q k t) (W k t)) {u0 u : View C}
    (h0 : At X v (outSeat v T Q) u0) (hu : At X v (outSeat v T Q) u) {t k : Tab} (hn : t ≠ k) :
    ∃ a u', termJoint X T (v.rowValues X T)
        (Q.map fun r => (r, v.rowValues X r)) t k u = .ok a u' ∧ At X v (outSeat v T Q) u' ∧
      ∃ m, a = .fin m ∧ Real.exp (m - u0.pairScore t k) = Real.exp ((W k t).score - u0.score) := by
  obtain ⟨u1, g1, g2⟩ := at_joint hI hq hu k t
  obtain ⟨u2, g3, g4⟩ := unjoint hL hq g2
  refine ⟨_, u2, ?_, g4, u1.pairScore t k, rfl, ?_⟩
  · unfold termJoint
    simp only [List.map_map, Function.comp_def, g1, g2.inv.scoreAt_ne hn, List.map_id', g3]
  · rw [pair_off hL hI hq hn h0 g2, (g2.equiv hL (hW k t)).score]

theorem overPairs_ok {f : Tab → Tab → View C → Res (View C) Fl} {R : View C → Prop}
    {P : Tab → Tab → Fl → Prop} {l : List Tab} {o : Tab → List Tab}
    (h : ∀ t ∈ l, ∀ k ∈ o t, ∀ u, R u → ∃ a u', f t k u = .ok a u' ∧ R u' ∧ P t k a) {u : View C}
    (hu : R u) : ∃ as u', overPairs f (l.map fun t => (t, o t)) u = .ok as u' ∧ R u' ∧
      List.Forall₂ (fun t a => List.Forall₂ (P t) (o t) a) l as := by
  induction l generalizing u with
  | nil => exact ⟨[], u, rfl, hu, .nil⟩
  | cons t l ih =>
    obtain ⟨a, u1, h1, h2, h3⟩ := overTables_ok (h t (by simp)) hu
    obtain ⟨as, u2, h4, h5, h6⟩ := ih (fun k hk => h k (by simp [hk])) h2
    exact ⟨a :: as, u2, by simp only [List.map_cons, overPairs, h1, h4], h5, .cons h3 h6⟩

theorem inner_terms {l : List Tab} {o : Tab → List Tab} (ho : ∀ t ∈ l, o t ≠ []) {as : List (List Fl)}
    {base A : Tab → Tab → ℝ}
    (h : List.Forall₂ (fun t a => List.Forall₂
      (fun k a => ∃ m, a = .fin m ∧ Real.exp (m - base t k) = A t k) (o t) a) l as) :
    ∃ ys, collect (fun p : List Fl × List ℝ =>
        logsumexp (List.zipWith Fl.sub p.1 (p.2.map Fl.fin)))
        (as.zip (l.map fun t => (o t).map (base t))) = .ok ys ∧
      List.Forall₂ (fun t y => ∃ m, y = .fin m ∧ Real.exp (m - 0) = ((o t).map (A t)).sum) l ys := by
  induction h with
  | nil => exact ⟨[], rfl, .nil⟩
  | @cons t a l as h1 _ ih =>
    obtain ⟨y, e1, e2⟩ := lse_terms (ho t (by simp)) h1
    obtain ⟨ys, e3, e4⟩ := ih fun t ht => ho t (by simp [ht])
    refine ⟨.fin y :: ys, ?_, .cons ⟨y, rfl, by rw [sub_zero, e2]⟩ e4⟩
    simp only [List.map_cons, List.zip_cons_cons, collect, e1, e3, Except.map]

theorem zip_zero {P : Tab → Fl → Prop} {l : List Tab} {as : List Fl} (h : List.Forall₂ P l as)
    (hf : ∀ t a, P t a → ∃ m, a = .fin m) :
    List.zipWith Fl.sub as ((l.map fun _ => (0 : ℝ)).map Fl.fin) = as := by
  induction h with
  | nil => rfl
  | @cons t a l as h1 _ ih =>
    obtain ⟨m, rfl⟩ := hf _ _ h1
    simp only [List.map_cons, List.zipWith_cons_cons, ih]
    simp [Fl.sub, Fl.neg, Fl.add]

theorem lse_two (x y : ℝ) : ∃ m : ℝ, logsumexp [.fin x, .fin y] = .ok (.fin m) ∧
    Real.exp m = Real.exp x + Real.exp y := by
  obtain ⟨m, h1, h2⟩ := lse_terms (l := [0, 1]) (by simp) (as := [.fin x, .fin y])
    (base := fun _ => 0) (A := fun t => if t = 0 then Real.exp x else Real.exp y)
    (.cons ⟨x, rfl, by simp⟩ (.cons ⟨y, rfl, by simp⟩ .nil))
  refine ⟨m, ?_, by simpa using h2⟩
  simpa [Fl.sub, Fl.neg, Fl.add] using h1

/-- Two new clusters may be exchanged. -/
theorem joint_swap (hL : C.Lawful) (hI : Inv X v) (hq : RelevanceQuery v T Q) {s s' : Tab}
    (h1 : s ∉ otherTabs v T Q) (h2 : s' ∉ otherTabs v T Q)
    {a b : View C} (ha : At X v (jointSeat v T Q s s') a) (hb : At X v (jointSeat v T Q s' s) b) :
    a.score = b.score := by
  obtain ⟨u, -, hu⟩ := at_out hL hI hq
  have hout : ∀ r k, outSeat v T Q r = some k → k ∈ otherTabs v T Q := by
    intro r k hr
    rw [← occupied_out hu hI, mem_occupied hu.inv, Crp.occupied_iff hu.inv.crp]
    exact ⟨r, by have := hu.seat; rw [← this] at hr; exact hr⟩
  refine score_relabel hL ha.inv hb.inv (ha.alpha.trans hb.alpha.symm) (ha.same.symm.trans hb.same)
    (ρ := Equiv.swap s s') ⟨fun r => ?_, fun k k' _ _ e => (Equiv.swap s s').injective e⟩
  rw [ha.seat, hb.seat]
  unfold jointSeat upd
  by_cases hT : r = T
  · rw [if_pos hT, if_pos hT]; simp
  · rw [if_neg hT, if_neg hT]
    by_cases hQ : r ∈ Q
    · rw [querySeat_mem hQ, querySeat_mem hQ]; simp
    · rw [querySeat_of_not hQ, querySeat_of_not hQ]
      cases hr : outSeat v T Q r with
      | none => rfl
      | some k =>
        have hk := hout r k hr
        have hk1 : k ≠ s := fun e => h1 (e ▸ hk)
        have hk2 : k ≠ s' := fun e => h2 (e ▸ hk)
        rw [Option.map_some, Equiv.swap_apply_of_ne_of_ne hk1 hk2]

theorem list_sum_filter_ne {l : List Tab} (hl : l.Nodup) {t : Tab} (ht : t ∈ l) (f : Tab → ℝ) :
    ((l.filter fun x => x ≠ t).map f).sum = (l.map f).sum - f t := by
  induction l with
  | nil => simp at ht
  | cons x l ih =>
    obtain ⟨hx, hl⟩ := List.nodup_cons.mp hl
    by_cases e : x = t
    · subst e
      have : l.filter (fun y => decide (y ≠ x)) = l := List.filter_eq_self.mpr fun y hy => by
        simp only [decide_eq_true_eq]; exact fun e => hx (e ▸ hy)
      simp only [List.filter_cons, ne_eq, not_true_eq_false, decide_false, Bool.false_eq_true,
        if_false, List.map_cons, List.sum_cons]
      simp only [ne_eq] at this
      rw [this]; ring
    · have hm : t ∈ l := (List.mem_cons.mp ht).resolve_left (Ne.symm e)
      have := ih hl hm
      simp only [ne_eq] at this
      simp only [List.filter_cons, ne_eq, e, not_false_eq_true, decide_true, if_true,
        List.map_cons, List.sum_cons, this]
      ring

/-- The cases together and apart are all cases. -/
theorem cases_sum (S : Finset Tab) (F : Tab → Tab → ℝ) {l : List Tab} (hl : l.Nodup)
    (hm : ∀ t, t ∈ l ↔ t ∈ choices S)
    (hF : F (S.sup id + 1 + 1) (S.sup id + 1) = F (S.sup id + 1) (S.sup id + 1 + 1)) :
    (l.map fun k => F k k).sum +
      (l.map fun t => ((l.filter (fun x => x ≠ t) ++
        if t < S.sup id + 1 then [] else [S.sup id + 1 + 1]).map fun k => F k t).sum).sum =
      ∑ k ∈ choices S, ∑ t ∈ choices (insert k S), F k t := by
  have hlS : ∀ f : Tab → ℝ, (l.map f).sum = ∑ k ∈ choices S, f k := fun f => by
    rw [← List.sum_toFinset f hl]
    refine Finset.sum_congr ?_ fun _ _ => rfl
    ext t; rw [List.mem_toFinset, hm]
  have hle : ∀ t ∈ S, t < S.sup id + 1 := fun t ht =>
    Nat.lt_succ_of_le (Finset.le_sup (f := id) ht)
  have e1 : (l.map fun t => ((l.filter (fun x => x ≠ t) ++
        if t < S.sup id + 1 then [] else [S.sup id + 1 + 1]).map fun k => F k t).sum).sum =
      (l.map fun t => (∑ k ∈ choices S, F k t) - F t t +
        if t < S.sup id + 1 then 0 else F (S.sup id + 1 + 1) t).sum := by
    congr 1
    refine List.map_congr_left fun t ht => ?_
    rw [List.map_append, List.sum_append, list_sum_filter_ne hl ht fun k => F k t, hlS]
    split <;> simp
  rw [e1, hlS, hlS, Finset.sum_add_distrib, Finset.sum_sub_distrib]
  have e2 : ∑ t ∈ choices S, (if t < S.sup id + 1 then 0 else F (S.sup id + 1 + 1) t) =
      F (S.sup id + 1 + 1) (S.sup id + 1) := by
    rw [sum_choices, if_neg (lt_irrefl _), Finset.sum_eq_zero, add_zero]
    intro t ht; rw [if_pos (hle t ht)]
  have e3 : ∑ k ∈ choices S, ∑ t ∈ choices (insert k S), F k t =
      (∑ k ∈ choices S, ∑ t ∈ choices S, F k t) + F (S.sup id + 1) (S.sup id + 1 + 1) := by
    rw [sum_choices, sum_choices S fun k => ∑ t ∈ choices S, F k t]
    have hb : ∑ k ∈ S, ∑ t ∈ choices (insert k S), F k t = ∑ k ∈ S, ∑ t ∈ choices S, F k t :=
      Finset.sum_congr rfl fun k hk => by rw [Finset.insert_eq_of_mem hk]
    have hc : (insert (S.sup id + 1) S).sup id = S.sup id + 1 := by
      rw [Finset.sup_insert]
      simp
    rw [hb, sum_choices (insert _ S), hc]
    change _ + (∑ t ∈ choices S, _) + _ = _
    ring
  rw [e2, e3, Finset.sum_comm (s := choices S) (t := choices S) (f := fun t k => F k t), hF]
  ring

/-- The tables apart from a table. -/
def apartTables (s : Tab) (l : List Tab) (t : Tab) : List Tab :=
  l.filter (fun x => x ≠ t) ++ if t < s then [] else [s + 1]

theorem tables_debug {u : View C} (hu : At X v (outSeat v T Q) u) (hI : Inv X v)
    (hq : RelevanceQuery v T Q) :
    ∃ l, tablesSame (pySorted u.crp.counts.keys) = .ok l ∧
      tablesDifferent (pySorted u.crp.counts.keys) =
        .ok (l.map fun t => (t, apartTables ((otherTabs v T Q).sup id + 1) l t)) ∧ l.Nodup ∧
      (∀ t, t ∈ l ↔ t ∈ choices (otherTabs v T Q)) ∧ (otherTabs v T Q).Nonempty := by
  obtain ⟨K, hK⟩ : ∃ K, K = pySorted u.crp.counts.keys := ⟨_, rfl⟩
  have hperm : K.Perm u.crp.counts.keys := hK ▸ pySorted_perm _
  have hnd : K.Nodup := hperm.nodup_iff.mpr hu.inv.crp.wfCounts
  have hset : K.toFinset = otherTabs v T Q := by
    rw [← occupied_out hu hI]
    ext k
    rw [List.mem_toFinset, hperm.mem_iff, mem_occupied hu.inv]
  have hne : K ≠ [] := by
    obtain ⟨r, hr⟩ := outSeat_others hq
    obtain ⟨k, hk⟩ := Option.ne_none_iff_exists'.mp hr
    have : k ∈ K := by
      rw [hperm.mem_iff, Crp.occupied_iff hu.inv.crp]
      exact ⟨r, by have := hu.seat; rw [← this] at hk; exact hk⟩
    exact List.ne_nil_of_mem this
  have hsup : pyMax K = (otherTabs v T Q).sup id := by rw [← hset]; exact pyMax_sup hne
  refine ⟨K ++ [(otherTabs v T Q).sup id + 1], ?_, ?_, ?_, fun t => ?_, ?_⟩
  · rw [← hK, tablesSame, if_neg (by simpa using hne), hsup]
  · rw [← hK, tablesDifferent, if_neg (by simpa using hne)]
    simp only [hsup, apartTables]
  · refine List.nodup_append.mpr ⟨hnd, by simp, ?_⟩
    intro a ha b hb e
    rw [List.mem_singleton] at hb
    refine fresh_sup (otherTabs v T Q) ?_
    rw [← hb, ← e, ← hset]
    exact List.mem_toFinset.mpr ha
  · unfold choices
    rw [Finset.mem_insert, ← hset, List.mem_toFinset, List.mem_append, List.mem_singleton, or_comm]
  · rw [← hset]
    obtain ⟨k, hk⟩ := List.exists_mem_of_ne_nil _ hne
    exact ⟨k, List.mem_toFinset.mpr hk⟩

theorem nat_two_le (n : Nat) : ¬ n + 1 + 1 ≤ n := by omega

theorem debugCheck_ok (hL : C.Lawful) (hI : Inv X v) (hq : RelevanceQuery v T Q)
    {W : Tab → Tab → View C} (hW : ∀ k t, At X v (jointSeat v T Q k t) (W k t)) {u0 u : View C}
    (h0 : At X v (outSeat v T Q) u0) (hu : At X v (outSeat v T Q) u) {l K : List Tab}
    (hl : tablesDifferent K =
        .ok (l.map fun t => (t, apartTables ((otherTabs v T Q).sup id + 1) l t))) (hnd : l.Nodup)
    (hm : ∀ t, t ∈ l ↔ t ∈ choices (otherTabs v T Q)) (hne : (otherTabs v T Q).Nonempty) {ys yc : ℝ}
    (hs : Real.exp ys = (l.map fun k => Real.exp ((W k k).score - u0.score)).sum)
    (hc : Real.exp yc = ∑ k ∈ choices (otherTabs v T Q),
      ∑ t ∈ choices (insert k (otherTabs v T Q)), Real.exp ((W k t).score - u0.score)) :
    ∃ u', debugCheck X T (v.rowValues X T) (Q.map fun r => (r, v.rowValues X r)) K (.fin ys)
        (.fin yc) u = .ok () u' ∧ At X v (outSeat v T Q) u' := by
  obtain ⟨S, hS⟩ : ∃ S, S = otherTabs v T Q := ⟨_, rfl⟩
  rw [← hS] at hl hm hne hc
  have hap : ∀ t ∈ l, ∀ k ∈ apartTables (S.sup id + 1) l t, t ≠ k := by
    intro t ht k hk e
    subst e
    unfold apartTables at hk
    rcases List.mem_append.mp hk with h | h
    · simp at h
    · split at h
      · simp at h
      · rw [List.mem_singleton] at h
        have := (hm t).mp ht
        unfold choices at this
        rcases Finset.mem_insert.mp this with h' | h'
        · exact absurd (h'.symm.trans h) (Nat.succ_ne_self _).symm
        · have : t ≤ S.sup id := Finset.le_sup (f := id) h'
          rw [h] at this
          exact nat_two_le _ this
  have hon : ∀ t ∈ l, apartTables (S.sup id + 1) l t ≠ [] := by
    intro t ht
    by_cases h : t < S.sup id + 1
    · refine List.ne_nil_of_mem (a := S.sup id + 1) (List.mem_append.mpr (Or.inl ?_))
      refine List.mem_filter.mpr ⟨(hm _).mpr (Finset.mem_insert_self _ _), ?_⟩
      simp only [decide_eq_true_eq]; exact Nat.ne_of_gt h
    · unfold apartTables; rw [if_neg h]; simp
  have hb : collect (fun p : Tab × List Tab => collect (fun k => u.scoreAt p.1 k) p.2)
      (l.map fun t => (t, apartTables (S.sup id + 1) l t)) =
      .ok (l.map fun t => (apartTables (S.sup id + 1) l t).map (u.pairScore t)) := by
    rw [collect_ok _ (fun p : Tab × List Tab => p.2.map (u.pairScore p.1)), List.map_map]
    · rfl
    · intro p hp
      obtain ⟨t, ht, rfl⟩ := List.mem_map.mp hp
      exact collect_ok _ _ _ fun k hk => hu.inv.scoreAt_ne (hap t ht k hk)
  obtain ⟨terms, u1, c1, c2, c3⟩ := overPairs_ok (R := At X v (outSeat v T Q))
    (o := apartTables (S.sup id + 1) l)
    (f := fun t k => termJoint X T (v.rowValues X T) (Q.map fun r => (r, v.rowValues X r)) t k)
    (P := fun t k a => ∃ m, a = .fin m ∧
      Real.exp (m - u.pairScore t k) = Real.exp ((W k t).score - u.score))
    (fun t ht k hk u2 hu2 => termJoint_ne_ok hL hI hq hW hu hu2 (hap t ht k hk)) hu
  obtain ⟨inner, i1, i2⟩ := inner_terms hon c3
  have hlne : l ≠ [] := List.ne_nil_of_mem ((hm _).mpr (Finset.mem_insert_self _ _))
  obtain ⟨yd, d1, d2⟩ := lse_terms hlne (base := fun _ => 0) i2
  rw [zip_zero i2 fun _ _ h => ⟨h.choose, h.choose_spec.1⟩] at d1
  obtain ⟨m, t1, t2⟩ := lse_two ys yd
  have hscore : u.score = u0.score := (hu.equiv hL h0).score
  have hmc : m = yc := by
    refine Real.exp_injective ?_
    have hfr : S.sup id + 1 + 1 ∉ S := fun h => by
      have : S.sup id + 1 + 1 ≤ S.sup id := Finset.le_sup (f := id) h
      exact nat_two_le _ this
    rw [t2, hs, hc, d2, hscore, ← cases_sum S (fun k t => Real.exp ((W k t).score - u0.score)) hnd hm]
    · rfl
    · have := joint_swap hL hI hq (hS ▸ hfr) (hS ▸ fresh_sup S) (hW (S.sup id + 1 + 1) (S.sup id + 1))
        (hW (S.sup id + 1) (S.sup id + 1 + 1))
      simp only [this]
  refine ⟨u1, ?_, c2⟩
  unfold debugCheck
  simp only [hl, hb, c1, i1, d1, t1, hmc, if_true]

variable {close : C.V → C.V → Bool} {ord : PyOrder} {sim : Simulator C Ω} {z : Nat}

theorem relevanceCoreDebug_ok (hL : C.Lawful) (hCh : C.Chain) (hI : Inv X v) (hord : ord.Lists)
    (hs : Schema v z) (hc : ClosedInputs v) (hq : RelevanceQuery v T Q) {W : Tab → Tab → View C}
    (hW : ∀ k t, At X v (jointSeat v T Q k t) (W k t)) {u : View C}
    (hu : At X v (outSeat v T Q) u) (ω : Tab → Draws Ω) :
    ∃ a u' u'', u.relevanceCore close X ord sim ω z T (v.rowValues X T)
        (Q.map fun r => (r, v.rowValues X r)) = .ok (.fin a) u' ∧
      u.relevanceCoreDebug close X ord sim ω z T (v.rowValues X T)
        (Q.map fun r => (r, v.rowValues X r)) = .ok (.fin a) u'' ∧
      At X v (outSeat v T Q) u' ∧ At X v (outSeat v T Q) u'' := by
  obtain ⟨l, hl1, hl4, hnd, hmem, hne⟩ := tables_debug hu hI hq
  have hl2 : l ≠ [] := List.ne_nil_of_mem ((hmem _).mpr (Finset.mem_insert_self _ _))
  have hl3 : ∀ A : Tab → ℝ, (l.map A).sum = ∑ k ∈ choices (otherTabs v T Q), A k := fun f => by
    rw [← List.sum_toFinset f hnd]
    refine Finset.sum_congr ?_ fun _ _ => rfl
    ext t; rw [List.mem_toFinset, hmem]
  have hbase := collect_ok (fun t => u.scoreAt t t) (fun t => u.atScore t) l
    fun t _ => hu.inv.scoreAt_ok t
  obtain ⟨cond, u1, c1, c2, c3⟩ := overTables_ok (l := l) (R := At X v (outSeat v T Q))
    (fun k _ u2 hu2 => termMarginal_ok (close := close) (sim := sim) hL hCh hI hord hs hc hq hW hu
      hu2 (ω k) k) hu
  obtain ⟨same, u2, d1, d2, d3⟩ := overTables_ok (l := l) (R := At X v (outSeat v T Q))
    (fun k _ u2 hu2 => termJoint_ok hL hI hq hW hu hu2 k) c2
  obtain ⟨yc, hc1, hc2⟩ := lse_terms hl2 c3
  obtain ⟨ys, hs1, hs2⟩ := lse_terms hl2 d3
  obtain ⟨u3, k1, k2⟩ := debugCheck_ok hL hI hq hW hu d2 hl4 hnd hmem hne hs2 (hc2.trans (hl3 _))
  refine ⟨Real.exp (ys - yc), u2, u3, ?_, ?_, d2, k2⟩
  · unfold relevanceCore
    simp only [hl1, hbase, c1, hc1, d1, hs1]
    simp [Fl.sub, Fl.neg, Fl.add, Fl.exp, sub_eq_add_neg]
  · unfold relevanceCoreDebug
    simp only [hl1, hbase, c1, hc1, d1, hs1, k1]
    simp [Fl.sub, Fl.neg, Fl.add, Fl.exp, sub_eq_add_neg]

theorem relevanceDebug_ok (hL : C.Lawful) (hCh : C.Chain) (hI : Inv X v) (hord : ord.Lists)
    (hs : Schema v z) (hc : ClosedInputs v) (hq : RelevanceQuery v T Q) {W : Tab → Tab → View C}
    (hW : ∀ k t, At X v (jointSeat v T Q k t) (W k t)) (ω : Tab → Draws Ω) :
    ∃ a v' v'', v.relevanceProbability close X ord sim ω z T Q = .ok (.fin a) v' ∧
      v.relevanceProbabilityDebug close X ord sim ω z T Q = .ok (.fin a) v'' ∧
      At X v v.seat v'' := by
  obtain ⟨u, g1, g2⟩ := at_out hL hI hq
  obtain ⟨a, u', u'', e1, e1', e2, e2'⟩ := relevanceCoreDebug_ok (close := close) (sim := sim) hL hCh
    hI hord hs hc hq hW g2 ω
  obtain ⟨kT, hkT⟩ := Option.ne_none_iff_exists'.mp hq.seated
  obtain ⟨u1, f1, f2⟩ := restore hI hq e2
  obtain ⟨u1', f1', f2'⟩ := restore hI hq e2'
  have hkT' : (v.seat T).getD 0 = kT := by rw [hkT]; rfl
  have hlen : ¬ Q.length < 1 := by
    have := List.length_pos_iff.mpr hq.nonempty
    omega
  have hcon : ¬ Q.contains T = true := by
    rw [List.contains_iff_mem]; exact hq.apart
  have hsc : u1'.score = v.score := (f2'.equiv hL (At.start hI)).score
  refine ⟨a, u1, u1', ?_, ?_, f2'⟩
  · unfold relevanceProbability
    rw [if_neg hlen, if_neg hcon, hkT, seatsOf_ok v hq.rows]
    simp only [g1, e1, zipWith_seats]
    simp only [List.map_cons, hkT'] at f1
    rw [f1]
  · unfold relevanceProbabilityDebug
    rw [if_neg hlen, if_neg hcon, hkT, seatsOf_ok v hq.rows]
    simp only [g1, e1', zipWith_seats]
    simp only [List.map_cons, hkT'] at f1'
    simp only [f1', hsc, if_true]

end

end Props
end Cgpm
