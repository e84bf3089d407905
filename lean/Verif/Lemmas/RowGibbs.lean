import Verif.Model.RowGibbs
import Verif.Lemmas.RowChain
import Verif.Lemmas.RowRelabel
import Verif.Lemmas.HyperGibbs
import Verif.Lemmas.ViewDemo

/-! The row transitions of a view, seen on the partition of its rows. -/
namespace Cgpm
open Cgpm.Props Cgpm.Spec Cgpm.Spec.Hyper
open MeasureTheory hiding average

/-- `log_pflip` with finite log weights, for any list of values. -/
theorem logPflip_array {α : Type} (ws : List ℝ) (hne : ws ≠ []) (array : List α)
    (hlen : array.length = ws.length) :
    ∃ p : List ℝ, ∃ hp : p.length = array.length, (∀ x ∈ p, 0 ≤ x) ∧ p.sum = 1 ∧
      (∀ i (h : i < p.length) (h' : i < ws.length),
        p[i] = Real.exp ws[i] / (ws.map Real.exp).sum) ∧
      ∀ u, 0 ≤ u → u < 1 → ∃ h : choiceIdx p u < array.length,
        logPflip (ws.map Fl.fin) array u = .ok array[choiceIdx p u] := by
  have htot : ∀ l : List ℝ, total (l.map Fl.fin) = ENNReal.ofReal ((l.map Real.exp).sum) := by
    intro l
    induction l with
    | nil => simp [total]
    | cons x t ih =>
      have hnn : 0 ≤ (t.map Real.exp).sum :=
        List.sum_nonneg (by simpa using fun a _ => (Real.exp_pos a).le)
      rw [List.map_cons, List.map_cons, List.sum_cons, ENNReal.ofReal_add (Real.exp_pos x).le hnn,
        ← ih]
      rfl
  have hpos : 0 < (ws.map Real.exp).sum := by
    cases ws with
    | nil => exact absurd rfl hne
    | cons x t =>
      have hnn : 0 ≤ (t.map Real.exp).sum :=
        List.sum_nonneg (by simpa using fun a _ => (Real.exp_pos a).le)
      rw [List.map_cons, List.sum_cons]
      have := Real.exp_pos x
      linarith
  obtain ⟨p, hl, h0, hs, hm, hd⟩ := logPflip_eq (ws.map Fl.fin) array
    (by simp) (by rw [htot]; simpa using hpos) (by simp [hlen])
  refine ⟨p, by rw [hl, hlen]; simp, h0, hs, ?_, hd⟩
  intro i h h'
  have := hm i h (by simpa using h')
  rw [htot, List.getElem_map, mass, ← ENNReal.ofReal_mul (h0 _ (List.getElem_mem _))] at this
  rw [eq_div_iff hpos.ne']
  exact (ENNReal.ofReal_eq_ofReal_iff
    (mul_nonneg (h0 _ (List.getElem_mem _)) hpos.le) (Real.exp_pos _).le).mp this

namespace View
variable {C : Cat}

/-- The candidates of a row: the clusters of the other rows, and one that they do not use. -/
theorem mem_candidates {s : Crp} (h : Crp.Inv s) {r : Row} {own : Tab}
    (hr : s.data.get? r = some own) {K : List Tab} (hK : s.gibbsTables (some r) 1 = .ok K) :
    ∃ k0, ¬ Occ (upd (fun r => s.data.get? r) r none) k0 ∧
      ∀ k, k ∈ K ↔ k = k0 ∨ Occ (upd (fun r => s.data.get? r) r none) k := by
  set t := upd (fun r => s.data.get? r) r none with ht
  have hsplit : ∀ k, (∃ r', s.data.get? r' = some k) ↔ k = own ∨ Occ t k := by
    intro k'
    have := occ_upd_some (s := t) (r := r) (by simp [ht]) own k'
    rw [ht, upd_upd, ← hr, upd_eq (fun r => s.data.get? r) r] at this
    exact this
  have hcount : s.counts.get? own = some 1 ↔ ¬ Occ t own := by
    have h1 := ncard_get? h.wfData own
    have hfin : {r | s.data.get? r = some own}.Finite := by
      refine Set.Finite.subset (List.finite_toSet s.data.keys) fun x hx => ?_
      exact Dict.mem_keys_of_get? hx
    have hn0 : nSeated s.data own ≠ 0 := by
      rw [← h1]; exact Set.ncard_ne_zero_of_mem (a := r) hr hfin
    rw [h.hCounts, countOf, if_neg hn0, Option.some.injEq]
    have : ((nSeated s.data own : ℤ) = 1) ↔ nSeated s.data own = 1 := by norm_cast
    rw [this, ← h1, Set.ncard_eq_one]
    constructor
    · rintro ⟨a, ha⟩ ⟨r', hr'⟩
      have hne : r' ≠ r := by rintro rfl; simp [ht] at hr'
      rw [ht, upd_ne _ _ hne] at hr'
      have m1 : r ∈ ({a} : Set Row) := ha ▸ hr
      have m2 : r' ∈ ({a} : Set Row) := ha ▸ hr'
      exact hne (m2.trans m1.symm)
    · intro ho
      refine ⟨r, Set.eq_singleton_iff_unique_mem.mpr ⟨hr, fun x hx => ?_⟩⟩
      by_contra hne
      exact ho ⟨x, by rw [ht, upd_ne _ _ hne]; exact hx⟩
  have hsing : s.singleton (some r) = decide (s.counts.get? own = some 1) := by
    simp [Crp.singleton, hr]
  simp only [Crp.gibbsTables, if_neg (by omega : ¬ (1 : ℕ) = 0), hsing] at hK
  have hown : own ∈ s.counts.keys := (Crp.occupied_iff h own).mpr ⟨r, hr⟩
  by_cases ho : Occ t own
  · have hc : ¬ s.counts.get? own = some 1 := fun e => hcount.mp e ho
    have hne : ¬ (List.isEmpty s.counts = true ∧ 0 < 1) := by
      rintro ⟨he, -⟩
      rw [List.isEmpty_iff] at he
      rw [he] at hown; simp [Dict.keys] at hown
    simp only [hc, decide_false, Bool.false_eq_true, if_false, if_neg hne] at hK
    have e := Except.ok.inj hK
    refine ⟨pyMax s.counts.keys + 1 + 0, ?_, fun k => ?_⟩
    · intro hocc
      have : pyMax s.counts.keys + 1 + 0 ∈ s.counts.keys :=
        (Crp.occupied_iff h _).mpr ((hsplit _).mpr (Or.inr hocc))
      exact fresh_not_mem _ _ this
    · rw [← e, List.mem_append, (pySorted_perm _).mem_iff, Crp.occupied_iff h, hsplit]
      simp only [List.range_one, List.map_cons, List.map_nil, List.mem_singleton]
      constructor
      · rintro ((rfl | h') | h')
        · exact Or.inr ho
        · exact Or.inr h'
        · exact Or.inl h'
      · rintro (h' | h')
        · exact Or.inr h'
        · exact Or.inl (Or.inr h')
  · have hc := hcount.mpr ho
    simp only [hc, decide_true, if_true] at hK
    have e := Except.ok.inj ((if_neg (by simp)).symm.trans hK)
    refine ⟨own, ho, fun k => ?_⟩
    rw [← e, List.mem_append, (pySorted_perm _).mem_iff, Crp.occupied_iff h, hsplit]
    simp

/-- Everything about a drawn row transition: it is one of the transitions to a candidate, chosen
with probability proportional to the exponential of the resulting score. -/
theorem gibbsRow_spec (hL : C.Lawful) (hCh : C.Chain) {X : C.Tbl} {v : View C} (h : Inv X v)
    {r : Row} (hr : v.seat r ≠ none) :
    ∃ (K : List Tab) (p : List ℝ) (hp : p.length = K.length), K ≠ [] ∧ K.Nodup ∧
      (∃ k0, ¬ Occ (upd v.seat r none) k0 ∧ ∀ k, k ∈ K ↔ k = k0 ∨ Occ (upd v.seat r none) k) ∧
      (∀ x ∈ p, 0 ≤ x) ∧ p.sum = 1 ∧
      (∀ i (h : i < p.length), p[i] = Real.exp (v.gibbsTransitionRow X r (K[i]'(hp ▸ h))).state.score
        / (K.map fun k => Real.exp (v.gibbsTransitionRow X r k).state.score).sum) ∧
      ∀ u, 0 ≤ u → u < 1 → ∃ hlt : choiceIdx p u < K.length,
        v.gibbsRow X r u = v.gibbsTransitionRow X r K[choiceIdx p u] := by
  obtain ⟨ws, v1, c, h1, h2, h3, h4⟩ := gibbsScore_value hL hCh h hr
  obtain ⟨own, hown⟩ := Option.ne_none_iff_exists'.mp hr
  obtain ⟨k0, hk0, hmem⟩ := mem_candidates h.crp hown h3
  have hne : ws.map Prod.fst ≠ [] := by
    intro he
    have := (hmem k0).mpr (Or.inl rfl)
    rw [he] at this; simp at this
  set S : Tab → ℝ := fun k => (v.gibbsTransitionRow X r k).state.score with hS
  have hval : ∀ p ∈ ws, p.2 = ((S p.1 + c : ℝ) : LogP) := by
    intro p hp
    obtain ⟨vk, g1, g2⟩ := h4 p hp
    obtain ⟨vk', f1, f2, f3, f4, f5⟩ := migrateRow_ok hL h hr p.1
    rw [g1] at f1; cases f1
    obtain ⟨w, e1, e2, e3, e4, e5⟩ := gibbsTransitionRow_ok hL h hr p.1
    have : vk.score = S p.1 := by
      simp only [hS, e1, Out.state_ok]
      exact (equiv_of_inv hL f2 e2 (f4.trans e4.symm) (f3.trans e3.symm) (f5.symm.trans e5)).score
    rw [g2, this]
  have hfl : (ws.map fun p => Fl.ofLogP p.2)
      = ((ws.map Prod.fst).map fun k => S k + c).map Fl.fin := by
    rw [List.map_map, List.map_map]
    refine List.map_congr_left fun p hp => ?_
    rw [hval p hp]; rfl
  obtain ⟨p, hp, q1, q2, q3, q4⟩ := logPflip_array ((ws.map Prod.fst).map fun k => S k + c)
    (by simpa using hne) (ws.map Prod.fst) (by simp)
  refine ⟨ws.map Prod.fst, p, hp, hne, h2, ⟨k0, hk0, hmem⟩, q1, q2, ?_, ?_⟩
  · intro i hi
    rw [q3 i hi (by rw [hp] at hi; simpa using hi), List.getElem_map, Real.exp_add]
    have : (((ws.map Prod.fst).map fun k => S k + c).map Real.exp).sum
        = ((ws.map Prod.fst).map fun k => Real.exp (S k)).sum * Real.exp c := by
      rw [← List.sum_map_mul_right, List.map_map]
      congr 1
      refine List.map_congr_left fun k _ => ?_
      simp [Real.exp_add]
    rw [this, mul_div_mul_right _ _ (Real.exp_ne_zero c)]
  · intro u hu hu1
    obtain ⟨hlt, e⟩ := q4 u hu hu1
    refine ⟨hlt, ?_⟩
    rw [← hfl] at e
    simp only [gibbsRow, gibbsTransitionRow, h1, e]

/-- Internal form of `SameModel`. -/
structure Kin (X : C.Tbl) (v u : View C) : Prop where
  inv : Inv X u
  rows : ∀ r, u.seat r ≠ none ↔ v.seat r ≠ none
  alpha : u.crp.alpha = v.crp.alpha
  same : Same v u

theorem kin_of (hL : C.Lawful) {X : C.Tbl} {v u : View C} (h : SameModel X v u) : Kin X v u := by
  refine ⟨h.reachable.inv hL, h.rows, h.alpha, fun c => ?_⟩
  obtain ⟨h1, h2⟩ := h.columns c
  cases hv : v.dims.get? c with
  | none => rw [h1.mpr hv]; exact Option.Rel.none
  | some d =>
    cases hu : u.dims.get? c with
    | none => rw [h1.mp hu] at hv; cases hv
    | some d' =>
      obtain ⟨e1, e2, e3, e4⟩ := h2 d d' hv hu
      exact Option.Rel.some ⟨e1, e2, e3, e4⟩

theorem sameModel_of {X : C.Tbl} {v u : View C} (hR : Reachable X u) (h : Kin X v u) :
    SameModel X v u := by
  refine ⟨hR, h.rows, h.alpha, fun c => ?_⟩
  have := h.same c
  revert this
  cases v.dims.get? c <;> cases u.dims.get? c <;> intro g <;> cases g
  · simp
  · rename_i g
    refine ⟨by simp, fun d d' e e' => ?_⟩
    cases e; cases e'
    exact ⟨g.index, g.inputs, g.kind, g.hyp⟩

theorem SameModel.refl' {X : C.Tbl} {v : View C} (h : Reachable X v) : SameModel X v v :=
  ⟨h, fun _ => Iff.rfl, rfl, fun c => ⟨Iff.rfl, fun d d' e e' => by
    rw [e] at e'; cases e'; exact ⟨rfl, rfl, rfl, rfl⟩⟩⟩

/-- A row transition stays among the views of the same model. -/
theorem sameModel_step (hL : C.Lawful) {X : C.Tbl} {v0 v : View C} (h : SameModel X v0 v) {r : Row}
    (hr : v.seat r ≠ none) (z : Tab) :
    ∃ v', v.gibbsTransitionRow X r z = .ok v' ∧ SameModel X v0 v' ∧
      v'.seat = upd v.seat r (some z) := by
  have hk := kin_of hL h
  obtain ⟨v', g1, g2, g3, g4, g5⟩ := gibbsTransitionRow_ok hL hk.inv hr z
  refine ⟨v', g1, sameModel_of ?_ ⟨g2, fun r' => ?_, g4.trans hk.alpha, hk.same.trans g5⟩, g3⟩
  · have := h.reachable.step (op := .gibbs r z) trivial
    simpa only [View.apply, g1, Out.state_ok] using this
  · rw [← h.rows r', g3]
    by_cases e : r' = r
    · subst e; simp [hr]
    · rw [upd_ne _ _ e]

/-- Views of the same model with the same partition have the same score. -/
theorem score_eq_of_partition (hL : C.Lawful) {X : C.Tbl} {v0 a b : View C} {rows : Finset Row}
    (hrows : IsRows rows v0) (ha : SameModel X v0 a) (hb : SameModel X v0 b)
    (hp : partitionOf rows a = partitionOf rows b) : a.score = b.score := by
  have ka := kin_of hL ha
  have kb := kin_of hL hb
  have hra : ∀ r, a.seat r ≠ none ↔ r ∈ rows := fun r => (ka.rows r).trans (hrows r).symm
  obtain ⟨ρ, hρ⟩ := exists_relabel (s := a.seat) (t := b.seat)
    (fun r => (kb.rows r).trans (ka.rows r).symm) (by
      intro r r' hr hr'
      have := Setoid.ext_iff.mp hp ⟨r, (hra r).mp hr⟩ ⟨r', (hra r').mp hr'⟩
      exact this)
  exact score_relabel hL ka.inv kb.inv (ka.alpha.trans kb.alpha.symm) (ka.same.symm.trans kb.same) hρ

/-- Reassigning rows one by one. -/
theorem sameModel_assign (hL : C.Lawful) {X : C.Tbl} {v0 : View C} (t : Row → Tab) (l : List Row)
    {v : View C} (h : SameModel X v0 v) (hl : ∀ r ∈ l, v.seat r ≠ none) :
    ∃ v', SameModel X v0 v' ∧ ∀ r, v'.seat r = if r ∈ l then some (t r) else v.seat r := by
  induction l generalizing v with
  | nil => exact ⟨v, h, fun r => by simp⟩
  | cons x l ih =>
    obtain ⟨v1, -, h2, h3⟩ := sameModel_step hL h (hl x (by simp)) (t x)
    obtain ⟨v', g1, g2⟩ := ih h2 (fun r hr => by
      rw [h3]
      by_cases e : r = x
      · subst e; simp
      · rw [upd_ne _ _ e]; exact hl r (by simp [hr]))
    refine ⟨v', g1, fun r => ?_⟩
    rw [g2, h3]
    by_cases hm : r ∈ l
    · simp [hm]
    · by_cases e : r = x
      · subst e; simp [hm]
      · simp [hm, e, upd_ne _ _ e]

/-- Every partition of the rows is that of a view of the same model. -/
theorem exists_view (hL : C.Lawful) {X : C.Tbl} {v0 : View C} (h : Reachable X v0)
    {rows : Finset Row} (hrows : IsRows rows v0) (q : RowPartition rows) :
    ∃ u, SameModel X v0 u ∧ partitionOf rows u = q := by
  classical
  obtain ⟨u, h1, h2⟩ := sameModel_assign hL
    (fun r => if hr : r ∈ rows then ((Quotient.mk q ⟨r, hr⟩).out).1 else 0) rows.toList
    (SameModel.refl' h) (fun r hr => (hrows r).mp (by simpa using hr))
  refine ⟨u, h1, Setoid.ext fun a b => ?_⟩
  change u.seat a.1 = u.seat b.1 ↔ q.r a b
  rw [h2, h2, if_pos (by simp), if_pos (by simp), dif_pos a.2, dif_pos b.2]
  simp only [Option.some.injEq, Subtype.coe_eta]
  rw [Subtype.ext_iff.symm, Quotient.out_inj]
  exact Quotient.eq (r := q)

/-- The partitions that agree with that of `s` off `r` are those obtained by moving `r` to a
candidate, each once. -/
theorem candidates_bij {rows : Finset Row} {s : Row → Option Tab}
    (hrows : ∀ r, r ∈ rows ↔ s r ≠ none) {r : Row} (hr : r ∈ rows) {K : List Tab}
    (hK : ∃ k0, ¬ Occ (upd s r none) k0 ∧ ∀ k, k ∈ K ↔ k = k0 ∨ Occ (upd s r none) k)
    (P : (Row → Option Tab) → RowPartition rows)
    (hP : ∀ t, P t = Setoid.ker fun x => t x.1) :
    (∀ k, AgreeOff r (P s) (P (upd s r (some k)))) ∧
    (∀ k ∈ K, ∀ k' ∈ K, P (upd s r (some k)) = P (upd s r (some k')) → k = k') ∧
    (∀ q, AgreeOff r (P s) q → ∃ k ∈ K, P (upd s r (some k)) = q) := by
  obtain ⟨k0, hk0, hmem⟩ := hK
  have hrel : ∀ t (a b : {x // x ∈ rows}), (P t).r a b ↔ t a.1 = t b.1 := by
    intro t a b; rw [hP]; exact Iff.rfl
  have hoccAt : ∀ k, Occ (upd s r none) k → ∃ a : {x // x ∈ rows}, a.1 ≠ r ∧ s a.1 = some k := by
    rintro k ⟨a, ha⟩
    have hne : a ≠ r := by rintro rfl; simp at ha
    rw [upd_ne _ _ hne] at ha
    exact ⟨⟨a, (hrows a).mpr (by simp [ha])⟩, hne, ha⟩
  refine ⟨fun k a b ha hb => ?_, ?_, ?_⟩
  · rw [hrel, hrel, upd_ne _ _ ha, upd_ne _ _ hb]
  · have key : ∀ k ∈ K, ∀ k' ∈ K, P (upd s r (some k)) = P (upd s r (some k')) →
        Occ (upd s r none) k → k = k' := by
      intro k _ k' _ e ho
      obtain ⟨a, hne, ha⟩ := hoccAt k ho
      have h1 : (P (upd s r (some k))).r ⟨r, hr⟩ a := by
        rw [hrel, upd_self, upd_ne _ _ hne, ha]
      rw [e, hrel, upd_self, upd_ne _ _ hne, ha] at h1
      exact (Option.some.inj h1).symm
    intro k hk k' hk' e
    rcases (hmem k).mp hk with h1 | h1
    · rcases (hmem k').mp hk' with h2 | h2
      · rw [h1, h2]
      · exact (key k' hk' k hk e.symm h2).symm
    · exact key k hk k' hk' e h1
  · intro q hq
    by_cases hj : ∃ a : {x // x ∈ rows}, a.1 ≠ r ∧ q.r ⟨r, hr⟩ a
    · obtain ⟨a, hne, ha⟩ := hj
      obtain ⟨k, hk⟩ := Option.ne_none_iff_exists'.mp ((hrows a.1).mp a.2)
      refine ⟨k, (hmem k).mpr (Or.inr ⟨a.1, by rw [upd_ne _ _ hne]; exact hk⟩), ?_⟩
      have hrow : ∀ b : {x // x ∈ rows}, b.1 ≠ r → (some k = s b.1 ↔ q.r ⟨r, hr⟩ b) := by
        intro b hb
        rw [← hk, ← hrel s a b, hq a b hne hb]
        exact ⟨fun h => q.trans ha h, fun h => q.trans (q.symm ha) h⟩
      refine Setoid.ext fun b c => ?_
      rw [hrel]
      by_cases hb : b.1 = r <;> by_cases hc : c.1 = r
      · have : b = c := Subtype.ext (hb.trans hc.symm)
        subst this
        exact ⟨fun _ => q.refl b, fun _ => rfl⟩
      · have : b = ⟨r, hr⟩ := Subtype.ext hb
        subst this
        rw [upd_self, upd_ne _ _ hc, hrow c hc]
      · have : c = ⟨r, hr⟩ := Subtype.ext hc
        subst this
        rw [upd_self, upd_ne _ _ hb, eq_comm, hrow b hb]
        exact ⟨fun h => q.symm h, fun h => q.symm h⟩
      · rw [upd_ne _ _ hb, upd_ne _ _ hc, ← hrel s b c, hq b c hb hc]
    · refine ⟨k0, (hmem k0).mpr (Or.inl rfl), ?_⟩
      have hrow : ∀ b : {x // x ∈ rows}, b.1 ≠ r → ¬ (some k0 = s b.1) := by
        intro b hb e
        exact hk0 ⟨b.1, by rw [upd_ne _ _ hb]; exact e.symm⟩
      have hq' : ∀ b : {x // x ∈ rows}, b.1 ≠ r → ¬ q.r ⟨r, hr⟩ b := fun b hb h => hj ⟨b, hb, h⟩
      refine Setoid.ext fun b c => ?_
      rw [hrel]
      by_cases hb : b.1 = r <;> by_cases hc : c.1 = r
      · have : b = c := Subtype.ext (hb.trans hc.symm)
        subst this
        exact ⟨fun _ => q.refl b, fun _ => rfl⟩
      · have : b = ⟨r, hr⟩ := Subtype.ext hb
        subst this
        rw [upd_self, upd_ne _ _ hc]
        exact ⟨fun h => absurd h (hrow c hc), fun h => absurd h (hq' c hc)⟩
      · have : c = ⟨r, hr⟩ := Subtype.ext hc
        subst this
        rw [upd_self, upd_ne _ _ hb]
        exact ⟨fun h => absurd h.symm (hrow b hb), fun h => absurd (q.symm h) (hq' b hb)⟩
      · rw [upd_ne _ _ hb, upd_ne _ _ hc, ← hrel s b c, hq b c hb hc]

section
variable {X : C.Tbl} {v0 : View C} {rows : Finset Row} {W : RowPartition rows → ℝ}

/-- A class of views of one model, closed under row transitions. -/
structure RowClosed (X : C.Tbl) (v0 : View C) (M : View C → Prop) : Prop where
  kin : ∀ u, M u → Kin X v0 u
  step : ∀ v, M v → ∀ r, v.seat r ≠ none → ∀ z, ∃ v', v.gibbsTransitionRow X r z = .ok v' ∧ M v' ∧
    v'.seat = upd v.seat r (some z)

theorem rowClosed_kin (hL : C.Lawful) (X : C.Tbl) (v0 : View C) : RowClosed X v0 (Kin X v0) := by
  refine ⟨fun u h => h, fun v h r hr z => ?_⟩
  obtain ⟨v', g1, g2, g3, g4, g5⟩ := gibbsTransitionRow_ok hL h.inv hr z
  refine ⟨v', g1, ⟨g2, fun r' => ?_, g4.trans h.alpha, h.same.trans g5⟩, g3⟩
  rw [← h.rows r', g3]
  by_cases e : r' = r
  · subst e; simp [hr]
  · rw [upd_ne _ _ e]

theorem rowClosed_sameModel (hL : C.Lawful) (X : C.Tbl) (v0 : View C) :
    RowClosed X v0 (SameModel X v0) :=
  ⟨fun _ h => kin_of hL h, fun _ h _ hr z => sameModel_step hL h hr z⟩

/-- The distribution of the partition after one row transition. -/
theorem gibbsRow_averageM (hL : C.Lawful) (hCh : C.Chain) {M : View C → Prop}
    (hM : RowClosed X v0 M) (hrows : IsRows rows v0)
    (hW : ∀ u, M u → W (partitionOf rows u) = Real.exp u.score)
    {v : View C} (h : M v) {r : Row} (hr : r ∈ rows) (G : View C → ℝ)
    (g : RowPartition rows → ℝ) (hG : ∀ u, M u → G u = g (partitionOf rows u)) :
    ∫ u in (0 : ℝ)..1, G (v.gibbsRow X r u).state = redraw W r g (partitionOf rows v) := by
  classical
  have hrv : ∀ x, x ∈ rows ↔ v.seat x ≠ none := fun x => (hrows x).trans ((hM.kin _ h).rows x).symm
  have hr' := (hrv r).mp hr
  obtain ⟨K, p, hp, hne, hnd, hK, h0, h1, hpi, hd⟩ := gibbsRow_spec hL hCh (hM.kin _ h).inv hr'
  set T : Tab → View C := fun k => (v.gibbsTransitionRow X r k).state with hT
  have hTk : ∀ k, M (T k) ∧ (T k).seat = upd v.seat r (some k) := by
    intro k
    obtain ⟨v', e1, e2, e3⟩ := hM.step _ h _ hr' k
    simp only [hT, e1, Out.state_ok]
    exact ⟨e2, e3⟩
  set P : (Row → Option Tab) → RowPartition rows := fun t => Setoid.ker fun x => t x.1 with hP
  have hPT : ∀ k, partitionOf rows (T k) = P (upd v.seat r (some k)) := by
    intro k; simp only [partitionOf, (hTk k).2, hP]
  obtain ⟨b1, b2, b3⟩ := candidates_bij hrv hr hK P (fun _ => rfl)
  let G' : ℕ → ℝ := fun i => if h' : i < K.length then G (T K[i]) else 0
  have hint : ∫ u in (0 : ℝ)..1, G (v.gibbsRow X r u).state
      = ∫ u in (0 : ℝ)..1, G' (choiceIdx p u) := by
    rw [intervalIntegral.integral_of_le zero_le_one, intervalIntegral.integral_of_le zero_le_one,
      integral_Ioc_eq_integral_Ioo, integral_Ioc_eq_integral_Ioo]
    refine setIntegral_congr_fun measurableSet_Ioo fun u hu => ?_
    obtain ⟨hlt, e⟩ := hd u hu.1.le hu.2
    simp only [e, G', dif_pos hlt, hT]
  have hsumK : ∀ F : RowPartition rows → ℝ, (K.map fun k => F (P (upd v.seat r (some k)))).sum
      = ∑ q with AgreeOff r (partitionOf rows v) q, F q := by
    intro F
    rw [← List.sum_toFinset _ hnd]
    refine Finset.sum_nbij (fun k => P (upd v.seat r (some k))) ?_ ?_ ?_ ?_
    · intro k _
      simp only [Finset.mem_filter, Finset.mem_univ, true_and]
      exact b1 k
    · intro k hk k' hk' e
      exact b2 k (by simpa using hk) k' (by simpa using hk') e
    · intro q hq
      simp only [Finset.coe_filter, Finset.mem_univ, true_and, Set.mem_setOf_eq] at hq
      obtain ⟨k, hk, e⟩ := b3 q hq
      exact ⟨k, by simpa using hk, e⟩
    · intro k _; rfl
  have hscore : ∀ k, Real.exp (T k).score = W (P (upd v.seat r (some k))) := by
    intro k; rw [← hPT, hW _ (hTk k).1]
  have hden : (K.map fun k => Real.exp (v.gibbsTransitionRow X r k).state.score).sum
      = ∑ q with AgreeOff r (partitionOf rows v) q, W q := by
    rw [← hsumK]
    congr 1
    exact List.map_congr_left fun k _ => hscore k
  rw [hint, integral_choice h0 h1 G', redraw, ← hsumK, ← hden, ← List.sum_ofFn]
  congr 1
  refine List.ext_getElem (by simp [hp]) fun i hi hi' => ?_
  have hiK : i < K.length := by simpa using hi'
  have hip : i < p.length := by simpa using hi
  simp only [List.getElem_ofFn, List.getElem_map, Fin.getElem_fin]
  rw [hpi i hip]
  simp only [G', dif_pos hiK]
  rw [hG _ (hTk _).1, hPT]
  congr 2
  exact hscore _

/-- A pass over rows does not raise and stays among the views of the same model. -/
theorem transitionRows_okM (hL : C.Lawful) (hCh : C.Chain) {M : View C → Prop}
    (hM : RowClosed X v0 M) (hrows : IsRows rows v0)
    {v : View C} (h : M v) (draws : List (Row × ℝ))
    (hd : ∀ d ∈ draws, d.1 ∈ rows ∧ 0 ≤ d.2 ∧ d.2 < 1) :
    ∃ v', v.transitionRows X draws = .ok v' ∧ M v' ∧
      ∀ r, (∀ d ∈ draws, d.1 ≠ r) → v'.seat r = v.seat r := by
  induction draws generalizing v with
  | nil => exact ⟨v, rfl, h, fun _ _ => rfl⟩
  | cons d draws ih =>
    obtain ⟨r, u⟩ := d
    obtain ⟨hr, hu0, hu1⟩ := hd (r, u) (by simp)
    have hr' : v.seat r ≠ none := ((hrows r).trans ((hM.kin _ h).rows r).symm).mp hr
    obtain ⟨K, p, hp, -, -, -, -, -, -, hdr⟩ := gibbsRow_spec hL hCh (hM.kin _ h).inv hr'
    obtain ⟨hlt, e⟩ := hdr u hu0 hu1
    obtain ⟨v1, e1, e2, e3⟩ := hM.step _ h _ hr' K[choiceIdx p u]
    obtain ⟨v', g1, g2, g3⟩ := ih e2 (fun d hd' => hd d (by simp [hd']))
    refine ⟨v', ?_, g2, fun x hx => ?_⟩
    · simp only [transitionRows, e, e1, Out.bind_ok, g1]
    · rw [g3 x (fun d hd' => hx d (by simp [hd'])), e3, upd_ne _ _ (hx (r, u) (by simp)).symm]

/-- The distribution of the partition after a pass over rows. -/
theorem transitionRows_averageM (hL : C.Lawful) (hCh : C.Chain) {M : View C → Prop}
    (hM : RowClosed X v0 M) (hrows : IsRows rows v0)
    (hW : ∀ u, M u → W (partitionOf rows u) = Real.exp u.score)
    (order : List Row) (ho : ∀ r ∈ order, r ∈ rows) (f : RowPartition rows → ℝ)
    {v : View C} (h : M v) :
    average order.length (fun us =>
        f (partitionOf rows (v.transitionRows X (order.zip us)).state))
      = redraws W order f (partitionOf rows v) := by
  induction order generalizing v with
  | nil => simp [average, transitionRows, redraws]
  | cons r order ih =>
    have ho' : ∀ x ∈ order, x ∈ rows := fun x hx => ho x (by simp [hx])
    have hr := ho r (by simp)
    have hr' : v.seat r ≠ none := ((hrows r).trans ((hM.kin _ h).rows r).symm).mp hr
    rw [redraws, ← gibbsRow_averageM hL hCh hM hrows hW h hr
      (fun w => average order.length (fun us =>
        f (partitionOf rows (w.transitionRows X (order.zip us)).state)))
      (redraws W order f) (fun u hu => ih ho' hu)]
    change ∫ u in (0 : ℝ)..1, _ = _
    rw [intervalIntegral.integral_of_le zero_le_one, intervalIntegral.integral_of_le zero_le_one,
      integral_Ioc_eq_integral_Ioo, integral_Ioc_eq_integral_Ioo]
    refine setIntegral_congr_fun measurableSet_Ioo fun u hu => ?_
    obtain ⟨K, p, hp, -, -, -, -, -, -, hdr⟩ := gibbsRow_spec hL hCh (hM.kin _ h).inv hr'
    obtain ⟨hlt, e⟩ := hdr u hu.1.le hu.2
    obtain ⟨v1, e1, e2, e3⟩ := hM.step _ h _ hr' K[choiceIdx p u]
    simp only [List.zip_cons_cons, transitionRows, e, e1, Out.bind_ok, Out.state_ok]

/-- The distribution of the partition after one row transition. -/
theorem gibbsRow_average (hL : C.Lawful) (hCh : C.Chain) (hrows : IsRows rows v0)
    (hW : ∀ u, SameModel X v0 u → W (partitionOf rows u) = Real.exp u.score)
    {v : View C} (h : SameModel X v0 v) {r : Row} (hr : r ∈ rows) (G : View C → ℝ)
    (g : RowPartition rows → ℝ) (hG : ∀ u, SameModel X v0 u → G u = g (partitionOf rows u)) :
    ∫ u in (0 : ℝ)..1, G (v.gibbsRow X r u).state = redraw W r g (partitionOf rows v) :=
  gibbsRow_averageM hL hCh (rowClosed_sameModel hL X v0) hrows hW h hr G g hG

/-- A pass over rows does not raise and stays among the views of the same model. -/
theorem transitionRows_ok (hL : C.Lawful) (hCh : C.Chain) (hrows : IsRows rows v0)
    {v : View C} (h : SameModel X v0 v) (draws : List (Row × ℝ))
    (hd : ∀ d ∈ draws, d.1 ∈ rows ∧ 0 ≤ d.2 ∧ d.2 < 1) :
    ∃ v', v.transitionRows X draws = .ok v' ∧ SameModel X v0 v' ∧
      ∀ r, (∀ d ∈ draws, d.1 ≠ r) → v'.seat r = v.seat r :=
  transitionRows_okM hL hCh (rowClosed_sameModel hL X v0) hrows h draws hd

/-- The distribution of the partition after a pass over rows. -/
theorem transitionRows_average (hL : C.Lawful) (hCh : C.Chain) (hrows : IsRows rows v0)
    (hW : ∀ u, SameModel X v0 u → W (partitionOf rows u) = Real.exp u.score)
    (order : List Row) (ho : ∀ r ∈ order, r ∈ rows) (f : RowPartition rows → ℝ)
    {v : View C} (h : SameModel X v0 v) :
    average order.length (fun us =>
        f (partitionOf rows (v.transitionRows X (order.zip us)).state))
      = redraws W order f (partitionOf rows v) :=
  transitionRows_averageM hL hCh (rowClosed_sameModel hL X v0) hrows hW order ho f h

end
end View
end Cgpm
