import Verif.Lemmas.RelevanceRun
import Verif.Lemmas.ViewDemo

/-!
The part of C30 about views: src/mixtures/relevance.py and View.relevance_probability
(src/mixtures/view.py:374-379).
-/
namespace Cgpm.Props
open Cgpm Cgpm.View Cgpm.Net

variable {C : Cat} {Ω : Type}

section
variable {close : C.V → C.V → Bool} {ord : PyOrder} {sim : Simulator C Ω} {ω : Tab → Draws Ω}
  {z : Nat} {v : View C} {X : C.Tbl} {T : Row} {Q : List Row}

theorem Reseated.at (hL : C.Lawful) (hq : RelevanceQuery v T Q) {k t : Tab}
    {w : View C} (h : Reseated X v T Q k t w) : At X v (jointSeat v T Q k t) w := by
  refine ⟨h.reachable.inv hL, funext fun r => ?_, h.alpha, fun c => ?_⟩
  · unfold jointSeat
    by_cases h1 : r = T
    · subst h1
      unfold upd; rw [if_pos rfl, h.seatTarget]
    · rw [upd_ne _ _ h1]
      by_cases h2 : r ∈ Q
      · rw [querySeat_mem h2, h.seatQuery r h2]
      · rw [querySeat_of_not h2, outSeat_of_not h1 h2, h.others r h1 h2]
  · have := h.columns c
    cases hA : v.dims.get? c <;> cases hB : w.dims.get? c <;> rw [hA, hB] at this <;> cases this
    · exact .none
    · rename_i e
      exact .some ⟨e.index, e.inputs, e.kind, e.hyp⟩

/-- **C30** (views): the alternatives that the next theorem compares exist. -/
theorem C30_view_alternatives (hC : C.Lawful) (hR : Reachable X v) (hq : RelevanceQuery v T Q)
    (k t : Tab) : ∃ w, Reseated X v T Q k t w := by
  have hI := hR.inv hC
  obtain ⟨u, g1, g2⟩ := at_out hC hI hq
  have hRu := reach_uncRows hR g1
  obtain ⟨u1, g3, g4⟩ := g2.inc (outSeat_mem (Or.inl rfl)) (hI.suits hq.seated) t
  have hR1 := At.reach g2 hRu (hI.suits hq.seated) g3
  have hnone : ∀ r ∈ Q, upd (outSeat v T Q) T (some t) r = none := fun r hr => by
    have hne : r ≠ T := fun e => hq.apart (e ▸ hr)
    rw [upd_ne _ _ hne]; exact outSeat_mem (Or.inr hr)
  have hsu : ∀ r ∈ Q, Suits X v r := fun r hr => hI.suits (hq.rows r hr)
  obtain ⟨w, g5, g6⟩ := g4.incAll hq.once hnone hsu fun _ => k
  have hRw := reach_incRows g4 hR1 hq.once hnone hsu (fun _ => k) g5
  refine ⟨w, hRw, ?_, fun r hr => ?_, fun r h1 h2 => ?_, g6.alpha, fun c => ?_⟩
  · rw [g6.seat]; unfold put; rw [if_neg hq.apart]; unfold upd; rw [if_pos rfl]
  · rw [g6.seat]; unfold put; rw [if_pos hr]
  · rw [g6.seat]; unfold put; rw [if_neg h2, upd_ne _ _ h1, outSeat_of_not h1 h2]
  · have := g6.same c
    cases hA : v.dims.get? c <;> cases hB : w.dims.get? c <;> rw [hA, hB] at this <;> cases this
    · exact .none
    · rename_i e
      exact .some ⟨e.index, e.inputs, e.kind, e.hyp⟩

/-- **C30** (views), collapsed components: the relevance computation returns, it leaves the view
as it was, and its answer is the posterior probability that the target is in the cluster of the
query rows given that these share one.  That is, among the alternative seatings of the target and
of the query rows (in clusters of the other rows or in new ones), weighted by the exponential of
their `logpdf_score`, the share of those in which the target is with the query rows. In particular
it lies strictly between 0 and 1. -/
theorem C30_view (hC : C.Lawful) (hCh : C.Chain) (hR : Reachable X v) (hord : ord.Lists)
    (hs : Schema v z) (hc : ClosedInputs v) (hq : RelevanceQuery v T Q) :
    ∃ a v', v.relevanceProbability close X ord sim ω z T Q = .ok (.fin a) v' ∧ v.Equiv v' ∧
      (∀ w : Tab → Tab → View C, (∀ k t, Reseated X v T Q k t (w k t)) →
        a = (∑ k ∈ choices (otherTabs v T Q), Real.exp (w k k).score) /
          ∑ k ∈ choices (otherTabs v T Q), ∑ t ∈ choices (insert k (otherTabs v T Q)),
            Real.exp (w k t).score) ∧
      0 < a ∧ a < 1 := by
  have hI := hR.inv hC
  choose W hW using C30_view_alternatives hC hR hq
  obtain ⟨a, v', h1, h2, h3⟩ := relevanceProbability_ok (close := close) (sim := sim) hC hCh hI hord
    hs hc hq (fun k t => (hW k t).at hC hq) ω
  refine ⟨a, v', h1, (At.start hI).equiv hC h2, fun w hw => ?_, ?_, ?_⟩
  · have e : ∀ k t, (W k t).score = (w k t).score := fun k t =>
      (((hW k t).at hC hq).equiv hC ((hw k t).at hC hq)).score
    simp only [h3, e]
  · rw [h3]
    refine div_pos (Finset.sum_pos (fun k _ => Real.exp_pos _) ⟨_, Finset.mem_insert_self _ _⟩) ?_
    exact Finset.sum_pos (fun k _ => Finset.sum_pos (fun t _ => Real.exp_pos _)
      ⟨_, Finset.mem_insert_self _ _⟩) ⟨_, Finset.mem_insert_self _ _⟩
  · have hpos : 0 < ∑ k ∈ choices (otherTabs v T Q), ∑ t ∈ choices (insert k (otherTabs v T Q)),
        Real.exp (W k t).score :=
      Finset.sum_pos (fun k _ => Finset.sum_pos (fun t _ => Real.exp_pos _)
        ⟨_, Finset.mem_insert_self _ _⟩) ⟨_, Finset.mem_insert_self _ _⟩
    rw [h3, div_lt_one hpos]
    refine Finset.sum_lt_sum_of_nonempty ⟨_, Finset.mem_insert_self _ _⟩ fun k _ => ?_
    rw [sum_choices]
    have hk : Real.exp (W k k).score ≤
        ∑ t ∈ insert k (otherTabs v T Q), Real.exp (W k t).score :=
      Finset.single_le_sum (f := fun t => Real.exp (W k t).score) (fun t _ => (Real.exp_pos _).le)
        (Finset.mem_insert_self _ _)
    exact lt_add_of_pos_of_le (Real.exp_pos _) hk

/-! ### Every catalogue -/

theorem overTables_keeps {f : Tab → View C → Res (View C) Fl} {R : View C → Prop}
    (h : ∀ k u a u', R u → f k u = .ok a u' → R u') {l : List Tab} {u u' : View C} {as : List Fl}
    (hu : R u) (hf : overTables f l u = .ok as u') : R u' := by
  induction l generalizing u as with
  | nil => cases hf; exact hu
  | cons k t ih =>
    simp only [overTables] at hf
    split at hf
    · cases hf
    · rename_i a u1 h1
      split at hf
      · cases hf
      · rename_i b u2 h2
        cases hf
        exact ih (h k u a u1 hu h1) h2

/-- **C30** (views), every catalogue of component types: if the relevance computation returns, the
view is as it was. -/
theorem C30_view_restores (hC : C.Lawful) (hR : Reachable X v) (hq : RelevanceQuery v T Q) {a : Fl}
    {v' : View C} (h : v.relevanceProbability close X ord sim ω z T Q = .ok a v') : v.Equiv v' := by
  have hI := hR.inv hC
  obtain ⟨u, g1, g2⟩ := at_out hC hI hq
  have hM : ∀ k u a u', At X v (outSeat v T Q) u →
      termMarginal close X ord sim (ω k) z (v.rowValues X T) (Q.map fun r => (r, v.rowValues X r)) k
        u = .ok a u' → At X v (outSeat v T Q) u' := by
    intro k u a u' hu ht
    obtain ⟨u1, e1, e2⟩ := at_query hI hq hu k
    obtain ⟨u2, e3, e4⟩ := unquery hC hq e2
    unfold termMarginal at ht
    simp only [List.map_map, Function.comp_def, e1, e2.inv.scoreAt_ok, List.map_id', e3] at ht
    split at ht
    · cases ht
    · cases ht; exact e4
  have hJ : ∀ k u a u', At X v (outSeat v T Q) u →
      termJoint X T (v.rowValues X T) (Q.map fun r => (r, v.rowValues X r)) k k u = .ok a u' →
        At X v (outSeat v T Q) u' := by
    intro k u a u' hu ht
    obtain ⟨u1, e1, e2⟩ := at_joint hI hq hu k k
    obtain ⟨u2, e3, e4⟩ := unjoint hC hq e2
    unfold termJoint at ht
    simp only [List.map_map, Function.comp_def, e1, e2.inv.scoreAt_ok, List.map_id', e3] at ht
    cases ht; exact e4
  obtain ⟨kT, hkT⟩ := Option.ne_none_iff_exists'.mp hq.seated
  have hkT' : (v.seat T).getD 0 = kT := by rw [hkT]; rfl
  have hlen : ¬ Q.length < 1 := by
    have := List.length_pos_iff.mpr hq.nonempty
    omega
  have hcon : ¬ Q.contains T = true := by
    rw [List.contains_iff_mem]; exact hq.apart
  unfold relevanceProbability at h
  rw [if_neg hlen, if_neg hcon, hkT, seatsOf_ok v hq.rows] at h
  simp only [g1, zipWith_seats] at h
  cases hcore : u.relevanceCore close X ord sim ω z T (v.rowValues X T)
      (Q.map fun r => (r, v.rowValues X r)) with
  | err e u' => rw [hcore] at h; cases h
  | ok b u' =>
    have e2 : At X v (outSeat v T Q) u' := by
      unfold relevanceCore at hcore
      split at hcore
      · cases hcore
      split at hcore
      · cases hcore
      split at hcore
      · cases hcore
      rename_i cond u1 hc1
      split at hcore
      · cases hcore
      split at hcore
      · cases hcore
      rename_i same u2 hc2
      split at hcore
      · cases hcore
      cases hcore
      exact overTables_keeps (fun k u a u' => hJ k u a u')
        (overTables_keeps (fun k u a u' => hM k u a u') g2 hc1) hc2
    obtain ⟨u1, f1, f2⟩ := restore hI hq e2
    rw [hcore] at h
    simp only [List.map_cons, hkT'] at f1
    simp only [f1] at h
    cases h
    exact (At.start hI).equiv hC f2

/-! ### Queries that are answered or refused at once -/

/-- **C30** (views): without query rows, with a row or column the view does not have, the query is
refused; a query row is certain to be in the cluster of the query rows.  Nothing changes. -/
theorem C30_view_at_once (c : Nat) :
    (c ≠ z → c ∉ v.dims.keys →
      v.relevance close X ord sim ω z T Q c = .err .valueError v) ∧
    (c = z ∨ c ∈ v.dims.keys →
      v.relevance close X ord sim ω z T Q c = v.relevanceProbability close X ord sim ω z T Q) ∧
    v.relevanceProbability close X ord sim ω z T [] = .err .valueError v ∧
    (T ∈ Q → v.relevanceProbability close X ord sim ω z T Q = .ok (.fin 1) v) ∧
    (Q ≠ [] → T ∉ Q → (v.seat T = none ∨ ∃ r ∈ Q, v.seat r = none) →
      v.relevanceProbability close X ord sim ω z T Q = .err .keyError v) := by
  refine ⟨fun h1 h2 => ?_, fun h => ?_, rfl, fun h => ?_, fun h1 h2 h3 => ?_⟩
  · unfold relevance
    rw [if_pos (by simp [h1, h2])]
  · unfold relevance
    rw [if_neg (by simpa [or_iff_not_imp_left] using h)]
  · unfold relevanceProbability
    have := List.length_pos_iff.mpr (List.ne_nil_of_mem h)
    rw [if_neg (by omega), if_pos (List.contains_iff_mem.mpr h)]
  · unfold relevanceProbability
    have := List.length_pos_iff.mpr h1
    rw [if_neg (by omega), if_neg (by rw [List.contains_iff_mem]; exact h2)]
    have hq : (∃ r ∈ Q, v.seat r = none) → v.seatsOf Q = .error .keyError := by
      clear h1 h2 h3 this
      induction Q with
      | nil => simp
      | cons r t ih =>
        rintro ⟨q, hm, hq⟩
        cases hr : v.seat r with
        | none => simp only [seatsOf, hr]
        | some k =>
          have : q ∈ t := (List.mem_cons.mp hm).resolve_left fun e => by rw [e, hr] at hq; cases hq
          simp only [seatsOf, hr, ih ⟨q, this, hq⟩, Except.map]
    cases hT : v.seat T with
    | none => rfl
    | some k =>
      have : ∃ r ∈ Q, v.seat r = none := h3.resolve_left (by simp [hT])
      rw [hq this]

/-! ### Where it fails -/

/-- The full claim fails when a query row is given twice: the query raises after it has removed the
target and that row from the view. -/
theorem C30_view_duplicate_violated (hC : C.Lawful) (hR : Reachable X v) {q : Row} (hne : T ≠ q)
    (hT : v.seat T ≠ none) (hq : v.seat q ≠ none) :
    ∃ e v', v.relevanceProbability close X ord sim ω z T [q, q] = .err e v' ∧
      v'.seat T = none ∧ v'.seat q = none := by
  have hI := hR.inv hC
  obtain ⟨u1, g1, g2⟩ := (At.start hI).unc hC (r := T) hT
  obtain ⟨u2, g3, g4⟩ := g2.unc hC (r := q) (by rw [upd_ne _ _ hne.symm]; exact hq)
  have hs2 : u2.seat q = none := by rw [g4.seat]; unfold upd; rw [if_pos rfl]
  obtain ⟨e, u3, g5, g6⟩ : ∃ e u3, u2.unincorporate q = .err e u3 ∧ u3.seat = u2.seat := by
    unfold View.unincorporate
    cases uncDims q u2.dims with
    | err e ds => exact ⟨e, _, rfl, rfl⟩
    | ok ds =>
      have hs3 : u2.crp.data.get? q = none := hs2
      exact ⟨.keyError, { u2 with dims := ds }, by simp only [hs3], rfl⟩
  obtain ⟨kT, hkT⟩ := Option.ne_none_iff_exists'.mp hT
  refine ⟨e, u3, ?_, ?_, ?_⟩
  · unfold relevanceProbability
    rw [if_neg (by simp), if_neg (by simpa using hne), hkT,
      seatsOf_ok v (l := [q, q]) (by simpa using hq)]
    simp only [uncRows, g1, Out.bind, g3, g5]
  · rw [g6, g4.seat, upd_ne _ _ hne]; unfold upd; rw [if_pos rfl]
  · rw [g6]; exact hs2

/-- The full claim fails when the target and the query rows are all the rows of the view: the query
raises after it has removed them. -/
theorem C30_view_all_rows_violated (hC : C.Lawful) (hR : Reachable X v) (hQ : Q ≠ [])
    (hn : Q.Nodup) (hT : T ∉ Q) (hall : ∀ r, v.seat r ≠ none ↔ r = T ∨ r ∈ Q) :
    ∃ v', v.relevanceProbability close X ord sim ω z T Q = .err .valueError v' ∧
      ∀ r, v'.seat r = none := by
  have hI := hR.inv hC
  obtain ⟨u, g1, g2⟩ := (At.start hI).uncAll hC (Q := T :: Q) (List.nodup_cons.mpr ⟨hT, hn⟩)
    fun r hr => (hall r).mpr (List.mem_cons.mp hr)
  have hnone : ∀ r, u.seat r = none := by
    intro r
    rw [g2.seat]
    unfold put
    split
    · rfl
    · rename_i h
      by_contra hr
      exact h (List.mem_cons.mpr ((hall r).mp hr))
  have hk : u.crp.counts.keys = [] := by
    by_contra h
    obtain ⟨k, hk⟩ := List.exists_mem_of_ne_nil _ h
    obtain ⟨r, hr⟩ := (Crp.occupied_iff g2.inv.crp k).mp hk
    have : u.seat r = some k := hr
    rw [hnone] at this; cases this
  obtain ⟨kT, hkT⟩ := Option.ne_none_iff_exists'.mp ((hall T).mpr (Or.inl rfl))
  refine ⟨u, ?_, hnone⟩
  unfold relevanceProbability
  have := List.length_pos_iff.mpr hQ
  rw [if_neg (by omega), if_neg (by rw [List.contains_iff_mem]; exact hT), hkT,
    seatsOf_ok v fun r hr => (hall r).mpr (Or.inr hr)]
  simp only [g1]
  unfold relevanceCore
  rw [hk]
  rfl

end

/-! ### The hypotheses can be met

By views of one column without inputs over any catalogue; here bernoulli, rows 0, 1 and 2, the
target being row 0 and the query row 1. -/

/-- A column named 0 of type `i`, without inputs. -/
def SoleCol (i : C.ι) (v : View C) : Prop := ∀ c d, v.dims.get? c = some d →
  c = 0 ∧ d.index = 0 ∧ d.kind = i ∧ d.inputs = []

theorem soleCol_rows (hC : C.Lawful) {i : C.ι} {y : C.V} {o : C.O}
    (hp : (C.F i).prep (y, []) = .ok o) {v : View C} (hR : Reachable (fun _ _ => some y) v)
    (h1 : SoleCol i v) (l : List (Row × Tab)) (hl : (Dict.keys l).Nodup)
    (hn : ∀ r ∈ Dict.keys l, v.seat r = none) :
    ∃ v', Reachable (fun _ _ => some y) v' ∧ SoleCol i v' ∧
      (∀ c, c ∈ v'.dims.keys ↔ c ∈ v.dims.keys) ∧
      ∀ r, v'.seat r = (Dict.get? l r).or (v.seat r) := by
  induction l generalizing v with
  | nil => exact ⟨v, hR, h1, fun _ => Iff.rfl, fun r => rfl⟩
  | cons p t ih =>
    obtain ⟨r, k⟩ := p
    have hI := hR.inv hC
    have hr : v.seat r = none := hn r (by simp [Dict.keys])
    have hsu : Suits (fun _ _ => some y) v r := by
      rintro ⟨c, d⟩ hm
      obtain ⟨rfl, e1, e2, e3⟩ := h1 c d (Dict.get?_of_mem hI.wf hm)
      refine (admissible_iff _ _ _).mp ?_
      unfold admissible fileOf
      simp only at e1 e2 e3 ⊢
      rw [e2, e3]
      simp [file, hp]
    obtain ⟨u, g1, g2⟩ := (At.start hI).inc hr hsu k
    have hRu := At.reach (At.start hI) hR hsu g1
    have hS : SoleCol i u := by
      intro c d hd
      obtain ⟨d0, e1, e2⟩ := State.same_get g2.same hd
      obtain ⟨f1, f2, f3, f4⟩ := h1 c d0 e1
      exact ⟨f1, e2.index.trans f2, e2.kind.trans f3, e2.inputs.trans f4⟩
    obtain ⟨hr', hl'⟩ := List.nodup_cons.mp (show (r :: Dict.keys t).Nodup from hl)
    obtain ⟨v', k1, k2, k3, k4⟩ := ih hRu hS hl' fun q hq => by
      have hne : q ≠ r := fun e => hr' (e ▸ hq)
      rw [g2.seat, upd_ne _ _ hne]
      exact hn q (List.mem_cons_of_mem _ hq)
    refine ⟨v', k1, k2, fun c => (k3 c).trans (State.same_keys g2.same c), fun q => ?_⟩
    rw [k4, g2.seat, Dict.get?_cons]
    by_cases e : q = r
    · subst e
      rw [(Dict.get?_eq_none_iff _ _).mpr hr']
      simp [upd]
    · rw [upd_ne _ _ e, if_neg (Ne.symm e)]

theorem soleCol_view (hC : C.Lawful) {i : C.ι} {h : C.H} (hh : (C.F i).hypOk h) {y : C.V} {o : C.O}
    (hp : (C.F i).prep (y, []) = .ok o) (l : List (Row × Tab)) (hl : (Dict.keys l).Nodup) :
    ∃ v : View C, Reachable (fun _ _ => some y) v ∧ Schema v 9 ∧ ClosedInputs v ∧
      (∀ c, c ∈ v.dims.keys ↔ c = 0) ∧ ∀ r, v.seat r = Dict.get? l r := by
  have hR := Reachable.of (C := C) (fun _ _ => some y) 1 one_pos [.incDim 0 [] i h] ⟨hh, trivial⟩
  have hX : (View.run (C := C) (fun _ _ => some y, View.empty 1) [.incDim 0 [] i h]).1 =
    fun _ _ => some y := rfl
  rw [hX] at hR
  obtain ⟨v₁, hv₁⟩ : ∃ v₁, v₁ =
    (View.run (C := C) (fun _ _ => some y, View.empty 1) [.incDim 0 [] i h]).2 := ⟨_, rfl⟩
  rw [← hv₁] at hR
  have hseat : ∀ r, v₁.seat r = none := by intro r; rw [hv₁]; rfl
  have hkeys : v₁.dims.keys = [0] := by rw [hv₁]; rfl
  have hone : SoleCol i v₁ := by
    rw [hv₁]
    intro c d hd
    simp only [View.run, List.foldl, View.apply, incorporateDim, bulkIncorporate, View.empty,
      Crp.init, bulkFold, Dim.new, if_true, Out.state_ok, Dict.set, Dict.get?] at hd
    split at hd
    · rename_i e; cases hd; exact ⟨e.symm, rfl, rfl, rfl⟩
    · cases hd
  obtain ⟨v, g1, g2, g3, g4⟩ := soleCol_rows hC hp hR hone l hl fun r _ => hseat r
  have hk : ∀ c, c ∈ v.dims.keys ↔ c = 0 := fun c => by rw [g3, hkeys]; simp
  refine ⟨v, g1, ⟨by rw [hk]; simp, fun c d hd => by rw [(g2 c d hd).2.2.2]; simp, fun c hc => ?_⟩,
    (fun c d hd i hi => by rw [(g2 c d hd).2.2.2] at hi; cases hi), hk,
    fun r => by rw [g4, hseat, Option.or_none]⟩
  obtain ⟨a, d, hd, ha⟩ : ∃ a, (∃ d, v.dims.get? c = some d ∧ a ∈ d.inputs) := by
    cases hc with
    | single h => exact ⟨_, h⟩
    | tail _ h => exact ⟨_, h⟩
  rw [(g2 c d hd).2.2.2] at ha
  cases ha

example : ∃ v : View (catOf Prim.collapsed), ∃ X, (catOf Prim.collapsed).Lawful ∧
    (catOf Prim.collapsed).Chain ∧ Reachable X v ∧ idOrder.Lists ∧ Schema v 9 ∧ ClosedInputs v ∧
    v.dims.keys ≠ [] ∧ RelevanceQuery v 0 [1] ∧ RelevanceQuery v 0 [1, 2] := by
  have hC := catOf_lawful Prim.collapsed
  have hok : ((catOf Prim.collapsed).F ⟨.bernoulli, trivial⟩).prep ((1 : ℝ), []) =
      .ok ((1 : ℝ), []) :=
    (C10_primitives_store _ _ _).mpr ⟨rfl, by simp [remembered, support]⟩
  obtain ⟨v, h1, h2, h3, h4, h5⟩ := soleCol_view hC (i := ⟨.bernoulli, trivial⟩)
    (h := ⟨.bernoulli, ⟨1, 1⟩⟩) ⟨rfl, one_pos, one_pos⟩ hok [(0, 0), (1, 0), (2, 5), (3, 5)]
    (by simp [Dict.keys])
  refine ⟨v, _, hC, collapsedCat_chain, h1, idOrder_lists, h2, h3, fun h => ?_, ?_, ?_⟩
  · have := (h4 0).mpr rfl
    rw [h] at this; cases this
  · refine ⟨by simp, by simp, by simp, ?_, ?_, 2, by decide, by simp, ?_⟩ <;>
      simp [h5, Dict.get?]
  · refine ⟨by simp, by simp, by simp, ?_, ?_, 3, by decide, by simp, ?_⟩ <;>
      simp [h5, Dict.get?]

/-- The rows of the view are the target and the query row. -/
example : ∃ v : View (catOf Prim.collapsed), ∃ X, Reachable X v ∧ v.seat 0 ≠ none ∧
    v.seat 1 ≠ none ∧ ∀ r, v.seat r ≠ none ↔ r = 0 ∨ r ∈ [1] := by
  have hC := catOf_lawful Prim.collapsed
  have hok : ((catOf Prim.collapsed).F ⟨.bernoulli, trivial⟩).prep ((1 : ℝ), []) =
      .ok ((1 : ℝ), []) :=
    (C10_primitives_store _ _ _).mpr ⟨rfl, by simp [remembered, support]⟩
  obtain ⟨v, h1, h2, h3, h4, h5⟩ := soleCol_view hC (i := ⟨.bernoulli, trivial⟩)
    (h := ⟨.bernoulli, ⟨1, 1⟩⟩) ⟨rfl, one_pos, one_pos⟩ hok [(0, 0), (1, 5)] (by simp [Dict.keys])
  refine ⟨v, _, h1, by simp [h5, Dict.get?], by simp [h5, Dict.get?], fun r => ?_⟩
  rw [h5]
  simp only [Dict.get?, List.mem_singleton]
  split
  · rename_i e; simp [← e]
  · rename_i e
    split
    · rename_i e'; simp [← e']
    · rename_i e'; simp [Ne.symm e, Ne.symm e']

end Cgpm.Props
