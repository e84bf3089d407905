import Verif.Model.Relevance
import Verif.Lemmas.ViewFast
import Verif.Lemmas.StateRelevance

/-! Rows of a view are taken out, put elsewhere and put back. -/
namespace Cgpm
namespace View
variable {C : Cat}

/-- View `u` is view `v0` with the row partition `s`. -/
structure At (X : C.Tbl) (v0 : View C) (s : Row → Option Tab) (u : View C) : Prop where
  inv : Inv X u
  seat : u.seat = s
  alpha : u.crp.alpha = v0.crp.alpha
  same : Same v0 u

theorem At.start {X : C.Tbl} {v : View C} (h : Inv X v) : At X v v.seat v :=
  ⟨h, rfl, rfl, Same.refl _⟩

theorem At.congr {X : C.Tbl} {v0 u : View C} {s s' : Row → Option Tab} (h : At X v0 s u)
    (e : ∀ r, s r = s' r) : At X v0 s' u := ⟨h.inv, h.seat.trans (funext e), h.alpha, h.same⟩

theorem At.frame {X : C.Tbl} {v0 u : View C} {s : Row → Option Tab} (h : At X v0 s u)
    {p : Col × Dim C} (hp : p ∈ u.dims) : ∃ d0, (p.1, d0) ∈ v0.dims ∧ Dim.Frame d0 p.2 := by
  obtain ⟨d0, h1, h2⟩ := State.same_get h.same (Dict.get?_of_mem h.inv.wf hp)
  exact ⟨d0, Dict.mem_of_get? h1, h2⟩

/-- The values of row `r` suit the columns. -/
def Suits (X : C.Tbl) (v0 : View C) (r : Row) : Prop := ∀ p ∈ v0.dims, Accepts X p.2 r

theorem Inv.suits {X : C.Tbl} {v : View C} (h : Inv X v) {r : Row} (hr : v.seat r ≠ none) :
    Suits X v r := by
  obtain ⟨k, hk⟩ := Option.ne_none_iff_exists'.mp hr
  exact fun p hp => (h.dim p hp).acc r k hk

theorem rowValues_keys (X : C.Tbl) (v : View C) (r : Row) :
    (v.rowValues X r).keys = v.dims.keys := by
  simp [rowValues, Dict.keys, Function.comp_def]

theorem rowValues_get? (X : C.Tbl) (v : View C) (r : Row) {c : Col} (hc : c ∈ v.dims.keys) :
    (v.rowValues X r).get? c = some (X c r) := by
  unfold rowValues Dict.keys at *
  generalize v.dims = l at hc ⊢
  induction l with
  | nil => simp at hc
  | cons p t ih =>
    obtain ⟨a, d⟩ := p
    rw [List.map_cons, List.mem_cons] at hc
    simp only [List.map_cons, Dict.get?]
    by_cases e : a = c
    · subst e; simp
    · rw [if_neg e]
      exact ih (hc.resolve_left (Ne.symm e))

theorem At.obs {X : C.Tbl} {v0 u : View C} {s : Row → Option Tab} (h : At X v0 s u) (r : Row) :
    ∀ p ∈ u.dims, (v0.rowValues X r).get? p.1 = some (X p.1 r) := by
  intro p hp
  obtain ⟨d0, h1, -⟩ := h.frame hp
  exact rowValues_get? X v0 r (List.mem_map.mpr ⟨_, h1, rfl⟩)

theorem At.inc {X : C.Tbl} {v0 u : View C} {s : Row → Option Tab} (h : At X v0 s u) {r : Row}
    (hr : s r = none) (ha : Suits X v0 r) (k : Tab) :
    ∃ u', u.incorporate X r (v0.rowValues X r) (some k) 0 = .ok u' ∧
      At X v0 (upd s r (some k)) u' := by
  have hacc : ∀ p ∈ u.dims, Accepts X p.2 r := by
    intro p hp
    obtain ⟨d0, h1, h2⟩ := h.frame hp
    exact (accepts_frame h2 r).mpr (ha _ h1)
  obtain ⟨u', g1, g2, g3, g4, -, g5⟩ := incorporateAt_ok h.inv (by rw [h.seat]; exact hr) k hacc
    (h.obs r)
  exact ⟨u', g1, g2, by rw [g3, h.seat], g4.trans h.alpha, h.same.trans g5.same⟩

theorem At.unc (hL : C.Lawful) {X : C.Tbl} {v0 u : View C} {s : Row → Option Tab}
    (h : At X v0 s u) {r : Row} (hr : s r ≠ none) :
    ∃ u', u.unincorporate r = .ok u' ∧ At X v0 (upd s r none) u' := by
  obtain ⟨u', g1, g2, g3, g4, -, g5⟩ := unincorporate_ok hL h.inv (by rw [h.seat]; exact hr)
  exact ⟨u', g1, g2, by rw [g3, h.seat], g4.trans h.alpha, h.same.trans g5.same⟩

open Classical in
/-- The rows of `Q` are given the clusters `f`. -/
noncomputable def put (s : Row → Option Tab) (Q : List Row) (f : Row → Option Tab) :
    Row → Option Tab := fun r => if r ∈ Q then f r else s r

theorem put_cons (s : Row → Option Tab) (q : Row) (Q : List Row) (hq : q ∉ Q)
    (f : Row → Option Tab) : put (upd s q (f q)) Q f = put s (q :: Q) f := by
  funext r
  unfold put upd
  by_cases h1 : r ∈ Q
  · simp [h1]
  · by_cases h2 : r = q
    · subst h2; simp [hq]
    · simp [h1, h2]

theorem At.incAll {X : C.Tbl} {v0 u : View C} {s : Row → Option Tab} (h : At X v0 s u)
    {Q : List Row} (hn : Q.Nodup) (hQ : ∀ r ∈ Q, s r = none) (ha : ∀ r ∈ Q, Suits X v0 r)
    (f : Row → Tab) :
    ∃ u', incRows X (Q.map fun r => (r, v0.rowValues X r, f r)) u = .ok u' ∧
      At X v0 (put s Q fun r => some (f r)) u' := by
  induction Q generalizing u s with
  | nil => exact ⟨u, rfl, h.congr fun r => by simp [put]⟩
  | cons q Q ih =>
    obtain ⟨hq, hn⟩ := List.nodup_cons.mp hn
    obtain ⟨u1, g1, g2⟩ := h.inc (hQ q (by simp)) (ha q (by simp)) (f q)
    obtain ⟨u2, g3, g4⟩ := ih g2 hn (fun r hr => by
      have hne : r ≠ q := fun e => hq (e ▸ hr)
      rw [upd_ne _ _ hne]; exact hQ r (by simp [hr]))
      (fun r hr => ha r (by simp [hr]))
    refine ⟨u2, by simp only [List.map_cons, incRows, g1, Out.bind_ok]; exact g3, ?_⟩
    rw [← put_cons s q Q hq]; exact g4

theorem At.uncAll (hL : C.Lawful) {X : C.Tbl} {v0 u : View C} {s : Row → Option Tab}
    (h : At X v0 s u) {Q : List Row} (hn : Q.Nodup) (hQ : ∀ r ∈ Q, s r ≠ none) :
    ∃ u', uncRows Q u = .ok u' ∧ At X v0 (put s Q fun _ => none) u' := by
  induction Q generalizing u s with
  | nil => exact ⟨u, rfl, h.congr fun r => by simp [put]⟩
  | cons q Q ih =>
    obtain ⟨hq, hn⟩ := List.nodup_cons.mp hn
    obtain ⟨u1, g1, g2⟩ := h.unc hL (hQ q (by simp))
    obtain ⟨u2, g3, g4⟩ := ih g2 hn (fun r hr => by
      have hne : r ≠ q := fun e => hq (e ▸ hr)
      rw [upd_ne _ _ hne]; exact hQ r (by simp [hr]))
    refine ⟨u2, by simp only [uncRows, g1, Out.bind_ok]; exact g3, ?_⟩
    rw [← put_cons s q Q hq]; exact g4

theorem At.equiv (hL : C.Lawful) {X : C.Tbl} {v0 a b : View C} {s : Row → Option Tab}
    (ha : At X v0 s a) (hb : At X v0 s b) : Equiv a b :=
  equiv_of_inv hL ha.inv hb.inv (ha.alpha.trans hb.alpha.symm) (ha.seat.trans hb.seat.symm)
    (ha.same.symm.trans hb.same)

/-! ### The score of one cluster -/

/-- The score of the component of cluster `k`, 0 if there is none. -/
noncomputable def clScore (k : Tab) (d : Dim C) : ℝ :=
  ((d.clusters.get? k).map fun c => c.score d.fam).getD 0

theorem clusterScores_ok {k : Tab} {l : List (Dim C)} (h : ∀ d ∈ l, d.clusters.get? k ≠ none) :
    clusterScores k l = .ok (l.map (clScore k)).sum := by
  induction l with
  | nil => rfl
  | cons d t ih =>
    obtain ⟨c, hc⟩ := Option.ne_none_iff_exists'.mp (h d (by simp))
    simp only [clusterScores, hc, ih fun d hd => h d (by simp [hd]), Except.map, List.map_cons,
      List.sum_cons, clScore, Option.map_some, Option.getD_some]

theorem Inv.cluster_none {X : C.Tbl} {v : View C} (h : Inv X v) {k : Tab} {p : Col × Dim C}
    (hp : p ∈ v.dims) : p.2.clusters.get? k = none ↔ ¬ Occ v.seat k := by
  rw [Dict.get?_eq_none_iff, (h.dim p hp).keys]

theorem Inv.clusterScore_ok {X : C.Tbl} {v : View C} (h : Inv X v) (k : Tab) :
    v.clusterScore k = .ok (v.dims.vals.map (clScore k)).sum := by
  unfold clusterScore
  by_cases hk : Occ v.seat k
  · rw [if_pos (by rw [Dict.has_iff]; exact (Crp.occupied_iff h.crp k).mpr hk)]
    refine clusterScores_ok fun d hd => ?_
    obtain ⟨p, hp, rfl⟩ := List.mem_map.mp hd
    rw [ne_eq, h.cluster_none hp]; exact fun hn => hn hk
  · rw [if_neg (by rw [Dict.has_iff]; exact fun hh => hk ((Crp.occupied_iff h.crp k).mp hh))]
    congr 1
    refine (List.sum_eq_zero fun x hx => ?_).symm
    obtain ⟨d, hd, rfl⟩ := List.mem_map.mp hx
    obtain ⟨p, hp, rfl⟩ := List.mem_map.mp hd
    unfold clScore
    rw [(h.cluster_none hp).mpr hk]; rfl

/-- The score of a view restricted to one cluster. -/
noncomputable def atScore (v : View C) (k : Tab) : ℝ :=
  v.crp.logpdfScore + (v.dims.vals.map (clScore k)).sum

theorem Inv.scoreAt_ok {X : C.Tbl} {v : View C} (h : Inv X v) (k : Tab) :
    v.scoreAt k k = .ok (v.atScore k) := by
  unfold scoreAt
  rw [h.clusterScore_ok]
  simp [atScore]

theorem perm_erase_scores {a b : Dim C} (ha : a.clusters.WF) (hb : b.clusters.WF) {k : Tab}
    (h : ∀ t, t ≠ k → (a.clusters.get? t).map (fun c => c.score a.fam) =
      (b.clusters.get? t).map (fun c => c.score b.fam)) :
    a.score - clScore k a = b.score - clScore k b := by
  have e : ∀ {d : Dim C}, d.clusters.WF → d.score - clScore k d =
      ({ d with clusters := d.clusters.erase k } : Dim C).score := fun hd =>
    (Dim.score_erase hd (k := k)).symm
  rw [e ha, e hb, Dim.score_eq, Dim.score_eq]
  refine (List.Perm.map Prod.snd (Dict.perm_of_get? (Dim.scores_wf (Dict.wf_erase ha k))
    (Dim.scores_wf (Dict.wf_erase hb k)) fun t => ?_)).sum_eq
  rw [Dim.scores_get?, Dim.scores_get?]
  change ((a.clusters.erase k).get? t).map (fun c => c.score a.fam) =
    ((b.clusters.erase k).get? t).map (fun c => c.score b.fam)
  rw [Dict.get?_erase, Dict.get?_erase]
  by_cases htk : t = k
  · rw [if_pos htk, if_pos htk]; rfl
  · rw [if_neg htk, if_neg htk, h t htk]

/-- Clusters other than `k` have the same rows. -/
def Off (k : Tab) (s s' : Row → Option Tab) : Prop := ∀ t, t ≠ k → ∀ r, s r = some t ↔ s' r = some t

theorem DimOk'.off (hL : C.Lawful) {X : C.Tbl} {s s' : Row → Option Tab} {c : Col} {a b : Dim C}
    (ha : DimOk X s c a) (hb : DimOk X s' c b) (hf : Dim.Frame a b) {k : Tab} (ho : Off k s s') :
    a.score - clScore k a = b.score - clScore k b := by
  refine perm_erase_scores ha.core.wfC hb.core.wfC fun t ht => ?_
  have hocc : Occ s t ↔ Occ s' t := exists_congr fun r => ho t ht r
  cases hA : a.clusters.get? t with
  | none =>
    have : b.clusters.get? t = none := by
      rw [Dict.get?_eq_none_iff, hb.keys, ← hocc, ← ha.keys, ← Dict.get?_eq_none_iff]; exact hA
    rw [this]; rfl
  | some ca =>
    have : t ∈ b.clusters.keys := by
      rw [hb.keys, ← hocc, ← ha.keys]; exact Dict.mem_keys_of_get? hA
    obtain ⟨cb, hB⟩ := Dict.exists_of_mem_keys this
    rw [hB]
    have g1 := ha.core.cl t ca hA
    have g2 := hb.core.cl t cb hB
    rw [hf.fam] at g2
    have g3 := g2.congr (g' := fun r => valIn t (filing X s a r)) fun r => by
      rw [filing_frame hf]
      unfold filing
      have := ho t ht r
      cases h1 : s r with
      | none =>
        cases h2 : s' r with
        | none => rfl
        | some k' =>
          have hk : k' ≠ t := fun e => by rw [h1, h2, e] at this; simp at this
          simp only [Option.map_some, Option.map_none]
          cases stored X a r <;> simp [valIn, hk]
      | some k1 =>
        cases h2 : s' r with
        | none =>
          have hk : k1 ≠ t := fun e => by rw [h1, h2, e] at this; simp at this
          simp only [Option.map_some, Option.map_none]
          cases stored X a r <;> simp [valIn, hk]
        | some k' =>
          rw [h1, h2] at this
          simp only [Option.some.injEq] at this
          simp only [Option.map_some]
          cases stored X a r with
          | none => simp [valIn]
          | some o => simp only [valIn, this]
    have hs := (g1.stat_unique (hL _) g3).2
    have hh : ca.hyp = cb.hyp := by rw [ha.shared.cl t ca hA, hb.shared.cl t cb hB, hf.hyp]
    simp only [Option.map_some, Comp.score, hs, hh, hf.fam]

theorem At.off (hL : C.Lawful) {X : C.Tbl} {v0 a b : View C} {s s' : Row → Option Tab}
    (ha : At X v0 s a) (hb : At X v0 s' b) {k : Tab} (ho : Off k s s') :
    b.atScore k - a.atScore k = b.score - a.score := by
  have hS : Same a b := ha.same.symm.trans hb.same
  have key : (a.dims.vals.map fun d => d.score - clScore k d).sum =
      (b.dims.vals.map fun d => d.score - clScore k d).sum := by
    refine sum_rel (R := fun x y => x.score - clScore k x = y.score - clScore k y)
      ha.inv.wf hb.inv.wf (fun c => ?_) fun _ _ e => e
    have h := hS c
    cases hA : a.dims.get? c with
    | none =>
      rw [hA] at h
      cases hB : b.dims.get? c with
      | none => exact .none
      | some d => rw [hB] at h; cases h
    | some da =>
      rw [hA] at h
      cases hB : b.dims.get? c with
      | none => rw [hB] at h; cases h
      | some db =>
        rw [hB] at h
        cases h with
        | some hf =>
          have g1 := ha.inv.dim _ (Dict.mem_of_get? hA)
          have g2 := hb.inv.dim _ (Dict.mem_of_get? hB)
          rw [ha.seat] at g1
          rw [hb.seat] at g2
          exact .some (g1.off hL g2 hf ho)
  have hsub : ∀ l : List (Dim C), (l.map fun d => d.score - clScore k d).sum =
      (l.map Dim.score).sum - (l.map (clScore k)).sum := by
    intro l
    induction l with
    | nil => simp
    | cons d t ih => simp only [List.map_cons, List.sum_cons, ih]; ring
  rw [hsub, hsub] at key
  unfold atScore View.score likelihood
  linarith

end View
end Cgpm
