import Verif.Spec.Equiv
import Verif.Lemmas.CrpProps

/-! Gibbs proposals of a Crp on states satisfying the invariant. -/
namespace Cgpm.Crp
open Cgpm Cgpm.Props

theorem equiv_of_inv {a b : Crp} (ha : Inv a) (hb : Inv b) (hα : a.alpha = b.alpha)
    (hd : ∀ r, a.data.get? r = b.data.get? r) : Equiv a b := by
  have hp : a.data.Perm b.data := Dict.perm_of_get? ha.wfData hb.wfData hd
  refine ⟨hα, by rw [ha.hN, hb.hN, hp.length_eq], hp, ?_, ha.wfCounts⟩
  refine Dict.perm_of_get? ha.wfCounts hb.wfCounts (fun t => ?_)
  rw [ha.hCounts, hb.hCounts, countOf, countOf, nSeated_perm hp]

theorem Equiv.score {a b : Crp} (h : Equiv a b) : a.logpdfScore = b.logpdfScore :=
  score_congr h.alpha h.N (h.counts.map Prod.snd)

theorem occupied_iff {s : Crp} (h : Inv s) (t : Tab) :
    t ∈ s.counts.keys ↔ ∃ r, s.data.get? r = some t := by
  rw [mem_keys_counts h, Dict.vals, List.mem_map]
  constructor
  · rintro ⟨⟨r, x⟩, hm, rfl⟩; exact ⟨r, Dict.get?_of_mem h.wfData hm⟩
  · rintro ⟨r, hr⟩; exact ⟨(r, t), Dict.mem_of_get? hr, rfl⟩

theorem inc_data {s : Crp} (h : Inv s) {r : Row} (x : Tab) (hr : s.data.get? r = none) :
    ∃ s', s.incorporate r x = .ok s' ∧ Inv s' ∧ s'.alpha = s.alpha ∧
      ∀ r', s'.data.get? r' = if r' = r then some x else s.data.get? r' := by
  have hI := inv_incorporate h r x
  rw [incorporate_ok h hr] at hI ⊢
  refine ⟨_, rfl, hI, rfl, fun r' => ?_⟩
  simp only [← Dict.set_of_not_mem x hr, Dict.get?_set]

theorem unc_data {s : Crp} (h : Inv s) {r : Row} {x : Tab} (hr : s.data.get? r = some x) :
    ∃ s', s.unincorporate r = .ok s' ∧ Inv s' ∧ s'.alpha = s.alpha ∧
      ∀ r', s'.data.get? r' = if r' = r then none else s.data.get? r' := by
  have hI := inv_unincorporate h r
  rw [unincorporate_ok h hr] at hI ⊢
  refine ⟨_, rfl, hI, rfl, fun r' => ?_⟩
  simp only [Dict.get?_erase]

/-- The candidates of a row, and their log weights: with one auxiliary table the weight
of a candidate is the predictive probability given the other rows, up to a factor. -/
theorem gibbs_one {s s' : Crp} (h : Inv s) {r : Row} {own : Tab}
    (hd : s.data.get? r = some own) (hs' : s.unincorporate r = .ok s') :
    ∃ tables w, s.gibbsTables (some r) 1 = .ok tables ∧ s.gibbsLogps r 1 = .ok (tables.map w) ∧
      tables.Nodup ∧ own ∈ tables ∧ (∀ t, t ∈ s'.counts.keys → t ∈ tables) ∧
      (∀ t ∈ tables, w t =
        Real.log (s'.N + s'.alpha) + calcPredictiveLogp t s'.N s'.counts s'.alpha) := by
  have h' : Inv s' := by have := inv_unincorporate h r; rwa [hs'] at this
  have ha' : s'.alpha = s.alpha := by
    rw [unincorporate_ok h hd] at hs'; cases hs'; rfl
  have hdata' : s'.data = s.data.erase r := by
    rw [unincorporate_ok h hd] at hs'; cases hs'; rfl
  have hn := nSeated_erase h.wfData hd
  have hc' : ∀ t, s'.counts.get? t = countOf (s.data.erase r) t := by
    intro t; rw [h'.hCounts t, hdata']
  have hownpos : 0 < nSeated s.data own := by have := hn own; simp at this; omega
  have hcown : s.counts.get? own = some (nSeated s.data own : Int) := by
    rw [h.hCounts, countOf, if_neg (by omega)]
  have hother : ∀ t, t ≠ own → s'.counts.get? t = s.counts.get? t := by
    intro t ht
    have := hn t
    rw [if_neg (Ne.symm ht)] at this
    rw [hc' t, h.hCounts t, countOf, countOf, this, Nat.add_zero]
  have hne : s.counts ≠ [] := by
    intro he; rw [he] at hcown; simp at hcown
  have hp := pySorted_perm s.counts.keys
  have hownk : own ∈ s.counts.keys := Dict.mem_keys_of_get? hcown
  set mAux := if s.singleton (some r) then 1 - 1 else 1 with hmAux
  set aux := (List.range mAux).map (fun i => pyMax s.counts.keys + 1 + i) with haux
  have hauxmem : ∀ t ∈ aux, s.counts.get? t = none := by
    intro t ht
    simp only [haux, List.mem_map] at ht
    obtain ⟨i, -, rfl⟩ := ht
    rw [Dict.get?_eq_none_iff]; exact fresh_not_mem _ i
  have hauxnd : aux.Nodup := by
    apply List.Nodup.map _ List.nodup_range
    intro a b hab; simpa using hab
  have htab : s.gibbsTables (some r) 1 = .ok (pySorted s.counts.keys ++ aux) := by
    simp only [gibbsTables, if_neg (by omega : ¬ (1:ℕ) = 0)]
    have : ¬ (s.counts.isEmpty = true ∧ 0 < mAux) := by simp [hne]
    simp only [← hmAux, this, if_false]; rfl
  have hnd : (pySorted s.counts.keys ++ aux).Nodup := by
    refine List.Nodup.append (hp.nodup_iff.mpr h.wfCounts) hauxnd ?_
    intro t ht ht'
    rw [hp.mem_iff] at ht
    exact (Dict.get?_eq_none_iff _ _).mp (hauxmem t ht') ht
  refine ⟨pySorted s.counts.keys ++ aux, fun t => Real.log (s.gibbsWeight own 1 t), htab, ?_, hnd,
    ?_, ?_, ?_⟩
  · simp only [gibbsLogps, hd, htab]
  · rw [List.mem_append, hp.mem_iff]; exact Or.inl hownk
  · intro t ht
    rw [List.mem_append, hp.mem_iff]
    left
    by_cases hto : t = own
    · subst hto; exact hownk
    · rw [← Dict.get?_isSome_iff, hother t hto, Dict.get?_isSome_iff] at ht; exact ht
  · intro t ht
    have hw : s.gibbsWeight own 1 t = wt s' t := by
      unfold gibbsWeight wt
      by_cases hto : t = own
      · subst hto
        have h1 := hn t
        simp only [if_true] at h1
        rw [if_pos rfl, hcown, hc' t, countOf, ha']
        by_cases hs1 : nSeated s.data t = 1
        · have : nSeated (s.data.erase r) t = 0 := by omega
          simp [hs1, this]
        · have h2 : ¬ ((nSeated s.data t : Int) = 1) := by omega
          have h3 : ¬ nSeated (s.data.erase r) t = 0 := by omega
          simp only [h2, if_false, h3]
          push_cast [h1]; ring
      · rw [if_neg hto, hother t hto, ha']
        cases s.counts.get? t <;> simp
    have e : calcPredictiveLogp t s'.N s'.counts s'.alpha =
        Real.log (wt s' t) - Real.log (s'.N + s'.alpha) := rfl
    simp only [hw]
    rw [e]; ring

end Cgpm.Crp
