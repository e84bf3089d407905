import Verif.Model.Crp
import Verif.Lemmas.Dict
import Mathlib.Algebra.BigOperators.Group.List.Basic
import Mathlib.Tactic.Ring
import Mathlib.Tactic.Linarith
import Mathlib.Tactic.Positivity
import Mathlib.Tactic.FieldSimp

/-! Invariant of the Crp bookkeeping and its consequences. -/
namespace Cgpm

/-- Number of rows of `d` seated at `t`. -/
def nSeated (d : Dict Row Tab) (t : Tab) : Nat := d.countP (fun p => p.2 = t)

theorem nSeated_perm {d e : Dict Row Tab} (h : d.Perm e) (t : Tab) :
    nSeated d t = nSeated e t := h.countP_eq _

@[simp] theorem nSeated_cons (r : Row) (x t : Tab) (d : Dict Row Tab) :
    nSeated ((r, x) :: d) t = nSeated d t + if x = t then 1 else 0 := by
  simp [nSeated, List.countP_cons]

theorem nSeated_pos_iff {d : Dict Row Tab} {t : Tab} : 0 < nSeated d t ↔ t ∈ d.vals := by
  simp only [nSeated, List.countP_pos_iff, Dict.vals, List.mem_map, decide_eq_true_eq]

/-- The counts dictionary implied by a seating. -/
def countOf (d : Dict Row Tab) (t : Tab) : Option Int :=
  if nSeated d t = 0 then none else some (nSeated d t : Int)

namespace Crp

/-- Representation invariant. -/
structure Inv (s : Crp) : Prop where
  wfData : s.data.WF
  wfCounts : s.counts.WF
  hN : s.N = s.data.length
  hCounts : ∀ t, s.counts.get? t = countOf s.data t

theorem inv_init (a : ℝ) : Inv (init a) :=
  ⟨Dict.wf_nil, Dict.wf_nil, rfl, fun _ => rfl⟩

theorem incorporate_ok {s : Crp} (h : Inv s) {r : Row} {x : Tab} (hr : s.data.get? r = none) :
    s.incorporate r x = .ok { s with
      N := s.N + 1
      counts := s.counts.set x (nSeated s.data x + 1)
      data := s.data ++ [(r, x)] } := by
  have hh : s.data.has r = false := (Dict.has_false_iff _ _).mpr hr
  unfold incorporate
  simp only [hh, Bool.false_eq_true, if_false]
  have hc := h.hCounts x
  unfold countOf at hc
  by_cases h0 : nSeated s.data x = 0
  · simp only [h0, if_true] at hc
    have : s.counts.has x = false := (Dict.has_false_iff _ _).mpr hc
    simp [this, h0, Dict.set_of_not_mem _ hr]
  · simp only [h0, if_false] at hc
    have : s.counts.has x = true := by simp [Dict.has, hc]
    simp [this, hc, Dict.set_of_not_mem _ hr]

theorem incorporate_dup {s : Crp} {r : Row} {x : Tab} (hr : s.data.get? r ≠ none) :
    s.incorporate r x = .err .assertion s := by
  unfold incorporate
  have : s.data.has r = true := by
    rw [Dict.has]; exact Option.ne_none_iff_isSome.mp hr
  simp [this]

theorem inv_incorporate {s : Crp} (h : Inv s) (r : Row) (x : Tab) :
    Inv (s.incorporate r x).state := by
  by_cases hr : s.data.get? r = none
  · rw [incorporate_ok h hr, Out.state_ok]
    refine ⟨?_, Dict.wf_set h.wfCounts _ _, ?_, ?_⟩
    · have := Dict.wf_set h.wfData r x
      rwa [Dict.set_of_not_mem _ hr] at this
    · simp [h.hN]
    · intro t
      have hn : nSeated (s.data ++ [(r, x)]) t = nSeated s.data t + if x = t then 1 else 0 := by
        simp [nSeated, List.countP_append, List.countP_cons]
      simp only [Dict.get?_set, countOf, hn]
      by_cases ht : t = x
      · subst ht; simp
      · have : ¬ x = t := fun e => ht e.symm
        simp only [ht, this, if_false, Nat.add_zero]
        exact h.hCounts t
  · rw [incorporate_dup hr]; exact h

theorem unincorporate_missing {s : Crp} {r : Row} (hr : s.data.get? r = none) :
    s.unincorporate r = .err .keyError s := by
  simp [unincorporate, hr]

theorem nSeated_erase {d : Dict Row Tab} (hd : d.WF) {r : Row} {x : Tab}
    (hr : d.get? r = some x) (t : Tab) :
    nSeated d t = nSeated (d.erase r) t + if x = t then 1 else 0 := by
  rw [nSeated_perm (Dict.perm_cons_erase hd hr), nSeated_cons]

theorem unincorporate_ok {s : Crp} (h : Inv s) {r : Row} {x : Tab} (hr : s.data.get? r = some x) :
    s.unincorporate r = .ok { s with
      N := s.N - 1
      data := s.data.erase r
      counts := if nSeated s.data x = 1 then s.counts.erase x
                else s.counts.set x (nSeated s.data x - 1) } := by
  have hp : 0 < nSeated s.data x := by
    have := nSeated_erase h.wfData hr x
    simp at this; omega
  have hc := h.hCounts x
  unfold countOf at hc
  rw [if_neg (by omega)] at hc
  unfold unincorporate
  simp only [hr, hc]
  by_cases h1 : nSeated s.data x = 1
  · simp [h1]
  · have : ¬ ((nSeated s.data x : Int) - 1 = 0) := by omega
    simp [h1, this]

theorem inv_unincorporate {s : Crp} (h : Inv s) (r : Row) : Inv (s.unincorporate r).state := by
  cases hr : s.data.get? r with
  | none => rw [unincorporate_missing hr]; exact h
  | some x =>
    rw [unincorporate_ok h hr, Out.state_ok]
    have hn := nSeated_erase h.wfData hr
    refine ⟨Dict.wf_erase h.wfData r, ?_, ?_, ?_⟩
    · dsimp only; split
      · exact Dict.wf_erase h.wfCounts _
      · exact Dict.wf_set h.wfCounts _ _
    · have := Dict.length_erase h.wfData hr
      simp only [h.hN]; omega
    · intro t
      simp only [countOf]
      have hx := hn x
      have ht := hn t
      simp only [if_true] at hx
      by_cases hxt : x = t
      · subst hxt
        by_cases h1 : nSeated s.data x = 1
        · rw [if_pos h1, Dict.get?_erase_self, if_pos (by omega)]
        · rw [if_neg h1, Dict.get?_set_self, if_neg (by omega), hx]; simp
      · have hxt' : t ≠ x := fun e => hxt e.symm
        simp only [hxt, if_false, Nat.add_zero] at ht
        rw [← ht]
        split
        · rw [Dict.get?_erase_ne _ hxt', h.hCounts t]; rfl
        · rw [Dict.get?_set_ne _ _ hxt', h.hCounts t]; rfl

theorem inv_apply {s : Crp} (h : Inv s) (op : Op) : Inv (s.apply op).state := by
  cases op with
  | inc r x => exact inv_incorporate h r x
  | unc r => exact inv_unincorporate h r
  | hyp a =>
    simp only [apply, setHypers]
    split
    · exact ⟨h.wfData, h.wfCounts, h.hN, h.hCounts⟩
    · exact h

theorem inv_run {s : Crp} (h : Inv s) (ops : List Op) : Inv (s.run ops) := by
  unfold run
  induction ops generalizing s with
  | nil => exact h
  | cons op ops ih => exact ih (inv_apply h op)

/-! ### Sum of the counts -/

theorem sum_ite_nodup {K : List Tab} (hK : K.Nodup) {x : Tab} (hx : x ∈ K) :
    (K.map (fun i => if x = i then 1 else 0)).sum = 1 := by
  induction K with
  | nil => simp at hx
  | cons a K ih =>
    rw [List.nodup_cons] at hK
    by_cases h : x = a
    · subst h
      have : ∀ i ∈ K, (if x = i then 1 else 0) = 0 := by
        intro i hi
        rw [if_neg]; rintro rfl; exact hK.1 hi
      rw [List.map_cons, List.sum_cons, List.map_congr_left this]; simp
    · have hx' : x ∈ K := by simpa [h] using hx
      simp [h, ih hK.2 hx']

theorem sum_counts_aux (d : Dict Row Tab) (K : List Tab) (hK : K.Nodup)
    (hcov : ∀ t ∈ d.vals, t ∈ K) : (K.map (fun t => nSeated d t)).sum = d.length := by
  induction d with
  | nil => simp [nSeated]
  | cons p d ih =>
    obtain ⟨r, x⟩ := p
    have hcov' : ∀ t ∈ Dict.vals d, t ∈ K := fun t ht => hcov t (by
      simp only [Dict.vals, List.map_cons, List.mem_cons] at ht ⊢; exact Or.inr ht)
    have hx : x ∈ K := hcov x (by simp [Dict.vals])
    simp only [nSeated_cons, List.length_cons, List.sum_map_add, ih hcov']
    rw [sum_ite_nodup hK hx]

theorem vals_eq_map_get? {K V : Type} [DecidableEq K] {d : Dict K V} (hd : d.WF) :
    d.vals.map some = d.keys.map d.get? := by
  simp only [Dict.vals, Dict.keys, List.map_map]
  apply List.map_congr_left
  rintro ⟨k, v⟩ h
  simp [Dict.get?_of_mem hd h]

theorem mem_keys_counts {s : Crp} (h : Inv s) (t : Tab) :
    t ∈ s.counts.keys ↔ t ∈ s.data.vals := by
  rw [← Dict.get?_isSome_iff, h.hCounts t, ← nSeated_pos_iff, countOf]
  split <;> simp <;> omega

theorem counts_vals_eq {s : Crp} (h : Inv s) :
    s.counts.vals = s.counts.keys.map (fun t => (nSeated s.data t : Int)) := by
  have h1 := vals_eq_map_get? h.wfCounts
  have h2 : s.counts.keys.map s.counts.get? =
      (s.counts.keys.map (fun t => (nSeated s.data t : Int))).map some := by
    rw [List.map_map]
    apply List.map_congr_left
    intro t ht
    rw [mem_keys_counts h, ← nSeated_pos_iff] at ht
    simp [h.hCounts t, countOf]; omega
  rw [h2] at h1
  exact (List.map_injective_iff.mpr (Option.some_injective _)) h1

theorem sum_counts {s : Crp} (h : Inv s) : s.counts.vals.sum = s.N := by
  rw [counts_vals_eq h, h.hN]
  have := sum_counts_aux s.data s.counts.keys h.wfCounts
    (fun t ht => (mem_keys_counts h t).mpr ht)
  rw [← this]
  induction s.counts.keys with
  | nil => simp
  | cons a l ih => simp [ih]

theorem counts_pos {s : Crp} (h : Inv s) {t : Tab} {c : Int} (hc : s.counts.get? t = some c) :
    0 < c := by
  rw [h.hCounts t, countOf] at hc
  split at hc <;> simp at hc; omega

theorem alpha_run {s : Crp} (h : 0 < s.alpha) (ops : List Op) : 0 < (s.run ops).alpha := by
  unfold run
  induction ops generalizing s with
  | nil => exact h
  | cons op ops ih =>
    apply ih
    cases op with
    | inc r x =>
      change 0 < (s.incorporate r x).state.alpha
      unfold incorporate; split
      · exact h
      · dsimp only; split <;> exact h
    | unc r =>
      change 0 < (s.unincorporate r).state.alpha
      unfold unincorporate; split
      · exact h
      · dsimp only; split
        · exact h
        · split <;> exact h
    | hyp a =>
      change 0 < (s.setHypers a).state.alpha
      unfold setHypers; split
      · assumption
      · exact h

end Crp
end Cgpm
