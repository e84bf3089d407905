import Verif.Spec.Neighbours
import Verif.Lemmas.NetSample
import Verif.Lemmas.Entropy
import Mathlib.Data.List.Sort

/-! Lemmas on distances and nearest points. -/
namespace Cgpm.Props
open Cgpm Cgpm.Neighbours

theorem maxDist_le (r : ℝ) (p q : List ℝ) : maxDist p q ≤ r ↔ Within r p q := by
  unfold maxDist Within
  induction p generalizing q with
  | nil => simp
  | cons a p ih =>
    cases q with
    | nil => simp
    | cons b q =>
      simp only [List.zipWith_cons_cons, List.foldr_cons, max_le_iff, ih, List.zip_cons_cons,
        List.mem_cons, forall_eq_or_imp]
      tauto

theorem maxDist_nonneg (p q : List ℝ) : 0 ≤ maxDist p q := ((maxDist_le _ p q).mp le_rfl).1

theorem ball_eq (x : Pts) (p : List ℝ) (r : ℝ) : ball x p r = near x r p := by
  unfold ball near
  congr 1
  funext q
  simp [maxDist_le]

theorem near_eq (x : Pts) (p : List ℝ) (r : ℝ) :
    near x r p = (x.map (maxDist p)).countP (fun a => decide (a ≤ r)) := by
  rw [List.countP_map, ← ball_eq]
  rfl

/-- The `m`-th smallest number of a list. -/
noncomputable def nth (l : List ℝ) (m : Nat) : ℝ := (l.mergeSort (fun a b => decide (a ≤ b))).getD m 0

theorem nth_spec {l : List ℝ} {m : Nat} (hm : m < l.length) :
    m + 1 ≤ l.countP (fun a => decide (a ≤ nth l m)) ∧
      ∀ r < nth l m, l.countP (fun a => decide (a ≤ r)) < m + 1 := by
  set s := l.mergeSort (fun a b => decide (a ≤ b)) with hs
  have hp : s.Perm l := List.mergeSort_perm _ _
  have hso : s.Pairwise (· ≤ ·) := List.pairwise_mergeSort' (r := (· ≤ ·)) l
  have hms : m < s.length := by rw [hp.length_eq]; exact hm
  have hn : nth l m = s[m] := by
    unfold nth; rw [← hs, List.getD_eq_getElem?_getD, List.getElem?_eq_getElem hms]; rfl
  have hpw := List.pairwise_iff_getElem.mp hso
  refine ⟨?_, fun r hr => ?_⟩
  · rw [← hp.countP_eq, hn]
    have h1 : (s.take (m + 1)).countP (fun a => decide (a ≤ s[m])) = (s.take (m + 1)).length := by
      rw [List.countP_eq_length]
      intro a ha
      obtain ⟨i, hi, rfl⟩ := List.mem_iff_getElem.mp ha
      simp only [List.length_take] at hi
      rw [List.getElem_take, decide_eq_true_eq]
      rcases Nat.lt_or_ge i m with h | h
      · exact hpw i m _ hms h
      · have : i = m := by omega
        subst this; exact le_rfl
    have h2 : (s.take (m + 1)).countP (fun a => decide (a ≤ s[m])) ≤ s.countP (fun a => decide (a ≤ s[m])) :=
      (List.take_sublist _ _).countP_le
    rw [h1, List.length_take] at h2
    omega
  · rw [hn] at hr
    rw [← hp.countP_eq, ← List.take_append_drop m s, List.countP_append]
    have h1 : (s.drop m).countP (fun a => decide (a ≤ r)) = 0 := by
      rw [List.countP_eq_zero]
      intro a ha
      obtain ⟨i, hi, rfl⟩ := List.mem_iff_getElem.mp ha
      simp only [List.length_drop] at hi
      rw [List.getElem_drop, decide_eq_true_eq, not_le]
      refine hr.trans_le ?_
      rcases Nat.eq_zero_or_pos i with h | h
      · subst h; exact le_rfl
      · exact hpw m (m + i) hms _ (by omega)
    have h2 : (s.take m).countP (fun a => decide (a ≤ r)) ≤ (s.take m).length := List.countP_le_length
    rw [List.length_take] at h2
    omega

theorem nth_perm {l l' : List ℝ} (h : l.Perm l') (m : Nat) : nth l m = nth l' m := by
  have : l.mergeSort (fun a b => decide (a ≤ b)) = l'.mergeSort (fun a b => decide (a ≤ b)) :=
    List.Perm.eq_of_pairwise' (r := (· ≤ ·)) (List.pairwise_mergeSort' (r := (· ≤ ·)) l)
      (List.pairwise_mergeSort' (r := (· ≤ ·)) l')
      ((List.mergeSort_perm _ _).trans (h.trans (List.mergeSort_perm _ _).symm))
  unfold nth; rw [this]

/-- The distance to the `k`-th nearest point, the first one being number 0. -/
noncomputable def eps (x : Pts) (k : Nat) (p : List ℝ) : ℝ := nth (x.map (maxDist p)) k

theorem eps_nearest {x : Pts} {k : Nat} (hk : k < x.length) (p : List ℝ) :
    IsNearest x (k + 1) p (eps x k p) := by
  obtain ⟨h1, h2⟩ := nth_spec (l := x.map (maxDist p)) (m := k) (by simpa using hk)
  exact ⟨by rw [near_eq]; exact h1, fun r hr => by rw [near_eq]; exact h2 r hr⟩

theorem isNearest_unique {x : Pts} {m : Nat} {p : List ℝ} {r r' : ℝ} (h : IsNearest x m p r)
    (h' : IsNearest x m p r') : r = r' := by
  rcases lt_trichotomy r r' with hl | he | hl
  · exact absurd (h'.2 r hl) (not_lt.mpr h.1)
  · exact he
  · exact absurd (h.2 r' hl) (not_lt.mpr h'.1)

theorem query_get (x : Pts) (p : List ℝ) {m k : Nat} (hm : k < m) (hk : k < x.length) :
    (query x p m)[k]? = some (eps x k p) := by
  unfold query eps nth
  rw [List.getElem?_take, if_pos hm, List.getD_eq_getElem?_getD, List.getElem?_eq_getElem (by simpa using hk)]
  rfl

theorem kth_ok {x : Pts} {k : Nat} (h0 : k ≠ 0) (hk : k < x.length) (p : List ℝ) :
    kth x k p = .ok (eps x k p) := by
  unfold kth
  rw [if_neg h0, query_get x p (Nat.lt_succ_self k) hk]

theorem kthOther_ok {x : Pts} {k : Nat} (h0 : 2 ≤ k) (hk : k - 1 < x.length) (p : List ℝ) :
    kthOther x k p = .ok (eps x (k - 1) p) := by
  unfold kthOther
  rw [if_neg (by omega), if_neg (by omega), query_get x p (by omega) hk]

theorem eps_nonneg {x : Pts} {k : Nat} (hk : k < x.length) (p : List ℝ) : 0 ≤ eps x k p := by
  by_contra h
  have h1 := (eps_nearest hk p).1
  have : near x (eps x k p) p = 0 := by
    unfold near
    rw [List.countP_eq_zero]
    intro q _
    simp only [decide_eq_true_eq]
    exact fun hw => h hw.1
  omega

theorem eps_pos_iff {x : Pts} {k : Nat} (hk : k < x.length) (p : List ℝ) :
    0 < eps x k p ↔ near x 0 p ≤ k := by
  constructor
  · intro h
    exact Nat.lt_succ_iff.mp ((eps_nearest hk p).2 0 h)
  · intro h
    rcases (eps_nonneg hk p).lt_or_eq with h1 | h1
    · exact h1
    · have := (eps_nearest hk p).1
      rw [← h1] at this
      omega

theorem pyLog_ok {r : ℝ} (h : 0 < r) : pyLog r = .ok (Real.log r) := if_pos h

/-- The logarithms of a list of numbers, one of which is 0. -/
theorem logs_fail {l : List ℝ} {a : ℝ} (ha : a ∈ l) (h : ¬ 0 < a) : Net.collect pyLog l = .error .valueError := by
  induction l with
  | nil => cases ha
  | cons b t ih =>
    by_cases hb : 0 < b
    · rcases List.mem_cons.mp ha with rfl | hat
      · exact absurd hb h
      · simp only [Net.collect, pyLog_ok hb, ih hat]
        rfl
    · have : pyLog b = .error .valueError := if_neg hb
      simp only [Net.collect, this]

theorem logs_ok {l : List ℝ} (h : ∀ a ∈ l, 0 < a) : Net.collect pyLog l = .ok (l.map Real.log) :=
  Net.collect_ok _ _ _ fun a ha => pyLog_ok (h a ha)

theorem collect_kth {x : Pts} {k : Nat} (h0 : k ≠ 0) (hk : k < x.length) (l : Pts) :
    Net.collect (kth x k) l = .ok (l.map (eps x k)) :=
  Net.collect_ok _ _ _ fun p _ => kth_ok h0 hk p

/-- The estimate of the entropy. -/
noncomputable def entropyVal (psi : Nat → ℝ) (x : Pts) (k : Nat) (base : ℝ) : ℝ :=
  (psi x.length - psi k + dim x * Real.log 2 + dim x * (((x.map fun p => Real.log (eps x k p)).sum) / x.length))
    / Real.log base

theorem entropyOf_ok {psi : Nat → ℝ} {x : Pts} {k : Nat} (h0 : k ≠ 0) (hk : k < x.length) {base : ℝ}
    (hx : ∀ p ∈ x, near x 0 p ≤ k) : entropyOf psi x k base = .ok (entropyVal psi x k base) := by
  unfold entropyOf entropyVal
  have : Net.collect pyLog (x.map (eps x k)) = .ok ((x.map (eps x k)).map Real.log) := by
    refine logs_ok fun a ha => ?_
    obtain ⟨p, hp, rfl⟩ := List.mem_map.mp ha
    exact (eps_pos_iff hk p).mpr (hx p hp)
  simp only [collect_kth h0 hk, this, List.map_map, mean, List.length_map]
  rfl

theorem entropyOf_tie {psi : Nat → ℝ} {x : Pts} {k : Nat} (h0 : k ≠ 0) (hk : k < x.length) {base : ℝ}
    {p : List ℝ} (hp : p ∈ x) (hx : k < near x 0 p) : entropyOf psi x k base = .error .valueError := by
  unfold entropyOf
  have : Net.collect pyLog (x.map (eps x k)) = .error .valueError :=
    logs_fail (List.mem_map_of_mem hp) fun h => absurd ((eps_pos_iff hk p).mp h) (by omega)
  simp only [collect_kth h0 hk, this]

theorem kth_zero (x : Pts) (p : List ℝ) : kth x 0 p = .error .indexError := if_pos rfl

theorem entropyOf_zero (psi : Nat → ℝ) {x : Pts} (hx : x ≠ []) (base : ℝ) :
    entropyOf psi x 0 base = .error .indexError := by
  unfold entropyOf
  cases x with
  | nil => exact absurd rfl hx
  | cons a t => simp only [Net.collect, kth_zero]

/-! ### Maps that keep distances -/

theorem eps_map {f : List ℝ → List ℝ} {x : Pts} {p : List ℝ} (k : Nat)
    (hf : ∀ q ∈ x, maxDist (f p) (f q) = maxDist p q) : eps (x.map f) k (f p) = eps x k p := by
  unfold eps
  rw [List.map_map]
  congr 1
  exact List.map_congr_left fun q hq => hf q hq

theorem near_map {f : List ℝ → List ℝ} {x : Pts} {p : List ℝ} (r : ℝ)
    (hf : ∀ q ∈ x, maxDist (f p) (f q) = maxDist p q) : near (x.map f) r (f p) = near x r p := by
  rw [near_eq, near_eq, List.map_map]
  congr 1
  exact List.map_congr_left fun q hq => hf q hq

theorem eps_perm {x x' : Pts} (h : x.Perm x') (k : Nat) (p : List ℝ) : eps x k p = eps x' k p :=
  nth_perm (h.map _) k

theorem near_perm {x x' : Pts} (h : x.Perm x') (r : ℝ) (p : List ℝ) : near x r p = near x' r p := by
  unfold near; exact h.countP_eq _

theorem maxDist_move (p q v : List ℝ) (hp : p.length = v.length) (hq : q.length = v.length) :
    maxDist (List.zipWith (· + ·) p v) (List.zipWith (· + ·) q v) = maxDist p q := by
  unfold maxDist
  congr 1
  apply List.ext_getElem
  · simp [hp, hq]
  · intro i h1 h2
    simp

theorem maxDist_append (p q p' q' : List ℝ) (h : p.length = p'.length) :
    maxDist (p ++ q) (p' ++ q') = max (maxDist p p') (maxDist q q') := by
  apply le_antisymm
  · rw [maxDist_le]
    refine ⟨le_max_of_le_left (maxDist_nonneg _ _), ?_⟩
    rw [List.zip_append h]
    intro ab hab
    rcases List.mem_append.mp hab with hm | hm
    · exact le_max_of_le_left (((maxDist_le _ p p').mp le_rfl).2 ab hm)
    · exact le_max_of_le_right (((maxDist_le _ q q').mp le_rfl).2 ab hm)
  · have := (maxDist_le _ (p ++ q) (p' ++ q')).mp le_rfl
    unfold Within at this
    rw [List.zip_append h] at this
    refine max_le ((maxDist_le _ _ _).mpr ⟨this.1, fun ab hab => ?_⟩)
      ((maxDist_le _ _ _).mpr ⟨this.1, fun ab hab => ?_⟩)
    · exact this.2 ab (List.mem_append_left _ hab)
    · exact this.2 ab (List.mem_append_right _ hab)

theorem maxDist_scale (c : ℝ) (p q : List ℝ) : maxDist (p.map (c * ·)) (q.map (c * ·)) = |c| * maxDist p q := by
  unfold maxDist
  induction p generalizing q with
  | nil => simp
  | cons a p ih =>
    cases q with
    | nil => simp
    | cons b q =>
      simp only [List.map_cons, List.zipWith_cons_cons, List.foldr_cons, ih]
      rw [← mul_sub, abs_mul, mul_max_of_nonneg _ _ (abs_nonneg c)]

end Cgpm.Props
