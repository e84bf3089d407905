import Verif.Props.Knn
import Mathlib.Data.List.Sort

/-!
C66: a concrete nearest neighbour model, and where the code departs from its documentation.
-/
namespace Cgpm.Props
open Cgpm Cgpm.Spec Cgpm.Spec.Knn MeasureTheory

open Classical in
/-- A nearest neighbour search: sort all the points. -/
noncomputable def sortTree : Knn.Tree := fun X x k =>
  ((List.range X.length).insertionSort
    fun i j => Knn.dist (X.getD i []) x ≤ Knn.dist (X.getD j []) x).take k

/-- What is assumed of the nearest neighbour search can be met. -/
theorem sortTree_finds : Finds sortTree := by
  classical
  have hp : ∀ (X : List (List ℝ)) (x : List ℝ), ((List.range X.length).insertionSort
      fun i j => Knn.dist (X.getD i []) x ≤ Knn.dist (X.getD j []) x).Perm (List.range X.length) :=
    fun X x => List.perm_insertionSort _ _
  have hs : ∀ (X : List (List ℝ)) (x : List ℝ), ((List.range X.length).insertionSort
      fun i j => Knn.dist (X.getD i []) x ≤ Knn.dist (X.getD j []) x).Pairwise
        fun i j => Knn.dist (X.getD i []) x ≤ Knn.dist (X.getD j []) x := fun X x => by
    haveI : Std.Total fun i j => Knn.dist (X.getD i []) x ≤ Knn.dist (X.getD j []) x :=
      ⟨fun i j => le_total _ _⟩
    haveI : IsTrans Nat fun i j => Knn.dist (X.getD i []) x ≤ Knn.dist (X.getD j []) x :=
      ⟨fun i j k => le_trans⟩
    exact List.pairwise_insertionSort _ _
  refine ⟨fun X x k h => ?_, fun X x k h => ?_, fun X x k h i hi => ?_, fun X x k h => ?_,
    fun X x k h i hi j hj hnot => ?_⟩
  · unfold sortTree
    rw [List.length_take, (hp X x).length_eq, List.length_range]
    omega
  · exact ((hp X x).nodup_iff.mpr List.nodup_range).sublist (List.take_sublist _ _)
  · exact List.mem_range.mp ((hp X x).mem_iff.mp (List.mem_of_mem_take hi))
  · exact (hs X x).sublist (List.take_sublist _ _)
  · have h1 := hs X x
    rw [← List.take_append_drop k (List.insertionSort _ _), List.pairwise_append] at h1
    refine h1.2.2 i hi j ?_
    have := (hp X x).mem_iff.mpr (List.mem_range.mpr hj)
    rw [← List.take_append_drop k (List.insertionSort _ _), List.mem_append] at this
    exact this.resolve_left hnot

/-- A numerical variable and a nominal one with two categories.  The first row is the only one in
category 0; the last row has a missing cell. -/
noncomputable def knnEx : Knn where
  outputs := [0, 1]
  types := [.numerical, .nominal 2]
  rows := ⟨4, [(0, [some 0, some 0]), (1, [some 1, some 1]), (2, [some (-1), some 1]), (3, [none, some 1])]⟩
  K := 2
  M := 1

theorem knnEx_cell (r : Row) (q : Col) : cell knnEx r q =
    if r = 0 ∧ q = 0 then some 0 else if r = 0 ∧ q = 1 then some 0
    else if r = 1 ∧ q = 0 then some 1 else if r = 1 ∧ q = 1 then some 1
    else if r = 2 ∧ q = 0 then some (-1) else if r = 2 ∧ q = 1 then some 1
    else if r = 3 ∧ q = 1 then some 1 else none := by
  have hq : (q = 0 ∧ [0, 1].idxOf q = 0) ∨ (q = 1 ∧ [0, 1].idxOf q = 1) ∨
      (q ≠ 0 ∧ q ≠ 1 ∧ [0, 1].idxOf q = 2) := by
    by_cases h0 : q = 0
    · left; subst h0; exact ⟨rfl, rfl⟩
    · by_cases h1 : q = 1
      · right; left; subst h1; exact ⟨rfl, rfl⟩
      · right; right
        refine ⟨h0, h1, ?_⟩
        rw [List.idxOf_eq_length (by simp [h0, h1])]
        rfl
  change ((Dict.get? [((0 : Row), [some (0 : ℝ), some 0]), (1, [some 1, some 1]),
    (2, [some (-1), some 1]), (3, [none, some 1])] r).bind fun vs => vs[[0, 1].idxOf q]?).join = _
  by_cases h0 : r = 0
  · subst h0
    rcases hq with ⟨rfl, -⟩ | ⟨rfl, -⟩ | ⟨a, b, e⟩
    · simp [Dict.get?]
    · simp [Dict.get?]
    · rw [e]; simp [Dict.get?, a, b]
  by_cases h1 : r = 1
  · subst h1
    rcases hq with ⟨rfl, -⟩ | ⟨rfl, -⟩ | ⟨a, b, e⟩
    · simp [Dict.get?]
    · simp [Dict.get?]
    · rw [e]; simp [Dict.get?, a, b]
  by_cases h2 : r = 2
  · subst h2
    rcases hq with ⟨rfl, -⟩ | ⟨rfl, -⟩ | ⟨a, b, e⟩
    · simp [Dict.get?]
    · simp [Dict.get?]
    · rw [e]; simp [Dict.get?, a, b]
  by_cases h3 : r = 3
  · subst h3
    rcases hq with ⟨rfl, -⟩ | ⟨rfl, -⟩ | ⟨a, b, e⟩
    · simp [Dict.get?]
    · simp [Dict.get?]
    · rw [e]; simp [Dict.get?, a, b]
  · rw [show Dict.get? [((0 : Row), [some (0 : ℝ), some 0]), (1, [some 1, some 1]),
      (2, [some (-1), some 1]), (3, [none, some 1])] r = none by
        simp [Dict.get?, Ne.symm h0, Ne.symm h1, Ne.symm h2, Ne.symm h3]]
    simp [h0, h1, h2, h3]

theorem knnEx_typ (q : Col) : typ knnEx q = if q = 1 then .nominal 2 else .numerical := by
  change [KType.numerical, KType.nominal 2].getD ([0, 1].idxOf q) .numerical = _
  by_cases h0 : q = 0
  · subst h0; rfl
  · by_cases h1 : q = 1
    · subst h1; rfl
    · rw [List.idxOf_eq_length (by simp [h0, h1]), if_neg h1]; rfl

theorem knnEx_valid : Valid knnEx := by
  refine ⟨⟨by decide, by change List.Nodup [0, 1, 2, 3]; decide, rfl, ?_⟩, rfl, le_rfl,
    by change 1 ≤ 2; omega, le_rfl, ?_, ?_⟩
  · intro r vs h
    have h' := Dict.mem_of_get? h
    change (r, vs) ∈ [((0 : Row), [some (0 : ℝ), some 0]), (1, [some 1, some 1]),
      (2, [some (-1), some 1]), (3, [none, some 1])] at h'
    simp only [List.mem_cons, Prod.mk.injEq, List.not_mem_nil, or_false] at h'
    rcases h' with ⟨-, rfl⟩ | ⟨-, rfl⟩ | ⟨-, rfl⟩ | ⟨-, rfl⟩ <;> rfl
  · intro q hq k hk
    rw [knnEx_typ] at hk
    split at hk
    · cases hk; omega
    · cases hk
  · intro q hq k hk r v hv
    rw [knnEx_typ] at hk
    split at hk
    · next h =>
      cases hk
      subst h
      rw [knnEx_cell] at hv
      by_cases h0 : r = 0
      · subst h0; simp at hv; exact ⟨0, by omega, by simp [← hv]⟩
      by_cases h1 : r = 1
      · subst h1; simp at hv; exact ⟨1, by omega, by simp [← hv]⟩
      by_cases h2 : r = 2
      · subst h2; simp at hv; exact ⟨1, by omega, by simp [← hv]⟩
      by_cases h3 : r = 3
      · subst h3; simp at hv; exact ⟨1, by omega, by simp [← hv]⟩
      · simp [h0, h1, h2, h3] at hv
    · cases hk

theorem knnEx_ex (qs : List Col) (h : ∀ q ∈ qs, q = 0 ∨ q = 1) :
    Spec.Knn.exemplars knnEx qs = if 0 ∈ qs then [0, 1, 2] else [0, 1, 2, 3] := by
  change [0, 1, 2, 3].filter (fun r => qs.all fun q => (cell knnEx r q).isSome) = _
  have hr : ∀ r : Nat, r < 3 → (qs.all fun q => (cell knnEx r q).isSome) = true := by
    intro r hr
    rw [List.all_eq_true]
    intro q hq
    rw [knnEx_cell]
    have : r = 0 ∨ r = 1 ∨ r = 2 := by omega
    rcases h q hq with rfl | rfl <;> rcases this with rfl | rfl | rfl <;> simp
  rw [List.filter_cons, if_pos (hr 0 (by omega)), List.filter_cons, if_pos (hr 1 (by omega)),
    List.filter_cons, if_pos (hr 2 (by omega)), List.filter_cons]
  by_cases h0 : 0 ∈ qs
  · rw [if_pos h0, if_neg (by
      rw [List.all_eq_true]
      intro hh
      have := hh 0 h0
      rw [knnEx_cell] at this
      simp at this)]
    rfl
  · rw [if_neg h0, if_pos (by
      rw [List.all_eq_true]
      intro q hq
      rcases h q hq with rfl | rfl
      · exact absurd hq h0
      · rw [knnEx_cell]; simp)]
    rfl

/-- The nominal variable, given a value of the numerical one. -/
theorem knnEx_asked (x : ℝ) : Asked knnEx none [1] [(0, x)] [(0, x)] where
  nodup := by decide
  some := by simp
  known := by change ∀ q ∈ [1], q ∈ [0, 1]; decide
  constraints := ⟨by simp [Dict.keys], by intro q hq; simp [Dict.keys] at hq; subst hq; exact List.mem_cons_self⟩
  proper := by
    intro p hp k hk
    obtain rfl := List.mem_singleton.mp hp
    rw [knnEx_typ] at hk
    cases hk
  disjoint := by simp [Dict.keys]
  evidence := kde_evidence_none (by simp [Dict.keys])
  given := by simp
  enough := by
    rw [knnEx_ex _ (by simp [Dict.keys]), if_pos (by simp [Dict.keys])]
    exact (by decide : 2 ≤ 3)

theorem knnEx_R (x : ℝ) : Spec.Knn.exemplars knnEx (Dict.keys [((1 : Col), (0 : ℝ))] ++ Dict.keys [((0 : Col), x)])
    = [0, 1, 2] := by
  rw [knnEx_ex _ (by simp [Dict.keys]), if_pos (by simp [Dict.keys])]

theorem knnEx_proper {j : Nat} (hj : j < 2) : Proper knnEx [(1, (j : ℝ))] := by
  intro p hp k hk
  obtain rfl := List.mem_singleton.mp hp
  rw [knnEx_typ] at hk
  cases hk
  exact ⟨j, hj, rfl⟩

theorem knnEx_far (x : ℝ) (r : Row) : far knnEx [(0, x)] r = ((cell knnEx r 0).getD 0 - x) ^ 2 := by
  unfold far
  rw [List.map_singleton, List.sum_singleton, knnEx_typ]
  rfl

/-- The localities of a single row are the rows themselves. -/
theorem knnEx_locality {x : ℝ} {n : Row} (hn : n ∈ [0, 1, 2]) {L : List Row}
    (h : Locality knnEx [0, 1, 2] (Dict.keys [((1 : Col), (0 : ℝ))] ++ Dict.keys [((0 : Col), x)]) n L) :
    L = [n] := by
  obtain ⟨s, rfl⟩ := List.length_eq_one_iff.mp (show L.length = 1 from h.length)
  by_contra hne
  have hsn : n ≠ s := fun e => hne (by rw [e])
  have h1 := h.near s List.mem_cons_self n hn (by simpa using hsn)
  have hs := h.rows s List.mem_cons_self
  unfold apart at h1
  simp only [Dict.keys, List.map_cons, List.map_nil, List.cons_append, List.nil_append, List.sum_cons,
    List.sum_nil, knnEx_typ] at h1
  simp only [List.mem_cons, List.not_mem_nil, or_false] at hn hs
  rcases hn with rfl | rfl | rfl <;> rcases hs with rfl | rfl | rfl <;>
    first
    | exact hsn rfl
    | (simp [knnEx_cell, gap] at h1; try norm_num at h1)

theorem knnEx_localities {x : ℝ} {ns : List Row} (hn : ∀ n ∈ ns, n ∈ [0, 1, 2]) {Ls : List (List Row)}
    (h : List.Forall₂ (Locality knnEx [0, 1, 2]
      (Dict.keys [((1 : Col), (0 : ℝ))] ++ Dict.keys [((0 : Col), x)])) ns Ls) :
    Ls = ns.map fun n => [n] := by
  induction h with
  | nil => rfl
  | cons h _ ih =>
    rw [List.map_cons, ← ih fun m hm => hn m (List.mem_cons_of_mem _ hm),
      knnEx_locality (hn _ List.mem_cons_self) h]

theorem knnEx_mixture (ns : List Row) (j : ℝ) :
    mixture knnEx (ns.map fun n => [n]) [(1, j)]
      = (ns.map fun n => if (cell knnEx n 1).getD 0 = j then (1 : ℝ) else 0).sum / ns.length := by
  unfold mixture
  rw [List.map_map, List.length_map]
  congr 2
  refine List.map_congr_left fun n _ => ?_
  rw [Function.comp_apply, List.map_singleton, List.prod_singleton, knnEx_typ, if_pos rfl]
  unfold localDensity values
  simp only [List.map_singleton, List.length_singleton, Nat.cast_one, div_one, List.countP_singleton]
  by_cases h : (cell knnEx n 1).getD 0 = j <;> simp [h]

theorem isLog_zero {a : Fl} (h : IsLog a 0) : a = .ninf := by
  have h2 := h.2
  cases a with
  | nan => exact absurd rfl h.1
  | ninf => rfl
  | pinf => simp [mass] at h2
  | fin x =>
    rw [mass, ENNReal.ofReal_zero, ENNReal.ofReal_eq_zero] at h2
    exact absurd (Real.exp_pos x) (not_lt.mpr h2)

theorem isLog_pos {a : Fl} {p : ℝ} (hp : 0 < p) (h : IsLog a p) : a = .fin (Real.log p) := by
  have h2 := h.2
  cases a with
  | nan => exact absurd rfl h.1
  | ninf =>
    rw [mass] at h2
    exact absurd (ENNReal.ofReal_eq_zero.mp h2.symm) (not_le.mpr hp)
  | pinf => rw [mass] at h2; exact absurd h2.symm ENNReal.ofReal_ne_top
  | fin x =>
    rw [mass, ENNReal.ofReal_eq_ofReal_iff (Real.exp_pos x).le hp.le] at h2
    rw [← h2, Real.log_exp]

/-- The hypotheses of `C66_nearest_partial` hold: at 1/4 the two first rows are the nearest ones. -/
theorem knnEx_nearest : Nearest knnEx [0, 1, 2] [(0, 1 / 4)] [0, 1] where
  length := rfl
  nodup := by decide
  rows := by decide
  near := by
    intro n hn s hs hnot
    rw [knnEx_far, knnEx_far]
    simp only [List.mem_cons, List.not_mem_nil, or_false] at hn hs hnot
    rcases hs with rfl | rfl | rfl
    · simp at hnot
    · simp at hnot
    · rcases hn with rfl | rfl <;> simp [knnEx_cell] <;> norm_num

/-- `logpdf` of both categories at 1/4 is log 1/2, and C66_logpdf, C66_simulate, C66_normalised and
C66_many_partial apply. -/
example (j : Nat) (hj : j < 2) :
    Knn.logpdf sortTree knnEx none (Mv.ofDict [(1, (j : ℝ))]) [(0, 1 / 4)] []
      = .pure (.fin (Real.log (1 / 2))) := by
  have hR : Spec.Knn.exemplars knnEx (Dict.keys [((1 : Col), (j : ℝ))] ++ Dict.keys [((0 : Col), (1 / 4 : ℝ))])
      = [0, 1, 2] := knnEx_R _
  obtain ⟨a, ns, Ls, h1, h2, h3, h4⟩ := C66_nearest_partial sortTree_finds knnEx_valid
    (T := [(1, (j : ℝ))]) (knnEx_asked (1 / 4)) (knnEx_proper hj) (by rw [hR]; exact knnEx_nearest)
  rw [hR] at h3
  rw [knnEx_localities (fun n hn => by
    have := h2.mem_iff.mp hn
    simp only [List.mem_cons, List.not_mem_nil, or_false] at this ⊢
    exact this.elim .inl fun h => .inr (.inl h)) h3, knnEx_mixture, h2.length_eq, (h2.map _).sum_eq] at h4
  rw [h1]
  have h01 : j = 0 ∨ j = 1 := by omega
  rw [isLog_pos (a := a) (p := 1 / 2) (by norm_num) ?_]
  convert h4 using 1
  rcases h01 with rfl | rfl <;> simp [knnEx_cell]

open Classical in
example (S : Col → Set ℝ) (hS : ∀ q, MeasurableSet (S q)) :
    (Knn.simulate sortTree knnEx none [1] [(0, 1 / 4)] [] (some 2)).prob
        (fun a => ∃ l, a = .inr l ∧ List.Forall₂ (Mv.InBox [1]) [S, S] l)
      = ((Knn.simulate sortTree knnEx none [1] [(0, 1 / 4)] [] none).prob
          fun a => ∃ d, a = .inl d ∧ Mv.InBox [1] S d) ^ 2 := by
  have hN : Nearest knnEx (Spec.Knn.exemplars knnEx ([1] ++ Dict.keys [((0 : Col), (1 / 4 : ℝ))]))
      [(0, 1 / 4)] [0, 1] := by
    rw [show Spec.Knn.exemplars knnEx ([1] ++ Dict.keys [((0 : Col), (1 / 4 : ℝ))]) = [0, 1, 2] from
      knnEx_R _]
    exact knnEx_nearest
  have := C66_many_partial sortTree_finds knnEx_valid (knnEx_asked (1 / 4)) hN (Ss := [S, S]) (by simp)
    (by simpa using hS)
  rw [C66_simulate sortTree_finds knnEx_valid (knnEx_asked (1 / 4)) hS]
  simp only [List.map_cons, List.map_nil, List.prod_cons, List.prod_nil, mul_one] at this
  rw [pow_two]
  exact this

/-! ### Ties -/

theorem knnEx_neighbors {ns : List Row} (hl : ns.length = 2) (hn : ns.Nodup) (hr : ∀ n ∈ ns, n ∈ [0, 1, 2]) :
    Neighbors knnEx [0, 1, 2] [(0, 0)] ns := by
  classical
  refine ⟨hl, hn, hr, fun n h => ?_⟩
  change _ < 2
  have := hr n h
  simp only [List.mem_cons, List.not_mem_nil, or_false] at this
  simp only [knnEx_far, List.countP_cons, List.countP_nil]
  rcases this with rfl | rfl | rfl <;> norm_num [knnEx_cell]

theorem knnEx_many : knnEx.K < [0, 1, 2].countP fun n =>
    ([0, 1, 2].countP fun s => far knnEx [(0, 0)] s < far knnEx [(0, 0)] n) < knnEx.K := by
  classical
  rw [List.countP_eq_length.mpr]
  · exact (by decide : 2 < 3)
  · intro n hn
    rw [decide_eq_true_iff]
    by_cases h0 : n = 0
    · exact (knnEx_neighbors (ns := [0, 1]) rfl (by decide) (by decide)).near n (by simp [h0])
    · refine (knnEx_neighbors (ns := [1, 2]) rfl (by decide) (by decide)).near n ?_
      simp only [List.mem_cons, List.not_mem_nil, or_false] at hn ⊢
      exact hn.resolve_left h0

open Classical in
/-- **C66, violated** With ties at the distance of the K-th neighbour, rows that are nearer may be left
out, and the answers of `logpdf` to one query differ: here the nearest row is the only one in category 0,
and `logpdf` of this category is sometimes log 1/2 and sometimes -inf. -/
theorem C66_ties_violated : ∃ o, Valid o ∧ ∃ C T : Dict Col ℝ, Asked o none T.keys C C ∧ Proper o T ∧
    (∃ n ∈ Spec.Knn.exemplars o (T.keys ++ C.keys), ∀ s ∈ Spec.Knn.exemplars o (T.keys ++ C.keys),
      s ≠ n → far o C n < far o C s ∧ ∃ q v, T.get? q = some v ∧ cell o n q = some v ∧
        cell o s q ≠ some v) ∧
    ∀ kd, Finds kd →
      0 < (Knn.logpdf kd o none (Mv.ofDict T) C []).prob (· = .ninf) ∧
      0 < (Knn.logpdf kd o none (Mv.ofDict T) C []).prob (· = .fin (Real.log (1 / 2))) := by
  have hR := knnEx_R 0
  have hp : Proper knnEx [(1, (0 : ℝ))] := by simpa using knnEx_proper (j := 0) (by omega)
  refine ⟨knnEx, knnEx_valid, [(0, 0)], [(1, 0)], knnEx_asked 0, hp,
    ⟨0, by rw [hR]; simp, fun s hs hne => ?_⟩, fun kd hkd => ⟨?_, ?_⟩⟩
  · rw [hR] at hs
    simp only [List.mem_cons, List.not_mem_nil, or_false] at hs
    rcases hs with rfl | rfl | rfl
    · exact absurd rfl hne
    · refine ⟨by rw [knnEx_far, knnEx_far]; simp [knnEx_cell], 1, 0, rfl, ?_, ?_⟩ <;>
        simp [knnEx_cell]
    · refine ⟨by rw [knnEx_far, knnEx_far]; simp [knnEx_cell], 1, 0, rfl, ?_, ?_⟩ <;>
        simp [knnEx_cell]
  · obtain ⟨a, Ls, h1, h2, h3⟩ := C66_ties hkd knnEx_valid (T := [(1, 0)]) (knnEx_asked 0) hp hR.symm
      knnEx_many (knnEx_neighbors (ns := [1, 2]) rfl (by decide) (by decide))
    rw [knnEx_localities (by decide) h1, knnEx_mixture] at h2
    rw [← isLog_zero (a := a) ?_]
    · exact h3
    · convert h2 using 1
      simp [knnEx_cell]
  · obtain ⟨a, Ls, h1, h2, h3⟩ := C66_ties hkd knnEx_valid (T := [(1, 0)]) (knnEx_asked 0) hp hR.symm
      knnEx_many (knnEx_neighbors (ns := [0, 1]) rfl (by decide) (by decide))
    rw [knnEx_localities (by decide) h1, knnEx_mixture] at h2
    rw [← isLog_pos (a := a) (p := 1 / 2) (by norm_num) ?_]
    · exact h3
    · convert h2 using 1
      simp [knnEx_cell]

/-- The mean of the squares exceeds the square of the mean. -/
theorem mean_sq_lt {l : List ℝ} {x y : ℝ} (hx : x ∈ l) (hy : y ∈ l) (h : x ≠ y) :
    (l.sum / l.length) ^ 2 < (l.map fun z => z ^ 2).sum / l.length := by
  have hl : (0 : ℝ) < l.length := by exact_mod_cast List.length_pos_of_mem hx
  obtain ⟨m, hm⟩ : ∃ m, m = l.sum / l.length := ⟨_, rfl⟩
  rw [← hm]
  have hpos : 0 < (l.map fun z => (z - m) ^ 2).sum := by
    have hnn : ∀ z ∈ l.map (fun z => (z - m) ^ 2), 0 ≤ z := by
      intro z hz
      obtain ⟨w, -, rfl⟩ := List.mem_map.mp hz
      positivity
    have : ∃ z ∈ l, z ≠ m := by
      by_contra hc
      push Not at hc
      exact h (by rw [hc x hx, hc y hy])
    obtain ⟨z, hz, hne⟩ := this
    exact lt_of_lt_of_le (by have := sub_ne_zero.mpr hne; positivity)
      (List.single_le_sum hnn _ (List.mem_map_of_mem (f := fun z => (z - m) ^ 2) hz))
  have hexp : (l.map fun z => (z - m) ^ 2).sum
      = (l.map fun z => z ^ 2).sum - 2 * m * l.sum + l.length * m ^ 2 := by
    clear hpos hl hx hy hm
    induction l with
    | nil => simp
    | cons a t ih =>
      simp only [List.map_cons, List.sum_cons, List.length_cons, Nat.cast_add, Nat.cast_one, ih]
      ring
  have hs : l.sum = m * l.length := by rw [hm]; field_simp
  rw [lt_div_iff₀ hl]
  rw [hexp, hs] at hpos
  nlinarith

open Classical in
/-- **C66, violated** With such ties the samples of `N=n` are not independent, since they share the
neighbours. -/
theorem C66_many_violated : ∃ o, Valid o ∧ ∃ (C : Dict Col ℝ) (T : List Col) (S : Col → Set ℝ),
    Asked o none T C C ∧ (∀ q, MeasurableSet (S q)) ∧ ∀ kd, Finds kd →
      ((Knn.simulate kd o none T C [] none).prob fun a => ∃ d, a = .inl d ∧ Mv.InBox T S d) ^ 2
        < (Knn.simulate kd o none T C [] (some 2)).prob fun a =>
            ∃ l, a = .inr l ∧ List.Forall₂ (Mv.InBox T) [S, S] l := by
  have hR : Spec.Knn.exemplars knnEx ([1] ++ Dict.keys [((0 : Col), (0 : ℝ))]) = [0, 1, 2] := knnEx_R 0
  refine ⟨knnEx, knnEx_valid, [(0, 0)], [1], fun _ => {0}, knnEx_asked 0,
    fun _ => measurableSet_singleton 0, fun kd hkd => ?_⟩
  obtain ⟨A, hA0, -, -, h4, -, h6⟩ := knn_core hkd knnEx_valid (knnEx_asked 0)
  obtain ⟨m, m1, m2, m3⟩ := h4 none [fun _ => {0}] (by simp) (by simp) rfl
  obtain ⟨m', m1', m2', m3'⟩ := h4 (some 2) [fun _ => {0}, fun _ => {0}] (by simp) (by simp) rfl
  rw [hR] at h6
  have hval : ∀ Ls, Spec.Kde.total (typ knnEx) [1] (fun d => mixture knnEx Ls d *
      if Mv.InBox [1] (fun _ => {0}) d then 1 else 0) = mixture knnEx Ls [(1, 0)] := by
    intro Ls
    unfold Spec.Kde.total Spec.Kde.over
    rw [knnEx_typ, if_pos rfl]
    simp only [Spec.Kde.total]
    rw [Finset.sum_range_succ, Finset.sum_range_one]
    simp [Mv.InBox, Dict.keys]
  obtain ⟨L0, a0, b0⟩ := h6 knnEx_many [0, 1] (knnEx_neighbors rfl (by decide) (by decide))
  obtain ⟨L1, a1, b1⟩ := h6 knnEx_many [1, 2] (knnEx_neighbors rfl (by decide) (by decide))
  have v0 : mixture knnEx L0 [(1, 0)] = 1 / 2 := by
    rw [knnEx_localities (x := 0) (by decide) b0, knnEx_mixture]
    simp [knnEx_cell]
  have v1 : mixture knnEx L1 [(1, 0)] = 0 := by
    rw [knnEx_localities (x := 0) (by decide) b1, knnEx_mixture]
    simp [knnEx_cell]
  have e1 := knn_answer m1 m2 (Mv.InBox [1] fun _ => {0})
  have e2 := knn_answers (n := 0) m1' [Mv.InBox [1] fun _ => {0}, Mv.InBox [1] fun _ => {0}]
  have hconv : (fun a : Dict Col ℝ ⊕ List (Dict Col ℝ) => ∃ l, a = .inr l ∧
      List.Forall₂ (Mv.InBox [1]) [fun _ => {0}, fun _ => {0}] l)
      = fun a => ∃ l, a = .inr l ∧ List.Forall₂ (fun E d => E d)
        [Mv.InBox [1] fun _ => {0}, Mv.InBox [1] fun _ => {0}] l := by
    funext a
    refine propext (exists_congr fun l => and_congr_right fun _ => ?_)
    exact (List.forall₂_map_left_iff (f := Mv.InBox [1]) (R := fun E d => E d)
      (l := [fun _ => {0}, fun _ => {0}])).symm
  rw [hconv, e1, e2]
  simp only [List.map_cons, List.map_nil] at m3 m3' ⊢
  rw [m3, m3']
  simp only [List.prod_cons, List.prod_nil, mul_one, hval]
  have := mean_sq_lt (l := A.map fun Ls => mixture knnEx Ls [(1, 0)])
    (List.mem_map_of_mem (f := fun Ls => mixture knnEx Ls [(1, 0)]) a0)
    (List.mem_map_of_mem (f := fun Ls => mixture knnEx Ls [(1, 0)]) a1) (by rw [v0, v1]; norm_num)
  rw [List.map_map, List.length_map] at this
  refine this.trans_eq ?_
  congr 2
  refine List.map_congr_left fun Ls _ => ?_
  rw [Function.comp_apply, pow_two]

/-! ### The size of a locality -/

/-- **C66, violated** The size of a locality is at most K: a value of M above K has no effect. -/
theorem C66_locality_violated (kd : Knn.Tree) (o : Knn) {M : Nat} (hM : o.K ≤ o.M) (h : o.K ≤ M) :
    (∀ r T C inputs, Knn.logpdf kd { o with M } r T C inputs = Knn.logpdf kd o r T C inputs) ∧
    ∀ r T C inputs N, Knn.simulate kd { o with M } r T C inputs N = Knn.simulate kd o r T C inputs N := by
  have hmin : min M o.K = min o.M o.K := by omega
  have hf : ∀ T C, Knn.findNeighborhoods kd { o with M } T C = Knn.findNeighborhoods kd o T C := by
    intro T C
    unfold Knn.findNeighborhoods
    simp only
    rw [hmin]
    rfl
  have hg : ∀ T C n, Knn.simulateGiven kd { o with M } T C n = Knn.simulateGiven kd o T C n := by
    intro T C n
    unfold Knn.simulateGiven
    rw [hf]
    rfl
  have ho : ∀ r T C, Knn.simulateOne kd { o with M } r T C = Knn.simulateOne kd o r T C := by
    intro r T C
    unfold Knn.simulateOne
    simp only [hg]
    rfl
  have hb : ∀ r T n, Knn.simulateFallback kd { o with M } r T n = Knn.simulateFallback kd o r T n := by
    intro r T n
    unfold Knn.simulateFallback
    simp only [ho]
    rfl
  constructor
  · intro r T C inputs
    unfold Knn.logpdf
    simp only [hf]
    rfl
  · intro r T C inputs N
    unfold Knn.simulate
    simp only [hg, hb]
    rfl

/-! ### The labels of the categories -/

/-- Two nominal variables, and two rows that differ in both; `a` and `b` are categories of the first
variable. -/
noncomputable def knnLab (a b : ℝ) : Knn where
  outputs := [0, 1]
  types := [.nominal 3, .nominal 2]
  rows := ⟨2, [(0, [some a, some 0]), (1, [some b, some 1])]⟩
  K := 1
  M := 1

theorem knnLab_cell (a b : ℝ) (r : Row) (q : Col) : cell (knnLab a b) r q =
    if r = 0 ∧ q = 0 then some a else if r = 0 ∧ q = 1 then some 0
    else if r = 1 ∧ q = 0 then some b else if r = 1 ∧ q = 1 then some 1 else none := by
  have hq : (q = 0 ∧ [0, 1].idxOf q = 0) ∨ (q = 1 ∧ [0, 1].idxOf q = 1) ∨
      (q ≠ 0 ∧ q ≠ 1 ∧ [0, 1].idxOf q = 2) := by
    by_cases h0 : q = 0
    · left; subst h0; exact ⟨rfl, rfl⟩
    · by_cases h1 : q = 1
      · right; left; subst h1; exact ⟨rfl, rfl⟩
      · right; right
        refine ⟨h0, h1, ?_⟩
        rw [List.idxOf_eq_length (by simp [h0, h1])]
        rfl
  change ((Dict.get? [((0 : Row), [some a, some 0]), (1, [some b, some 1])] r).bind
    fun vs => vs[[0, 1].idxOf q]?).join = _
  by_cases h0 : r = 0
  · subst h0
    rcases hq with ⟨rfl, -⟩ | ⟨rfl, -⟩ | ⟨a, b, e⟩
    · simp [Dict.get?]
    · simp [Dict.get?]
    · rw [e]; simp [Dict.get?, a, b]
  by_cases h1 : r = 1
  · subst h1
    rcases hq with ⟨rfl, -⟩ | ⟨rfl, -⟩ | ⟨a, b, e⟩
    · simp [Dict.get?]
    · simp [Dict.get?]
    · rw [e]; simp [Dict.get?, a, b]
  · rw [show Dict.get? [((0 : Row), [some a, some 0]), (1, [some b, some 1])] r = none by
        simp [Dict.get?, Ne.symm h0, Ne.symm h1]]
    simp [h0, h1]

theorem knnLab_typ (a b : ℝ) (q : Col) : typ (knnLab a b) q
    = if q = 0 then .nominal 3 else if q = 1 then .nominal 2 else .numerical := by
  change [KType.nominal 3, KType.nominal 2].getD ([0, 1].idxOf q) .numerical = _
  by_cases h0 : q = 0
  · subst h0; rfl
  · by_cases h1 : q = 1
    · subst h1; rfl
    · rw [List.idxOf_eq_length (by simp [h0, h1]), if_neg h0, if_neg h1]; rfl

theorem knnLab_valid {i j : Nat} (hi : i < 3) (hj : j < 3) : Valid (knnLab i j) := by
  refine ⟨⟨by change List.Nodup [0, 1]; decide, by change List.Nodup [0, 1]; decide, rfl, ?_⟩, rfl,
    le_rfl, le_rfl, le_rfl, ?_, ?_⟩
  · intro r vs h
    have h' := Dict.mem_of_get? h
    change (r, vs) ∈ [((0 : Row), [some (i : ℝ), some 0]), (1, [some (j : ℝ), some 1])] at h'
    simp only [List.mem_cons, Prod.mk.injEq, List.not_mem_nil, or_false] at h'
    rcases h' with ⟨-, rfl⟩ | ⟨-, rfl⟩ <;> rfl
  · intro q hq k hk
    rw [knnLab_typ] at hk
    split at hk
    · cases hk; omega
    · split at hk
      · cases hk; omega
      · cases hk
  · intro q hq k hk r v hv
    rw [knnLab_typ] at hk
    rw [knnLab_cell] at hv
    by_cases h0 : q = 0
    · subst h0
      rw [if_pos rfl] at hk
      cases hk
      by_cases hr : r = 0
      · subst hr; simp at hv; exact ⟨i, hi, hv.symm⟩
      · by_cases hr1 : r = 1
        · subst hr1; simp at hv; exact ⟨j, hj, hv.symm⟩
        · simp [hr, hr1] at hv
    · rw [if_neg h0] at hk
      split at hk
      · next h1 =>
        subst h1
        cases hk
        by_cases hr : r = 0
        · subst hr; simp at hv; exact ⟨0, by omega, by simp [← hv]⟩
        · by_cases hr1 : r = 1
          · subst hr1; simp at hv; exact ⟨1, by omega, by simp [← hv]⟩
          · simp [hr, hr1] at hv
      · cases hk

theorem knnLab_R (a b : ℝ) (T C : Dict Col ℝ) (hT : T.keys = [1]) (hC : C.keys = [0]) :
    Spec.Knn.exemplars (knnLab a b) (T.keys ++ C.keys) = [0, 1] := by
  rw [hT, hC]
  change [0, 1].filter (fun r => [1, 0].all fun q => (cell (knnLab a b) r q).isSome) = _
  simp [knnLab_cell]

theorem knnLab_asked {i j : Nat} (hi : i < 3) (hj : j < 3) :
    Asked (knnLab i j) none [1] [(0, 0)] [(0, 0)] where
  nodup := by decide
  some := by simp
  known := by change ∀ q ∈ [1], q ∈ [0, 1]; decide
  constraints := ⟨by simp [Dict.keys], by
    intro q hq; simp [Dict.keys] at hq; subst hq; exact List.mem_cons_self⟩
  proper := by
    intro p hp k hk
    obtain rfl := List.mem_singleton.mp hp
    rw [knnLab_typ] at hk
    cases hk
    exact ⟨0, by omega, by simp⟩
  disjoint := by simp [Dict.keys]
  evidence := kde_evidence_none (by simp [Dict.keys])
  given := by simp
  enough := by
    rw [show ([1] : List Col) = Dict.keys [((1 : Col), (0 : ℝ))] from rfl, knnLab_R _ _ _ _ rfl rfl]
    exact (by decide : 1 ≤ 2)

/-- The answer is that of the row whose category is the last one. -/
theorem knnLab_answer {kd : Knn.Tree} (hkd : Finds kd) {i j n : Nat} (hi : i < 3) (hj : j < 3)
    (hn : n ∈ [0, 1]) (hfar : ∀ s ∈ [0, 1], s ≠ n → far (knnLab i j) [(0, 0)] n < far (knnLab i j) [(0, 0)] s)
    (hij : i ≠ j) :
    ∃ a, Knn.logpdf kd (knnLab i j) none (Mv.ofDict [(1, 0)]) [(0, 0)] [] = .pure a ∧
      IsLog a (if (cell (knnLab i j) n 1).getD 0 = 0 then 1 else 0) := by
  have hV := knnLab_valid hi hj
  have hR := knnLab_R i j [(1, 0)] [(0, 0)] rfl rfl
  have hN : Nearest (knnLab i j) [0, 1] [(0, 0)] [n] :=
    ⟨rfl, List.nodup_singleton n, by simpa using hn, fun m hm s hs hnot => by
      rw [List.mem_singleton] at hm hnot
      rw [hm]
      exact hfar s hs hnot⟩
  obtain ⟨a, ns, Ls, h1, h2, h3, h4⟩ := C66_nearest_partial hkd hV (T := [(1, 0)])
    (knnLab_asked hi hj) (fun p hp k hk => by
      obtain rfl := List.mem_singleton.mp hp
      rw [knnLab_typ] at hk
      cases hk
      exact ⟨0, by omega, by simp⟩) (by rw [hR]; exact hN)
  rw [hR] at h3
  rw [List.perm_singleton.mp h2] at h3
  obtain ⟨L, Ls', hloc, hnil, rfl⟩ := List.forall₂_cons_left_iff.mp h3
  obtain rfl := List.forall₂_nil_left_iff.mp hnil
  obtain ⟨s, rfl⟩ := List.length_eq_one_iff.mp (show L.length = 1 from hloc.length)
  have hs : s = n := by
    by_contra hne
    have hc := hloc.near s List.mem_cons_self n hn (by simpa using fun h => hne h.symm)
    have hsm := hloc.rows s List.mem_cons_self
    have hijr : (i : ℝ) ≠ j := by exact_mod_cast hij
    unfold apart at hc
    simp only [Dict.keys, List.map_cons, List.map_nil, List.cons_append, List.nil_append, List.sum_cons,
      List.sum_nil, knnLab_typ] at hc
    simp only [List.mem_cons, List.not_mem_nil, or_false] at hn hsm
    have hg : ∀ x y : ℝ, 0 ≤ gap (.nominal 3) x y := fun x y => by
      unfold gap
      simp only
      split
      · exact le_refl (0 : ℝ)
      · split <;> norm_num
    rcases hn with rfl | rfl <;> rcases hsm with rfl | rfl
    · exact hne rfl
    · have := hg j i
      simp [knnLab_cell] at hc
      norm_num [gap] at hc this
      linarith
    · have := hg i j
      simp [knnLab_cell] at hc
      norm_num [gap] at hc this
      linarith
    · exact hne rfl
  subst hs
  refine ⟨a, h1, ?_⟩
  convert h4 using 1
  unfold mixture values localDensity
  simp only [List.map_cons, List.map_nil, List.sum_cons, List.sum_nil, List.prod_cons, List.prod_nil,
    knnLab_typ, List.length_singleton, List.countP_singleton]
  by_cases h : (cell (knnLab i j) s 1).getD 0 = 0 <;> simp [h]

/-- **C66, violated** The answers depend on the labels of the categories: the last category is nearer to
the other ones than these are to each other.  Here the models differ by a renaming of the categories of
the first variable that leaves the category of the evidence as it is, and `logpdf` is -inf in one and 0 in
the other. -/
theorem C66_labels_violated : ∃ o o' : Knn, Valid o ∧ Valid o' ∧ o'.outputs = o.outputs ∧
    o'.types = o.types ∧ o'.K = o.K ∧ o'.M = o.M ∧ o'.rows.data.keys = o.rows.data.keys ∧
    ∃ (q : Col) (σ : ℝ → ℝ) (v : ℝ) (T : Dict Col ℝ), Function.Bijective σ ∧ σ v = v ∧ T.get? q = none ∧
      (∀ r, cell o' r q = (cell o r q).map σ) ∧ (∀ r q', q' ≠ q → cell o' r q' = cell o r q') ∧
      ∀ kd, Finds kd →
        Knn.logpdf kd o none (Mv.ofDict T) [(q, v)] [] = .pure .ninf ∧
        Knn.logpdf kd o' none (Mv.ofDict T) [(q, v)] [] = .pure (.fin 0) := by
  classical
  refine ⟨knnLab (1 : Nat) (2 : Nat), knnLab (2 : Nat) (1 : Nat), knnLab_valid (by omega) (by omega),
    knnLab_valid (by omega) (by omega), rfl, rfl, rfl, rfl, rfl, 0, Equiv.swap (1 : ℝ) 2, 0, [(1, 0)],
    Equiv.bijective _, Equiv.swap_apply_of_ne_of_ne (by norm_num) (by norm_num), rfl, fun r => ?_,
    fun r q' hq' => ?_, fun kd hkd => ⟨?_, ?_⟩⟩
  · rw [knnLab_cell, knnLab_cell]
    by_cases h0 : r = 0
    · subst h0; simp
    · by_cases h1 : r = 1
      · subst h1; simp
      · simp [h0, h1]
  · rw [knnLab_cell, knnLab_cell]
    simp [hq']
  · obtain ⟨a, h1, h2⟩ := knnLab_answer hkd (i := 1) (j := 2) (n := 1) (by omega) (by omega) (by simp)
      (fun s hs hne => by
        simp only [List.mem_cons, List.not_mem_nil, or_false] at hs
        obtain rfl := hs.resolve_right hne
        unfold far
        simp only [List.map_cons, List.map_nil, List.sum_cons, List.sum_nil, knnLab_typ]
        simp [knnLab_cell]
        norm_num [gap]) (by omega)
    rw [h1, isLog_zero (a := a)]
    simpa [knnLab_cell] using h2
  · obtain ⟨a, h1, h2⟩ := knnLab_answer hkd (i := 2) (j := 1) (n := 0) (by omega) (by omega) (by simp)
      (fun s hs hne => by
        simp only [List.mem_cons, List.not_mem_nil, or_false] at hs
        obtain rfl := hs.resolve_left hne
        unfold far
        simp only [List.map_cons, List.map_nil, List.sum_cons, List.sum_nil, knnLab_typ]
        simp [knnLab_cell]
        norm_num [gap]) (by omega)
    rw [h1, isLog_pos (a := a) one_pos, Real.log_one]
    simpa [knnLab_cell] using h2

/-! ### The other hypotheses -/

/-- C66_fallback and C66_fallback_all apply. -/
example : Bare knnEx none [0] ∧ Spec.Knn.exemplars knnEx [1] ≠ [] ∧ Bare knnEx none [1, 0] ∧
    (∀ c ∈ knnEx.outputs, c ∈ [1, 0]) := by
  refine ⟨⟨by decide, by simp, by change ∀ q ∈ [0], q ∈ [0, 1]; decide, kde_evidence_none List.nodup_nil,
    (by decide : 2 ≤ 4)⟩, ?_, ⟨by decide, by simp, by change ∀ q ∈ [1, 0], q ∈ [0, 1]; decide,
    kde_evidence_none List.nodup_nil, (by decide : 2 ≤ 4)⟩, by change ∀ c ∈ [0, 1], c ∈ [1, 0]; decide⟩
  rw [knnEx_ex _ (by simp)]
  simp

/-- The constructor and a history that C66_history covers. -/
example : ∃ o, Knn.new [0, 1] [] (some 2) none [.numeric, .nominal (some 2)] = .ok o ∧ o.M = 2 ∧
    Valid (o.run [.inc 0 [(0, some 1), (1, some 0)] [], .inc 0 [(0, some 1)] [], .unc 5]) := by
  obtain ⟨o, h, hV, e1, e2, -, hM, -⟩ := C66_new (outputs := [0, 1]) le_rfl (by decide)
    (types := [.numerical, .nominal 2]) rfl (by simp) (K := 2) (M := 2) (by omega) (by omega)
    (M' := none) (.inr ⟨rfl, rfl⟩)
  refine ⟨o, h, hM, C66_history hV ?_⟩
  have hty : ∀ q, typ o q = [KType.numerical, KType.nominal 2].getD ([0, 1].idxOf q) .numerical :=
    fun q => by unfold typ; rw [e1, e2]
  intro op hop
  simp only [List.mem_cons, List.not_mem_nil, or_false] at hop
  rcases hop with rfl | rfl | rfl
  · intro q hq k v hk hv
    rw [hty] at hk
    rw [e1] at hq
    simp only [List.mem_cons, List.not_mem_nil, or_false] at hq
    rcases hq with rfl | rfl
    · cases hk
    · cases hk
      simp [Dict.get?] at hv
      exact ⟨0, by omega, by simp [← hv]⟩
  · intro q hq k v hk hv
    rw [hty] at hk
    rw [e1] at hq
    simp only [List.mem_cons, List.not_mem_nil, or_false] at hq
    rcases hq with rfl | rfl
    · cases hk
    · simp [Dict.get?] at hv
  · trivial

/-- A refused query: too few rows are complete. -/
example : Knn.logpdf sortTree { knnEx with K := 4 } none (Mv.ofDict [(0, 1)]) [(1, 1)] []
    = .raise .valueError := by
  refine C66_logpdf_refused (o := { knnEx with K := 4 })
    ⟨knnEx_valid.toFull, rfl, le_rfl, by change 1 ≤ 4; omega, le_rfl, knnEx_valid.nominal, knnEx_valid.cells⟩ none _
    (Ev := [(1, 1)]) (by simp [Dict.keys]) (kde_evidence_none (by simp [Dict.keys])) [] ?_
  refine .inr (.inr (.inr (.inl ?_)))
  change (Spec.Knn.exemplars knnEx [0, 1]).length < 4
  rw [knnEx_ex _ (by simp)]
  simp

end Cgpm.Props
