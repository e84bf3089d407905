import Verif.Lemmas.Knn

/-!
The neighbours that the search finds.
-/
namespace Cgpm.Knn
open Cgpm Cgpm.Spec Cgpm.Spec.Knn MeasureTheory

variable {o : Knn} {kd : Tree}

theorem found_perm (hkd : Finds kd) (X : List (List ℝ)) (c : List ℝ) :
    (kd X c X.length).Perm (List.range X.length) := by
  refine (List.subperm_of_subset (hkd.nodup X c _ le_rfl) fun i hi =>
    List.mem_range.mpr (hkd.bound X c _ le_rfl i hi)).perm_of_length_le ?_
  rw [hkd.length X c _ le_rfl, List.length_range]

open Classical in
/-- A point no farther than the K-th one has fewer than K nearer ones. -/
theorem count_nearer (hkd : Finds kd) {K : Nat} (hK : 1 ≤ K) {X : List (List ℝ)} (hX : K ≤ X.length)
    (c : List ℝ) {i : Nat}
    (hi : dist (X.getD i []) c ≤ dist (X.getD ((kd X c X.length).getD (K - 1) 0) []) c) :
    ((List.range X.length).countP fun j => dist (X.getD j []) c < dist (X.getD i []) c) < K := by
  set found := kd X c X.length with hfound
  have hlen : found.length = X.length := hkd.length X c _ le_rfl
  have hsort := hkd.sorted X c X.length le_rfl
  rw [← hfound] at hsort
  rw [← (found_perm hkd X c).countP_eq, ← hfound]
  have hK1 : K - 1 < found.length := by omega
  rw [← List.take_append_drop (K - 1) found, List.countP_append]
  have h0 : (found.drop (K - 1)).countP
      (fun j => decide (dist (X.getD j []) c < dist (X.getD i []) c)) = 0 := by
    rw [List.countP_eq_zero]
    intro j hj
    rw [decide_eq_true_iff, not_lt]
    refine hi.trans ?_
    rw [List.getD_eq_getElem _ _ hK1]
    rw [List.drop_eq_getElem_cons hK1] at hj
    rcases List.mem_cons.mp hj with rfl | hj
    · exact le_rfl
    · have := hsort.sublist (List.drop_sublist (K - 1) found)
      rw [List.drop_eq_getElem_cons hK1] at this
      exact (List.pairwise_cons.mp this).1 j hj
  rw [h0]
  have := List.countP_le_length (p := fun j => decide (dist (X.getD j []) c < dist (X.getD i []) c))
    (l := found.take (K - 1))
  rw [List.length_take] at this
  omega

open Classical in
/-- A point with fewer than K nearer ones is no farther than the K-th one. -/
theorem count_nearer' (hkd : Finds kd) {K : Nat} (hK : 1 ≤ K) {X : List (List ℝ)} (hX : K ≤ X.length)
    (c : List ℝ) {i : Nat}
    (hi : ((List.range X.length).countP fun j => dist (X.getD j []) c < dist (X.getD i []) c) < K) :
    dist (X.getD i []) c ≤ dist (X.getD ((kd X c X.length).getD (K - 1) 0) []) c := by
  by_contra hnot
  push Not at hnot
  have hfp := found_perm hkd X c
  set found := kd X c X.length with hfound
  have hlen : found.length = X.length := hkd.length X c _ le_rfl
  have hsort := hkd.sorted X c X.length le_rfl
  rw [← hfound] at hsort
  rw [← hfp.countP_eq] at hi
  have hK1 : K - 1 < found.length := by omega
  rw [List.getD_eq_getElem _ _ hK1] at hnot
  rw [← List.take_append_drop K found, List.countP_append, List.countP_eq_length.mpr] at hi
  · rw [List.length_take] at hi
    omega
  · intro j hj
    rw [decide_eq_true_iff]
    refine lt_of_le_of_lt ?_ hnot
    obtain ⟨p, hp, rfl⟩ := List.getElem_of_mem hj
    rw [List.length_take] at hp
    rw [List.getElem_take]
    by_cases hpe : p = K - 1
    · subst hpe; exact le_rfl
    · exact List.pairwise_iff_getElem.mp hsort p (K - 1) (by omega) (by omega) (by omega)

open Classical in
/-- What the search for neighbours gives. -/
theorem neighbors_spec (hkd : Finds kd) {K : Nat} (hK : 1 ≤ K) {X : List (List ℝ)}
    (hX : K ≤ X.length) (c : List ℝ) :
    ∃ L, Rand.Evenly (neighbors kd K X c) L ∧
      (∀ ns ∈ L, ns.length = K ∧ ns.Nodup ∧ (∀ i ∈ ns, i < X.length) ∧ ∀ i ∈ ns,
        ((List.range X.length).countP fun j => dist (X.getD j []) c < dist (X.getD i []) c) < K) ∧
      ((∃ N : List Nat, N.length = K ∧ ∀ i < X.length,
        ((List.range X.length).countP fun j => dist (X.getD j []) c < dist (X.getD i []) c) < K →
          i ∈ N) → ∃ ns, neighbors kd K X c = .pure ns) ∧
      (K < ((List.range X.length).countP fun i => ((List.range X.length).countP fun j =>
          dist (X.getD j []) c < dist (X.getD i []) c) < K) →
        ∀ ns : List Nat, ns.length = K → ns.Nodup → (∀ i ∈ ns, i < X.length ∧
          ((List.range X.length).countP fun j => dist (X.getD j []) c < dist (X.getD i []) c) < K) →
          ns ∈ L) := by
  have hback := fun i => count_nearer' hkd hK hX c (i := i)
  have hfp := found_perm hkd X c
  have hnear := fun i => count_nearer hkd hK hX c (i := i)
  have hsort := hkd.sorted X c X.length le_rfl
  have hlen := hkd.length X c X.length le_rfl
  have hnd := hkd.nodup X c X.length le_rfl
  have hbd := hkd.bound X c X.length le_rfl
  unfold neighbors
  simp only
  generalize kd X c X.length = found at *
  set valid := found.filter fun i =>
    decide (dist (X.getD i []) c ≤ dist (X.getD (found.getD (K - 1) 0) []) c) with hvalid
  have hv : ∀ i ∈ valid, i < X.length ∧
      ((List.range X.length).countP fun j => dist (X.getD j []) c < dist (X.getD i []) c) < K := by
    intro i hi
    have := List.mem_filter.mp hi
    exact ⟨hbd i this.1, hnear i (of_decide_eq_true this.2)⟩
  have hvn : valid.Nodup := hnd.filter _
  have hv' : ∀ i < X.length, ((List.range X.length).countP fun j =>
      dist (X.getD j []) c < dist (X.getD i []) c) < K → i ∈ valid := fun i hi hc =>
    List.mem_filter.mpr ⟨hfp.mem_iff.mpr (List.mem_range.mpr hi), decide_eq_true (hback i hc)⟩
  by_cases h : K < valid.length
  · rw [if_pos h]
    refine ⟨_, Rand.evenly_sample K valid, fun ns hns => ?_, ?_, fun _ ns h1 h2 h3 => ?_⟩
    · obtain ⟨π, hπ, rfl⟩ := List.mem_map.mp hns
      have hperm := List.mem_permutations.mp hπ
      have hmem : ∀ i ∈ π.take K, i ∈ valid := fun i hi =>
        hperm.mem_iff.mp (List.mem_of_mem_take hi)
      refine ⟨?_, (hperm.nodup_iff.mpr hvn).sublist (List.take_sublist _ _), fun i hi =>
        (hv i (hmem i hi)).1, fun i hi => (hv i (hmem i hi)).2⟩
      rw [List.length_take, hperm.length_eq]
      omega
    · rintro ⟨N, hN, hall⟩
      have := (List.subperm_of_subset hvn fun i hi => hall i (hv i hi).1 (hv i hi).2).length_le
      omega
    · have hsub : ns.Subperm valid :=
        List.subperm_of_subset h2 fun i hi => hv' i (h3 i hi).1 (h3 i hi).2
      obtain ⟨l, hl, hs⟩ := hsub
      obtain ⟨rest, hrest'⟩ := hs.exists_perm_append
      have hrest : valid.Perm (ns ++ rest) := hrest'.trans (hl.append_right rest)
      refine List.mem_map.mpr ⟨ns ++ rest, List.mem_permutations.mpr hrest.symm, ?_⟩
      exact List.take_left' h1
  · rw [if_neg h]
    refine ⟨_, Rand.evenly_pure _, fun ns hns => ?_, fun _ => ⟨_, rfl⟩, fun hmany => ?_⟩
    swap
    · exfalso
      rw [List.countP_eq_length_filter] at hmany
      have := (List.subperm_of_subset (List.nodup_range.filter _) fun i hi => by
        have := List.mem_filter.mp hi
        exact hv' i (List.mem_range.mp this.1) (of_decide_eq_true this.2)).length_le
      omega
    obtain rfl := List.mem_singleton.mp hns
    refine ⟨by rw [List.length_take]; omega, hnd.sublist (List.take_sublist _ _), fun i hi =>
      hbd i (List.mem_of_mem_take hi), fun i hi => hnear i ?_⟩
    obtain ⟨p, hp, rfl⟩ := List.getElem_of_mem hi
    rw [List.length_take] at hp
    rw [List.getElem_take, List.getD_eq_getElem found _ (by omega)]
    by_cases hpe : p = K - 1
    · subst hpe; exact le_rfl
    · exact List.pairwise_iff_getElem.mp hsort p (K - 1) (by omega) (by omega) (by omega)

/-! ### In terms of rows -/

/-- The value of a variable in a row. -/
noncomputable def val (o : Knn) (r : Row) (q : Col) : ℝ := (cell o r q).getD 0

/-- The codes of rows. -/
noncomputable def codes (o : Knn) (R : List Row) (qs : List Col) : List (List ℝ) :=
  R.map fun r => codeRow o qs (val o r)

theorem sensible_val (hV : Valid o) {all : List Col} {r : Row} (hr : r ∈ Spec.Knn.exemplars o all)
    {q : Col} (hq : q ∈ all) (hk : q ∈ o.outputs) : Kde.Sensible (typ o q) (val o r q) := by
  intro k hty
  obtain ⟨v, hv⟩ := Option.isSome_iff_exists.mp
    (List.all_eq_true.mp (List.mem_filter.mp hr).2 q hq)
  unfold val
  rw [show cell o r q = some v from hv]
  exact hV.cells q hk k hty r v hv

theorem sensible_of_proper {d : Dict Col ℝ} (hp : Proper o d) (q : Col) (hq : q ∈ d.keys) :
    Kde.Sensible (typ o q) ((d.get? q).getD 0) := by
  intro k hty
  obtain ⟨v, hv⟩ := Dict.exists_of_mem_keys hq
  rw [hv]
  exact hp (q, v) (Dict.mem_of_get? hv) k hty

theorem map_get_keys {d : Dict Col ℝ} (hd : d.keys.Nodup) :
    d.keys.map (fun q => (d.get? q).getD 0) = d.vals := by
  unfold Dict.keys Dict.vals
  rw [List.map_map]
  refine List.map_congr_left fun p hp => ?_
  rw [Function.comp_apply, Dict.get?_of_mem (k := p.1) (v := p.2) hd hp]
  rfl

theorem far_eq {d : Dict Col ℝ} (hd : d.keys.Nodup) (r : Row) :
    far o d r = (d.keys.map fun q => gap (typ o q) (val o r q) ((d.get? q).getD 0)).sum := by
  unfold far Dict.keys
  rw [List.map_map]
  congr 1
  refine List.map_congr_left fun p hp => ?_
  rw [Function.comp_apply, Dict.get?_of_mem (k := p.1) (v := p.2) hd hp]
  rfl

theorem dataset_ok (hV : Valid o) {qs : List Col} (h : ∀ q ∈ qs, q ∈ o.outputs) :
    o.dataset qs = .ok ((Spec.Knn.exemplars o qs).map fun r => qs.map (val o r)) := by
  unfold dataset
  rw [Kde.collect_map (g := o.outputs.idxOf) fun q hq => by unfold index; rw [if_pos (h q hq)]]
  exact congrArg Except.ok (MvRows.complete_eq hV.toFull qs)

/-- The positions of the locality of the row at position `i`. -/
noncomputable def locate (kd : Tree) (o : Knn) (R : List Row) (qs : List Col) (i : Nat) : List Nat :=
  kd (codes o R qs) ((codes o R qs).getD i []) (min o.M o.K)

/-- The search for neighbourhoods. -/
theorem findNeighborhoods_eq (hV : Valid o) {T : List Col} (hT : T.Nodup)
    (hTk : ∀ q ∈ T, q ∈ o.outputs) {C : Dict Col ℝ} (hC : Mv.Assigns o.outputs C) (hne : C ≠ [])
    (hp : Proper o C) {R : List Row} (hR : R = Spec.Knn.exemplars o (T ++ C.keys))
    (hK : o.K ≤ R.length) :
    findNeighborhoods kd o T C
      = (neighbors kd o.K (codes o R C.keys)
          (codeRow o C.keys fun q => (C.get? q).getD 0)).bind fun ns =>
        .pure (R.map fun r => T.map (val o r), ns.map (locate kd o R (T ++ C.keys))) := by
  have hk : ∀ q ∈ T ++ C.keys, q ∈ o.outputs := fun q hq => by
    rcases List.mem_append.mp hq with h | h
    · exact hTk q h
    · exact hC.known q h
  unfold findNeighborhoods
  rw [if_neg (by simpa using hne), dataset_ok hV hk, ← hR]
  change (if _ < _ then _ else _) = _
  rw [if_neg (by simpa using hK)]
  have hrow : ∀ r, ((T ++ C.keys).map (val o r)).take T.length = T.map (val o r) := fun r => by
    rw [List.map_append]; exact List.take_left' (by simp)
  have hrow' : ∀ r, ((T ++ C.keys).map (val o r)).drop T.length = C.keys.map (val o r) := fun r => by
    rw [List.map_append]; exact List.drop_left' (by simp)
  have hs : ∀ r ∈ R, ∀ q ∈ T ++ C.keys, Kde.Sensible (typ o q) (val o r q) := fun r hr q hq =>
    sensible_val hV (hR ▸ hr) hq (hk q hq)
  have e1 : Net.collect (fun row => o.code T (row.take T.length))
      (R.map fun r => (T ++ C.keys).map (val o r)) = .ok (codes o R T) := by
    unfold codes
    rw [Kde.collect_map (g := fun row => codeRow o T fun q => row.getD (T.idxOf q) 0)]
    · rw [List.map_map]
      congr 1
      refine List.map_congr_left fun r _ => ?_
      unfold codeRow
      refine List.flatMap_congr fun q hq => ?_
      have hlt := List.idxOf_lt_length_iff.mpr hq
      change codeAt _ (((T ++ C.keys).map (val o r)).getD (T.idxOf q) 0) = _
      rw [List.map_append,
        List.getD_eq_getElem _ _ (by simp; omega), List.getElem_append_left (by simpa using hlt),
        List.getElem_map, List.getElem_idxOf hlt]
    · intro row hrow0
      obtain ⟨r, hr, rfl⟩ := List.mem_map.mp hrow0
      rw [hrow, code_eq hV hT hTk fun q hq => hs r hr q (List.mem_append_left _ hq)]
      congr 1
      unfold codeRow
      refine List.flatMap_congr fun q hq => ?_
      have hlt := List.idxOf_lt_length_iff.mpr hq
      change _ = codeAt _ (((T ++ C.keys).map (val o r)).getD (T.idxOf q) 0)
      rw [List.map_append,
        List.getD_eq_getElem _ _ (by simp; omega), List.getElem_append_left (by simpa using hlt),
        List.getElem_map, List.getElem_idxOf hlt]
  have e2 : Net.collect (fun row => o.code C.keys (row.drop T.length))
      (R.map fun r => (T ++ C.keys).map (val o r)) = .ok (codes o R C.keys) := by
    unfold codes
    rw [Kde.collect_map
      (g := fun row => codeRow o C.keys fun q => (row.drop T.length).getD (C.keys.idxOf q) 0)]
    · rw [List.map_map]
      congr 1
      refine List.map_congr_left fun r _ => ?_
      unfold codeRow
      refine List.flatMap_congr fun q hq => ?_
      have hlt := List.idxOf_lt_length_iff.mpr hq
      change codeAt _ ((((T ++ C.keys).map (val o r)).drop T.length).getD (C.keys.idxOf q) 0) = _
      rw [hrow', List.getD_eq_getElem _ _ (by simpa using hlt),
        List.getElem_map, List.getElem_idxOf hlt]
    · intro row hrow0
      obtain ⟨r, hr, rfl⟩ := List.mem_map.mp hrow0
      rw [hrow', code_eq hV hC.nodup hC.known fun q hq => hs r hr q (List.mem_append_right _ hq)]
      congr 1
      unfold codeRow
      refine List.flatMap_congr fun q hq => ?_
      have hlt := List.idxOf_lt_length_iff.mpr hq
      change _ = codeAt _ ((C.keys.map (val o r)).getD (C.keys.idxOf q) 0)
      rw [List.getD_eq_getElem _ _ (by simpa using hlt), List.getElem_map, List.getElem_idxOf hlt]
  have e3 : o.code C.keys C.vals = .ok (codeRow o C.keys fun q => (C.get? q).getD 0) := by
    rw [← map_get_keys hC.nodup]
    exact code_eq hV hC.nodup hC.known (sensible_of_proper hp)
  have e4 : List.zipWith (· ++ ·) (codes o R T) (codes o R C.keys) = codes o R (T ++ C.keys) := by
    unfold codes
    rw [List.zipWith_map, List.zipWith_self]
    refine List.map_congr_left fun r _ => ?_
    unfold codeRow
    rw [List.flatMap_append]
  rw [e1, e2, e3]
  change Rand.bind (neighbors kd o.K (codes o R C.keys)
    (codeRow o C.keys fun q => (C.get? q).getD 0)) _ = _
  simp only [e4]
  congr 1
  funext ns
  congr 2
  rw [List.map_map]
  exact List.map_congr_left fun r _ => hrow r

open Classical in
theorem countP_range_getD (R : List Row) (p : Row → Bool) :
    ((List.range R.length).countP fun j => p (R.getD j 0)) = R.countP p := by
  conv_rhs => rw [show R = (List.range R.length).map (fun i => R.getD i 0) from
    List.ext_getElem (by simp) fun i h1 h2 => by simp [h1]]
  rw [List.countP_map]
  rfl

theorem getD_codes {R : List Row} {qs : List Col} {i : Nat} (hi : i < R.length) :
    (codes o R qs).getD i [] = codeRow o qs (val o (R.getD i 0)) := by
  unfold codes
  rw [List.getD_eq_getElem _ _ (by simpa using hi), List.getElem_map, List.getD_eq_getElem _ _ hi]

theorem getD_mem {R : List Row} {i : Nat} (hi : i < R.length) : R.getD i 0 ∈ R := by
  rw [List.getD_eq_getElem _ _ hi]; exact List.getElem_mem hi

theorem getD_inj {R : List Row} (hn : R.Nodup) {i j : Nat} (hi : i < R.length) (hj : j < R.length)
    (h : R.getD i 0 = R.getD j 0) : i = j := by
  rw [List.getD_eq_getElem _ _ hi, List.getD_eq_getElem _ _ hj] at h
  exact (hn.getElem_inj_iff).mp h

theorem exemplars_nodup (hV : Valid o) (qs : List Col) : (Spec.Knn.exemplars o qs).Nodup :=
  List.Nodup.filter _ hV.keys

open Classical in
/-- The neighbourhoods that the search finds. -/
theorem neighborhoods_spec (hkd : Finds kd) (hV : Valid o) {T : List Col}
    (hTk : ∀ q ∈ T, q ∈ o.outputs) {C : Dict Col ℝ} (hC : Mv.Assigns o.outputs C)
    (hp : Proper o C) {R : List Row} (hR : R = Spec.Knn.exemplars o (T ++ C.keys))
    (hK : o.K ≤ R.length) :
    ∃ L, Rand.Evenly (neighbors kd o.K (codes o R C.keys)
          (codeRow o C.keys fun q => (C.get? q).getD 0)) L ∧
      (∀ ns ∈ L, (∀ i ∈ ns, i < R.length) ∧ Neighbors o R C (ns.map (R.getD · 0)) ∧
        ∀ i ∈ ns, (∀ j ∈ locate kd o R (T ++ C.keys) i, j < R.length) ∧
          Locality o R (T ++ C.keys) (R.getD i 0)
            ((locate kd o R (T ++ C.keys) i).map (R.getD · 0))) ∧
      ((∃ N, Nearest o R C N) → ∃ ns, neighbors kd o.K (codes o R C.keys)
          (codeRow o C.keys fun q => (C.get? q).getD 0) = .pure ns) ∧
      (o.K < (R.countP fun n => (R.countP fun s => far o C s < far o C n) < o.K) →
        ∀ ns, Neighbors o R C ns → ns.map R.idxOf ∈ L) := by
  have hk : ∀ q ∈ T ++ C.keys, q ∈ o.outputs := fun q hq => by
    rcases List.mem_append.mp hq with h | h
    · exact hTk q h
    · exact hC.known q h
  have hs : ∀ r ∈ R, ∀ q ∈ T ++ C.keys, Kde.Sensible (typ o q) (val o r q) := fun r hr q hq =>
    sensible_val hV (hR ▸ hr) hq (hk q hq)
  have hRn : R.Nodup := hR ▸ exemplars_nodup hV _
  have hlen : ∀ qs, (codes o R qs).length = R.length := fun qs => List.length_map _
  have hlt : ∀ i < R.length, ∀ j < R.length,
      (dist ((codes o R C.keys).getD j []) (codeRow o C.keys fun q => (C.get? q).getD 0)
        < dist ((codes o R C.keys).getD i []) (codeRow o C.keys fun q => (C.get? q).getD 0)
      ↔ far o C (R.getD j 0) < far o C (R.getD i 0)) := by
    intro i hi j hj
    have h : ∀ i < R.length, sq ((codes o R C.keys).getD i [])
        (codeRow o C.keys fun q => (C.get? q).getD 0) = far o C (R.getD i 0) := fun i hi => by
      rw [getD_codes hi, sq_codeRow (fun q hq => hs _ (getD_mem hi) q (List.mem_append_right _ hq))
        (sensible_of_proper hp), far_eq hC.nodup]
    rw [dist_lt_iff, h i hi, h j hj]
  have hcount : ∀ i < R.length, ((List.range (codes o R C.keys).length).countP fun j =>
      dist ((codes o R C.keys).getD j []) (codeRow o C.keys fun q => (C.get? q).getD 0)
        < dist ((codes o R C.keys).getD i []) (codeRow o C.keys fun q => (C.get? q).getD 0))
      = R.countP fun s => far o C s < far o C (R.getD i 0) := by
    intro i hi
    rw [hlen, ← countP_range_getD R]
    refine List.countP_congr fun j hj => ?_
    rw [decide_eq_true_iff, decide_eq_true_iff]
    exact hlt i hi j (List.mem_range.mp hj)
  obtain ⟨L, h1, h2, h3, h4⟩ := neighbors_spec hkd hV.K (X := codes o R C.keys)
    (by rw [hlen]; exact hK) (codeRow o C.keys fun q => (C.get? q).getD 0)
  have hM : min o.M o.K ≤ (codes o R (T ++ C.keys)).length := by
    rw [hlen]; exact (min_le_right _ _).trans hK
  refine ⟨L, h1, fun ns hns => ?_, ?_, fun hmany ns hns => ?_⟩
  · obtain ⟨a1, a2, a3, a4⟩ := h2 ns hns
    rw [hlen] at a3
    refine ⟨a3, ⟨by simpa using a1, ?_, ?_, ?_⟩, fun i hi => ?_⟩
    · exact (List.nodup_map_iff_inj_on a2).mpr fun x hx y hy e => getD_inj hRn (a3 x hx) (a3 y hy) e
    · intro n hn
      obtain ⟨i, hi, rfl⟩ := List.mem_map.mp hn
      exact getD_mem (a3 i hi)
    · intro n hn
      obtain ⟨i, hi, rfl⟩ := List.mem_map.mp hn
      have := a4 i hi
      rw [hcount i (a3 i hi)] at this
      exact this
    · have b1 := hkd.length _ ((codes o R (T ++ C.keys)).getD i []) _ hM
      have b2 := hkd.nodup _ ((codes o R (T ++ C.keys)).getD i []) _ hM
      have b3 := hkd.bound _ ((codes o R (T ++ C.keys)).getD i []) _ hM
      have b4 := hkd.nearest _ ((codes o R (T ++ C.keys)).getD i []) _ hM
      rw [hlen] at b3 b4
      refine ⟨b3, ⟨by rw [List.length_map]; exact b1, ?_, ?_, ?_⟩⟩
      · exact (List.nodup_map_iff_inj_on b2).mpr fun x hx y hy e =>
          getD_inj hRn (b3 x hx) (b3 y hy) e
      · intro n hn
        obtain ⟨j, hj, rfl⟩ := List.mem_map.mp hn
        exact getD_mem (b3 j hj)
      · intro n hn u hu hnot
        obtain ⟨j, hj, rfl⟩ := List.mem_map.mp hn
        obtain ⟨k, hkl, rfl⟩ := List.getElem_of_mem hu
        have hkn : k ∉ kd (codes o R (T ++ C.keys)) ((codes o R (T ++ C.keys)).getD i [])
            (min o.M o.K) := fun hmem => hnot (List.mem_map.mpr
          ⟨k, hmem, by rw [List.getD_eq_getElem _ _ hkl]⟩)
        have := b4 j hj k hkl hkn
        rw [dist_le_iff, getD_codes (b3 j hj), getD_codes hkl, getD_codes (a3 i hi),
          sq_codeRow (hs _ (getD_mem (b3 j hj))) (hs _ (getD_mem (a3 i hi))),
          sq_codeRow (hs _ (getD_mem hkl)) (hs _ (getD_mem (a3 i hi))),
          List.getD_eq_getElem _ _ hkl] at this
        exact this
  · rintro ⟨N, hN⟩
    refine h3 ⟨N.map R.idxOf, by rw [List.length_map]; exact hN.length, fun i hi hc => ?_⟩
    rw [hlen] at hi
    rw [hcount i hi] at hc
    have hmem : R.getD i 0 ∈ N := by
      by_contra hnot
      have hall : ∀ n ∈ N, far o C n < far o C (R.getD i 0) := fun n hn =>
        hN.near n hn _ (getD_mem hi) hnot
      have hsub : N.Subperm (R.filter fun s => far o C s < far o C (R.getD i 0)) :=
        List.subperm_of_subset hN.nodup fun n hn =>
          List.mem_filter.mpr ⟨hN.rows n hn, decide_eq_true (hall n hn)⟩
      have := hsub.length_le
      rw [← List.countP_eq_length_filter, hN.length] at this
      omega
    refine List.mem_map.mpr ⟨_, hmem, ?_⟩
    rw [List.getD_eq_getElem _ _ hi, hRn.idxOf_getElem]
  · refine h4 ?_ _ (by rw [List.length_map]; exact hns.length) ?_ ?_
    · refine lt_of_lt_of_eq hmany ?_
      rw [hlen, ← countP_range_getD R]
      refine List.countP_congr fun i hi => ?_
      have := hcount i (List.mem_range.mp hi)
      rw [hlen] at this
      rw [decide_eq_true_iff, decide_eq_true_iff, this]
    · exact (List.nodup_map_iff_inj_on hns.nodup).mpr fun x hx y _ e =>
        (List.idxOf_inj (hns.rows x hx)).mp e
    · intro i hi
      obtain ⟨n, hn, rfl⟩ := List.mem_map.mp hi
      have hlt' := List.idxOf_lt_length_iff.mpr (hns.rows n hn)
      refine ⟨by rw [hlen]; exact hlt', ?_⟩
      rw [hcount _ hlt', List.getD_eq_getElem _ _ hlt', List.getElem_idxOf hlt']
      exact hns.near n hn

end Cgpm.Knn
