import Verif.Lemmas.Neighbours

/-!
C88: the nearest-neighbour estimators of entropy, mutual information and divergence.
-/
namespace Cgpm.Props
open Cgpm Cgpm.Neighbours

theorem noisy_length {x nu : Pts} (h : nu.length = x.length) : (noisy x nu).length = x.length := by
  unfold noisy; simp [h]

theorem noisy_sized {d : Nat} {x nu : Pts} (hx : Sized d x) (hn : Sized d nu) : Sized d (noisy x nu) := by
  intro p hp
  unfold noisy at hp
  obtain ⟨i, hi, rfl⟩ := List.mem_iff_getElem.mp hp
  simp only [List.length_zipWith] at hi
  simp [hx _ (List.getElem_mem (by omega : i < x.length)), hn _ (List.getElem_mem (by omega : i < nu.length))]

theorem dim_sized {d : Nat} {x : Pts} (hx : Sized d x) (h : x ≠ []) : dim x = d := by
  cases x with
  | nil => exact absurd rfl h
  | cons a t => exact hx a (by simp)

/-- C88. `entropy` of `n` points of dimension `d`: with the noise added, the estimate of Kozachenko and
Leonenko from the distance of each point to its `k`-th nearest other point (the point itself is one of
the `k + 1`).  If a point coincides with `k` others, the logarithm of 0 is a `ValueError`. -/
theorem C88_entropy (psi : Nat → ℝ) {d : Nat} {x nu : Pts} (hx : Sized d x) (hn : Sized d nu)
    (hl : nu.length = x.length) {k : Nat} (h0 : 1 ≤ k) (hk : k < x.length) (base : ℝ) :
    ((∀ p ∈ noisy x nu, near (noisy x nu) 0 p ≤ k) →
      ∃ e : List ℝ → ℝ, (∀ p ∈ noisy x nu, 0 < e p ∧ IsNearest (noisy x nu) (k + 1) p (e p)) ∧
        entropy psi nu x k base = .ok ((psi x.length - psi k + d * Real.log 2
          + d * (((noisy x nu).map fun p => Real.log (e p)).sum / x.length)) / Real.log base)) ∧
    ((∃ p ∈ noisy x nu, k < near (noisy x nu) 0 p) → entropy psi nu x k base = .error .valueError) := by
  have hlen := noisy_length hl
  have hk' : k < (noisy x nu).length := by rw [hlen]; exact hk
  have hne : noisy x nu ≠ [] := by intro h; rw [h] at hk'; simp at hk'
  unfold entropy
  rw [if_neg (by omega)]
  refine ⟨fun h => ⟨eps (noisy x nu) k, fun p hp => ⟨(eps_pos_iff hk' p).mpr (h p hp), eps_nearest hk' p⟩, ?_⟩,
    fun ⟨p, hp, h⟩ => entropyOf_tie (by omega) hk' hp h⟩
  rw [entropyOf_ok (by omega) hk' h]
  unfold entropyVal
  rw [hlen, dim_sized (noisy_sized hx hn) hne]

/-- C88. Too few points for `k` neighbours are an `AssertionError`, as are samples of different lengths. -/
theorem C88_refused (psi : Nat → ℝ) (nux nuy nuz x y z : Pts) (k : Nat) (base : ℝ) :
    (x.length ≤ k → entropy psi nux x k base = .error .assertion ∧
      mi psi nux nuy x y k base = .error .assertion ∧ cmi psi nux nuy nuz x y z k base = .error .assertion ∧
      kldiv x y k base = .error .assertion ∧ kldiv y x k base = .error .assertion) ∧
    (x.length ≠ y.length → mi psi nux nuy x y k base = .error .assertion ∧
      cmi psi nux nuy nuz x y z k base = .error .assertion) ∧
    (dim x ≠ dim y → kldiv x y k base = .error .assertion) := by
  refine ⟨fun h => ⟨?_, ?_, ?_, ?_, ?_⟩, fun h => ⟨?_, ?_⟩, fun h => ?_⟩
  · unfold entropy; rw [if_pos (by omega)]
  · unfold mi
    split
    · rfl
    · rw [if_pos (by omega)]
  · unfold cmi
    split
    · rfl
    · rw [if_pos (by omega)]
  · unfold kldiv; rw [if_pos (by omega)]
  · unfold kldiv
    split
    · rfl
    · rw [if_pos (by omega)]
  · unfold mi; rw [if_pos h]
  · unfold cmi; rw [if_pos h]
  · unfold kldiv
    split
    · rfl
    · split
      · rfl
      · rfl

/-! ### Invariance -/

theorem entropyOf_congr (psi : Nat → ℝ) {x x' : Pts} (hl : x'.length = x.length) (hd : dim x' = dim x)
    {k : Nat} (hk : k < x.length) (base : ℝ)
    (hne : (∀ p ∈ x', near x' 0 p ≤ k) ↔ ∀ p ∈ x, near x 0 p ≤ k)
    (he : (x'.map fun p => Real.log (eps x' k p)).sum = (x.map fun p => Real.log (eps x k p)).sum) :
    entropyOf psi x' k base = entropyOf psi x k base := by
  rcases Nat.eq_zero_or_pos k with rfl | h0
  · have h1 : x ≠ [] := by rintro rfl; simp at hk
    have h2 : x' ≠ [] := by rintro rfl; rw [← hl] at hk; simp at hk
    rw [entropyOf_zero psi h1, entropyOf_zero psi h2]
  · by_cases h : ∀ p ∈ x, near x 0 p ≤ k
    · rw [entropyOf_ok (by omega) hk h, entropyOf_ok (by omega) (hl ▸ hk) (hne.mpr h)]
      unfold entropyVal
      rw [hl, hd, he]
    · have h' : ¬ ∀ p ∈ x', near x' 0 p ≤ k := fun g => h (hne.mp g)
      push Not at h h'
      obtain ⟨p, hp, h⟩ := h
      obtain ⟨p', hp', h'⟩ := h'
      rw [entropyOf_tie (by omega) hk hp h, entropyOf_tie (by omega) (hl ▸ hk) hp' h']

/-- C88. The order of the points does not matter (with the noise of each point going with it). -/
theorem C88_entropy_permute (psi : Nat → ℝ) {d : Nat} {x nu x' nu' : Pts} (hx : Sized d x) (hn : Sized d nu)
    (hl : nu.length = x.length) (hl' : nu'.length = x'.length) (hp : (x'.zip nu').Perm (x.zip nu))
    (k : Nat) (base : ℝ) : entropy psi nu' x' k base = entropy psi nu x k base := by
  have hlen : x'.length = x.length := by
    have := hp.length_eq
    simp [hl, hl'] at this
    exact this
  have hpp : (noisy x' nu').Perm (noisy x nu) := by
    unfold noisy
    rw [← List.map_uncurry_zip_eq_zipWith, ← List.map_uncurry_zip_eq_zipWith]
    exact hp.map _
  unfold entropy
  rw [hlen]
  split
  · rfl
  rename_i hk
  have hln := noisy_length hl
  have hk' : k < (noisy x nu).length := by omega
  have hne : noisy x nu ≠ [] := by intro h; rw [h] at hk'; simp at hk'
  have hs := noisy_sized hx hn
  refine entropyOf_congr psi hpp.length_eq ?_ hk' base ?_ ?_
  · rw [dim_sized hs hne, dim_sized (fun p hm => hs p (hpp.mem_iff.mp hm))]
    intro h
    rw [h] at hpp
    exact hne hpp.symm.eq_nil
  · exact ⟨fun h p hm => by rw [← near_perm hpp]; exact h p (hpp.mem_iff.mpr hm),
      fun h p hm => by rw [near_perm hpp]; exact h p (hpp.mem_iff.mp hm)⟩
  · have e : (fun p => Real.log (eps (noisy x' nu') k p)) = fun p => Real.log (eps (noisy x nu) k p) := by
      funext p; rw [eps_perm hpp]
    rw [e]
    exact (hpp.map _).sum_eq

theorem noisy_moved {d : Nat} {v : List ℝ} (hv : v.length = d) {x nu : Pts} (hx : Sized d x)
    (hn : Sized d nu) : noisy (moved v x) nu = moved v (noisy x nu) := by
  unfold noisy moved
  apply List.ext_getElem
  · simp
  · intro i h1 h2
    simp only [List.length_zipWith, List.length_map] at h1
    simp only [List.getElem_zipWith, List.getElem_map]
    have e1 := hx _ (List.getElem_mem (by omega : i < x.length))
    have e2 := hn _ (List.getElem_mem (by omega : i < nu.length))
    apply List.ext_getElem
    · simp [e1, e2, hv]
    · intro j g1 g2
      simp only [List.getElem_zipWith]
      ring

/-- C88. Adding a vector to every point does not change the entropy; multiplying every point (and the
noise) by `c ≠ 0` adds `d` times the logarithm of `|c|`. -/
theorem C88_entropy_affine (psi : Nat → ℝ) {d : Nat} {x nu : Pts} (hx : Sized d x) (hn : Sized d nu)
    (hl : nu.length = x.length) (k : Nat) (base : ℝ) :
    (∀ v : List ℝ, v.length = d → entropy psi nu (moved v x) k base = entropy psi nu x k base) ∧
    ∀ (c : ℝ) h, c ≠ 0 → entropy psi nu x k base = .ok h →
      entropy psi (scaled c nu) (scaled c x) k base = .ok (h + d * Real.log |c| / Real.log base) := by
  have hln := noisy_length hl
  have hs := noisy_sized hx hn
  refine ⟨fun v hv => ?_, fun c h hc hh => ?_⟩
  · unfold entropy
    have : (moved v x).length = x.length := by simp [moved]
    rw [this]
    split
    · rfl
    rename_i hk
    rw [noisy_moved hv hx hn]
    have hd : ∀ p ∈ noisy x nu, ∀ q ∈ noisy x nu, maxDist (List.zipWith (· + ·) p v) (List.zipWith (· + ·) q v)
        = maxDist p q := fun p hp q hq => maxDist_move p q v (by rw [hs p hp, hv]) (by rw [hs q hq, hv])
    have hk' : k < (noisy x nu).length := by omega
    have hne : noisy x nu ≠ [] := by intro h; rw [h] at hk'; simp at hk'
    refine entropyOf_congr psi (by simp [moved]) ?_ hk' base ?_ ?_
    · rw [dim_sized hs hne, dim_sized (d := d)]
      · intro p hp
        obtain ⟨q, hq, rfl⟩ := List.mem_map.mp hp
        simp [hs q hq, hv]
      · simpa [moved] using hne
    · unfold moved
      rw [List.forall_mem_map]
      exact forall₂_congr fun p hp => by rw [near_map (f := fun p => List.zipWith (· + ·) p v) 0 (hd p hp)]
    · unfold moved
      rw [List.map_map]
      congr 1
      exact List.map_congr_left fun p hp =>
        congrArg Real.log (eps_map (f := fun p => List.zipWith (· + ·) p v) k (hd p hp))
  · have hns : noisy (scaled c x) (scaled c nu) = scaled c (noisy x nu) := by
      unfold noisy scaled
      apply List.ext_getElem
      · simp
      · intro i h1 h2
        simp only [List.getElem_zipWith, List.getElem_map]
        apply List.ext_getElem
        · simp
        · intro j g1 g2
          simp only [List.getElem_zipWith, List.getElem_map]
          ring
    have hca : 0 < |c| := abs_pos.mpr hc
    have hnear : ∀ (y : Pts) p r, near (scaled c y) (|c| * r) (p.map (c * ·)) = near y r p := by
      intro y p r
      rw [near_eq, near_eq]
      unfold scaled
      rw [List.map_map, List.countP_map, List.countP_map]
      congr 1
      funext q
      simp only [Function.comp, maxDist_scale, decide_eq_decide]
      exact mul_le_mul_iff_of_pos_left hca
    unfold entropy at hh ⊢
    have : (scaled c x).length = x.length := by simp [scaled]
    rw [this]
    split at hh
    · cases hh
    rename_i hk
    rw [if_neg hk, hns]
    have hk' : k < (noisy x nu).length := by omega
    have hkc : k < (scaled c (noisy x nu)).length := by simpa [scaled] using hk'
    have hne : noisy x nu ≠ [] := by intro h; rw [h] at hk'; simp at hk'
    rcases Nat.eq_zero_or_pos k with rfl | h0
    · rw [entropyOf_zero psi hne] at hh; cases hh
    have htie : ∀ p ∈ noisy x nu, near (noisy x nu) 0 p ≤ k := by
      by_contra hcon
      push Not at hcon
      obtain ⟨p, hp, hp'⟩ := hcon
      rw [entropyOf_tie (by omega) hk' hp hp'] at hh
      cases hh
    rw [entropyOf_ok (by omega) hk' htie] at hh
    cases hh
    rw [entropyOf_ok (by omega) hkc]
    swap
    · intro p hp
      obtain ⟨q, hq, rfl⟩ := List.mem_map.mp hp
      have := hnear (noisy x nu) q 0
      rw [mul_zero] at this
      rw [this]
      exact htie q hq
    have heps : ∀ p, eps (scaled c (noisy x nu)) k (p.map (c * ·)) = |c| * eps (noisy x nu) k p := by
      intro p
      refine isNearest_unique (eps_nearest hkc _) ⟨?_, fun r hr => ?_⟩
      · rw [hnear]; exact (eps_nearest hk' p).1
      · have e : r = |c| * (r / |c|) := by field_simp
        rw [e, hnear]
        refine (eps_nearest hk' p).2 _ ?_
        rwa [div_lt_iff₀' hca]
    have hsum : ((scaled c (noisy x nu)).map fun p => Real.log (eps (scaled c (noisy x nu)) k p)).sum
        = (noisy x nu).length * Real.log |c| + ((noisy x nu).map fun p => Real.log (eps (noisy x nu) k p)).sum := by
      have h1 : ((scaled c (noisy x nu)).map fun p => Real.log (eps (scaled c (noisy x nu)) k p))
          = (noisy x nu).map fun p => Real.log |c| + Real.log (eps (noisy x nu) k p) := by
        conv_lhs => unfold scaled
        rw [List.map_map]
        refine List.map_congr_left fun p hp => ?_
        have := heps p
        unfold scaled at this
        simp only [Function.comp, this]
        rw [Real.log_mul hca.ne' ((eps_pos_iff hk' p).mpr (htie p hp)).ne']
      rw [h1, List.sum_map_add]
      simp
    have hdim : dim (scaled c (noisy x nu)) = d := by
      apply dim_sized
      · intro p hp
        obtain ⟨q, hq, rfl⟩ := List.mem_map.mp hp
        simp [hs q hq]
      · simpa [scaled] using hne
    unfold entropyVal
    rw [hsum, hdim, dim_sized hs hne]
    have hl2 : (scaled c (noisy x nu)).length = (noisy x nu).length := by simp [scaled]
    rw [hl2]
    have hpos : ((noisy x nu).length : ℝ) ≠ 0 := by
      have : 0 < (noisy x nu).length := by omega
      positivity
    congr 1
    rw [← add_div]
    congr 1
    field_simp
    ring

/-! ### Mutual information -/

theorem zipWith_sum {α β : Type} (f : α → β → ℝ) (a : List α) (b : List β) (da : α) (db : β) (n : Nat)
    (ha : a.length = n) (hb : b.length = n) :
    (List.zipWith f a b).sum = ∑ i ∈ Finset.range n, f (a.getD i da) (b.getD i db) := by
  have : List.zipWith f a b = (List.range n).map fun i => f (a.getD i da) (b.getD i db) := by
    apply List.ext_getElem
    · simp [ha, hb]
    · intro i h1 h2
      simp only [List.length_zipWith] at h1
      simp [List.getD_eq_getElem?_getD, List.getElem?_eq_getElem (by omega : i < a.length),
        List.getElem?_eq_getElem (by omega : i < b.length)]
  rw [this]
  simp [Finset.sum, Finset.range, Multiset.range]

theorem zip2_length {x y : Pts} (h : x.length = y.length) : (zip2 x y).length = x.length := by
  unfold zip2; simp [h]

theorem zip2_getD {x y : Pts} (h : x.length = y.length) {i : Nat} (hi : i < x.length) :
    (zip2 x y).getD i [] = x.getD i [] ++ y.getD i [] := by
  unfold zip2
  simp [List.getD_eq_getElem?_getD, List.getElem?_eq_getElem hi, List.getElem?_eq_getElem (h ▸ hi),
    List.getElem?_eq_getElem (show i < (List.zipWith (fun a b => a ++ b) x y).length by simp; omega)]

theorem avgdigamma_eq (psi : Nat → ℝ) (x : Pts) (e : List ℝ) (h : e.length = x.length) :
    avgdigamma psi x e = ∑ i ∈ Finset.range x.length,
      psi (near x (e.getD i 0 - 1e-15) (x.getD i [])) / x.length := by
  unfold avgdigamma
  rw [zipWith_sum _ _ _ [] 0 x.length rfl h]
  exact Finset.sum_congr rfl fun i _ => by rw [ball_eq]

/-- The distances to the nearest points, by position. -/
theorem eps_getD {x : Pts} (k : Nat) {i : Nat} (hi : i < x.length) :
    (x.map (eps x k)).getD i 0 = eps x k (x.getD i []) := by
  simp [List.getD_eq_getElem?_getD, List.getElem?_eq_getElem hi]

/-- C88. `mi` of `n` pairs: with the noise added, the estimate of Kraskov, Stögbauer and Grassberger: from
the distance of each joint point to its `k`-th nearest other one, the numbers of points of `x` and of
`y` that are closer than that. -/
theorem C88_mi (psi : Nat → ℝ) {x y nux nuy : Pts} (hxy : x.length = y.length) (hnx : nux.length = x.length)
    (hny : nuy.length = y.length) {k : Nat} (h0 : 1 ≤ k) (hk : k < x.length) (base : ℝ) :
    ∃ e : Nat → ℝ, (∀ i < x.length, IsNearest (zip2 (noisy x nux) (noisy y nuy)) (k + 1)
        ((noisy x nux).getD i [] ++ (noisy y nuy).getD i []) (e i)) ∧
      mi psi nux nuy x y k base = .ok ((
        -(∑ i ∈ Finset.range x.length, psi (near (noisy x nux) (e i - 1e-15) ((noisy x nux).getD i []))) / x.length
        - (∑ i ∈ Finset.range x.length, psi (near (noisy y nuy) (e i - 1e-15) ((noisy y nuy).getD i []))) / x.length
        + psi k + psi x.length) / Real.log base) := by
  have hx := noisy_length hnx
  have hy := noisy_length hny
  set X := noisy x nux
  set Y := noisy y nuy
  have hXY : X.length = Y.length := by omega
  have hz := zip2_length hXY
  have hk' : k < (zip2 X Y).length := by omega
  refine ⟨fun i => eps (zip2 X Y) k ((zip2 X Y).getD i []), fun i hi => ?_, ?_⟩
  · show IsNearest _ _ _ (eps (zip2 X Y) k ((zip2 X Y).getD i []))
    rw [zip2_getD hXY (by omega)]
    exact eps_nearest hk' _
  · have hm : miOf psi X Y k base = mi psi nux nuy x y k base := by
      unfold mi
      rw [if_neg (by omega), if_neg (by omega)]
    rw [← hm]
    unfold miOf
    simp only [collect_kth (by omega : k ≠ 0) hk']
    have hl1 : ((zip2 X Y).map (eps (zip2 X Y) k)).length = X.length := by simp [hz]
    rw [avgdigamma_eq psi X _ hl1, avgdigamma_eq psi Y _ (by omega)]
    have e1 : ∀ i < x.length, ((zip2 X Y).map (eps (zip2 X Y) k)).getD i 0
        = eps (zip2 X Y) k ((zip2 X Y).getD i []) := fun i hi => eps_getD k (by omega)
    rw [← hXY, hx, ← Finset.sum_div, ← Finset.sum_div]
    have es : ∀ Z : Pts, ∑ i ∈ Finset.range x.length,
        psi (near Z (((zip2 X Y).map (eps (zip2 X Y) k)).getD i 0 - 1e-15) (Z.getD i []))
        = ∑ i ∈ Finset.range x.length, psi (near Z (eps (zip2 X Y) k ((zip2 X Y).getD i []) - 1e-15) (Z.getD i [])) :=
      fun Z => Finset.sum_congr rfl fun i hi => by rw [e1 i (Finset.mem_range.mp hi)]
    rw [es X, es Y, neg_div]

theorem kth_fail_zero {x l : Pts} (h : l ≠ []) : Net.collect (kth x 0) l = .error .indexError := by
  cases l with
  | nil => exact absurd rfl h
  | cons a t => simp only [Net.collect, kth_zero]

/-- Joint points with the parts exchanged have the same distances. -/
theorem eps_swap {d : Nat} {x y : Pts} (hx : Sized d x) {e : Nat} (hy : Sized e y) (k : Nat)
    {p q : List ℝ} (hp : p.length = d) (hq : q.length = e) :
    eps (zip2 x y) k (p ++ q) = eps (zip2 y x) k (q ++ p) := by
  unfold eps
  congr 1
  unfold zip2
  apply List.ext_getElem
  · simp [Nat.min_comm]
  · intro i h1 h2
    simp only [List.length_map, List.length_zipWith] at h1
    simp only [List.getElem_map, List.getElem_zipWith]
    rw [maxDist_append _ _ _ _ (by rw [hp, hx _ (List.getElem_mem _)]),
      maxDist_append _ _ _ _ (by rw [hq, hy _ (List.getElem_mem _)]), max_comm]

/-- C88. The mutual information of `x` and `y` is that of `y` and `x`. -/
theorem C88_mi_symmetric (psi : Nat → ℝ) {d e : Nat} {x y nux nuy : Pts} (hx : Sized d x) (hy : Sized e y)
    (hsx : Sized d nux) (hsy : Sized e nuy) (hnx : nux.length = x.length) (hny : nuy.length = y.length)
    (k : Nat) (base : ℝ) : mi psi nux nuy x y k base = mi psi nuy nux y x k base := by
  unfold mi
  by_cases hl : x.length = y.length
  swap
  · rw [if_pos hl, if_pos (fun h => hl h.symm)]
  rw [if_neg (not_not.mpr hl), if_neg (not_not.mpr hl.symm), hl]
  split
  · rfl
  rename_i hk
  have hX := noisy_sized hx hsx
  have hY := noisy_sized hy hsy
  have lX := noisy_length hnx
  have lY := noisy_length hny
  set X := noisy x nux
  set Y := noisy y nuy
  have hXY : X.length = Y.length := by omega
  have h1 := zip2_length hXY
  have h2 := zip2_length hXY.symm
  unfold miOf
  rcases Nat.eq_zero_or_pos k with rfl | h0
  · rw [kth_fail_zero (by intro h; rw [h] at h1; simp at h1; omega),
      kth_fail_zero (by intro h; rw [h] at h2; simp at h2; omega)]
  · rw [collect_kth (by omega) (by omega), collect_kth (by omega) (by omega)]
    have e : (zip2 X Y).map (eps (zip2 X Y) k) = (zip2 Y X).map (eps (zip2 Y X) k) := by
      apply List.ext_getElem
      · simp [h1, h2, hXY]
      · intro i g1 g2
        simp only [List.length_map] at g1
        simp only [List.getElem_map]
        unfold zip2
        simp only [List.getElem_zipWith]
        exact eps_swap hX hY k (hX _ (List.getElem_mem _)) (hY _ (List.getElem_mem _))
    simp only [e, hXY]
    congr 2
    ring

theorem noisy_map {A : Type} (l : List A) (a b : A → List ℝ) :
    noisy (l.map a) (l.map b) = l.map fun t => List.zipWith (fun u v => u + 1e-10 * v) (a t) (b t) := by
  unfold noisy
  rw [List.zipWith_map, List.zipWith_self]

theorem zip2_map {A : Type} (l : List A) (a b : A → List ℝ) : zip2 (l.map a) (l.map b) = l.map fun t => a t ++ b t := by
  unfold zip2
  rw [List.zipWith_map, List.zipWith_self]

theorem avgdigamma_map {A : Type} (psi : Nat → ℝ) (l : List A) (a : A → List ℝ) (e : A → ℝ) :
    avgdigamma psi (l.map a) (l.map e)
      = (l.map fun t => psi (near (l.map a) (e t - 1e-15) (a t)) / l.length).sum := by
  unfold avgdigamma
  rw [List.zipWith_map, List.zipWith_self, List.length_map]
  congr 1
  exact List.map_congr_left fun t _ => by rw [ball_eq]

theorem avgdigamma_perm {A : Type} (psi : Nat → ℝ) {l l' : List A} (h : l.Perm l') (a : A → List ℝ) (e : A → ℝ) :
    avgdigamma psi (l.map a) (l.map e) = avgdigamma psi (l'.map a) (l'.map e) := by
  rw [avgdigamma_map, avgdigamma_map, (h.map _).sum_eq, h.length_eq]
  congr 1
  exact List.map_congr_left fun t _ => by rw [near_perm (h.map a)]

/-- C88. The order of the pairs does not matter: `t.1.1` and `t.2.1` are the points, `t.1.2` and `t.2.2`
their noise. -/
theorem C88_mi_permute (psi : Nat → ℝ) {l l' : List ((List ℝ × List ℝ) × (List ℝ × List ℝ))}
    (h : l.Perm l') (k : Nat) (base : ℝ) :
    mi psi (l.map fun t => t.1.2) (l.map fun t => t.2.2) (l.map fun t => t.1.1) (l.map fun t => t.2.1) k base
      = mi psi (l'.map fun t => t.1.2) (l'.map fun t => t.2.2) (l'.map fun t => t.1.1)
        (l'.map fun t => t.2.1) k base := by
  unfold mi
  simp only [List.length_map, not_true_eq_false, if_false, h.length_eq]
  split
  · rfl
  rename_i hk
  unfold miOf
  simp only [noisy_map, zip2_map]
  rcases Nat.eq_zero_or_pos k with rfl | h0
  · rw [kth_fail_zero, kth_fail_zero]
    · intro hn; have := congrArg List.length hn; simp at this; rw [this] at hk; simp at hk
    · intro hn; have := congrArg List.length hn; simp at this
      have h2 := h.length_eq; rw [this] at h2; simp at h2; omega
  · have hlen := h.length_eq
    rw [collect_kth (by omega) (by simp; omega), collect_kth (by omega) (by simp; omega)]
    simp only [List.map_map, List.length_map]
    have he : ∀ g : ((List ℝ × List ℝ) × (List ℝ × List ℝ)) → List ℝ, eps (l.map g) k = eps (l'.map g) k :=
      fun g => funext fun p => eps_perm (h.map g) k p
    rw [he, avgdigamma_perm psi h, avgdigamma_perm psi h, hlen]

/-- C88. Adding a vector to every point of `x`, or of `y`, does not change their mutual information. -/
theorem C88_mi_translate (psi : Nat → ℝ) {d e : Nat} {x y nux nuy : Pts} (hx : Sized d x) (hy : Sized e y)
    (hsx : Sized d nux) (hsy : Sized e nuy) (hnx : nux.length = x.length) (hny : nuy.length = y.length)
    (k : Nat) (base : ℝ) :
    (∀ v : List ℝ, v.length = d → mi psi nux nuy (moved v x) y k base = mi psi nux nuy x y k base) ∧
    ∀ v : List ℝ, v.length = e → mi psi nux nuy x (moved v y) k base = mi psi nux nuy x y k base := by
  have key : ∀ {d e : Nat} {x y nux nuy : Pts}, Sized d x → Sized e y → Sized d nux → Sized e nuy →
      nux.length = x.length → nuy.length = y.length → ∀ v : List ℝ, v.length = d →
      mi psi nux nuy (moved v x) y k base = mi psi nux nuy x y k base := by
    intro d e x y nux nuy hx hy hsx hsy hnx hny v hv
    have hmv : (moved v x).length = x.length := by simp [moved]
    unfold mi
    rw [hmv]
    split
    · rfl
    split
    · rfl
    rename_i hxy hk
    rw [noisy_moved hv hx hsx]
    have hX := noisy_sized hx hsx
    have lX := noisy_length hnx
    have lY := noisy_length hny
    set X := noisy x nux
    set Y := noisy y nuy
    have hXY : X.length = Y.length := by omega
    have hmX : (moved v X).length = X.length := by simp [moved]
    have h1 := zip2_length hXY
    have h2 := zip2_length (hmX.trans hXY)
    unfold miOf
    rcases Nat.eq_zero_or_pos k with rfl | h0
    · rw [kth_fail_zero (by intro h; rw [h] at h2; simp at h2; omega),
        kth_fail_zero (by intro h; rw [h] at h1; simp at h1; omega)]
    · rw [collect_kth (by omega) (by omega), collect_kth (by omega) (by omega)]
      have ee : (zip2 (moved v X) Y).map (eps (zip2 (moved v X) Y) k) = (zip2 X Y).map (eps (zip2 X Y) k) := by
        apply List.ext_getElem
        · simp [h1, h2, hmX]
        · intro i g1 g2
          simp only [List.length_map] at g2
          simp only [List.getElem_map]
          unfold eps
          congr 1
          unfold zip2 moved
          apply List.ext_getElem
          · simp
          · intro j j1 j2
            simp only [List.getElem_map, List.getElem_zipWith]
            rw [maxDist_append _ _ _ _ (by
                simp [hX _ (List.getElem_mem (_ : i < X.length)), hX _ (List.getElem_mem (_ : j < X.length))]),
              maxDist_append _ _ _ _ (by
                rw [hX _ (List.getElem_mem (_ : i < X.length)), hX _ (List.getElem_mem (_ : j < X.length))]),
              maxDist_move _ _ _ (by rw [hX _ (List.getElem_mem _), hv]) (by rw [hX _ (List.getElem_mem _), hv])]
      have ea : ∀ dv : List ℝ, avgdigamma psi (moved v X) dv = avgdigamma psi X dv := by
        intro dv
        unfold avgdigamma
        rw [hmX]
        congr 1
        conv_lhs => unfold moved
        rw [List.zipWith_map_left]
        apply List.ext_getElem
        · simp
        · intro i g1 g2
          simp only [List.getElem_zipWith]
          rw [ball_eq, ball_eq]
          have := near_map (f := fun p => List.zipWith (· + ·) p v) (x := X) (p := X[i]'(by simp at g2; omega))
            (dv[i]'(by simp at g2; omega) - 1e-15) (fun q hq => maxDist_move _ q v
              (by rw [hX _ (List.getElem_mem _), hv]) (by rw [hX q hq, hv]))
          rw [this]
      simp only [ee, ea, hmX]
  refine ⟨key hx hy hsx hsy hnx hny, fun v hv => ?_⟩
  have hm : Sized e (moved v y) := by
    intro p hp
    obtain ⟨q, hq, rfl⟩ := List.mem_map.mp hp
    simp [hy q hq, hv]
  rw [C88_mi_symmetric psi hx hm hsx hsy hnx (by simp [moved, hny]), key hy hx hsy hsx hny hnx v hv,
    C88_mi_symmetric psi hy hx hsy hsx hny hnx]

/-! ### Conditional mutual information -/

/-- C88. `cmi` of `n` triples: from the distance of each joint point to its `k`-th nearest other one, the
numbers of points of `(x, z)`, of `(y, z)` and of `z` that are closer than that. -/
theorem C88_cmi (psi : Nat → ℝ) {x y z nux nuy nuz : Pts} (hxy : x.length = y.length)
    (hxz : x.length = z.length) (hnx : nux.length = x.length)
    (hny : nuy.length = y.length) (hnz : nuz.length = z.length) {k : Nat} (h0 : 1 ≤ k) (hk : k < x.length)
    (base : ℝ) :
    ∃ e : Nat → ℝ, (∀ i < x.length,
        IsNearest (zip2 (zip2 (noisy x nux) (noisy y nuy)) (noisy z nuz)) (k + 1)
          ((noisy x nux).getD i [] ++ (noisy y nuy).getD i [] ++ (noisy z nuz).getD i []) (e i)) ∧
      cmi psi nux nuy nuz x y z k base = .ok ((
        -(∑ i ∈ Finset.range x.length, psi (near (zip2 (noisy x nux) (noisy z nuz)) (e i - 1e-15)
            ((noisy x nux).getD i [] ++ (noisy z nuz).getD i []))) / x.length
        - (∑ i ∈ Finset.range x.length, psi (near (zip2 (noisy y nuy) (noisy z nuz)) (e i - 1e-15)
            ((noisy y nuy).getD i [] ++ (noisy z nuz).getD i []))) / x.length
        + (∑ i ∈ Finset.range x.length, psi (near (noisy z nuz) (e i - 1e-15)
            ((noisy z nuz).getD i []))) / x.length
        + psi k) / Real.log base) := by
  have hx := noisy_length hnx
  have hy := noisy_length hny
  have hz := noisy_length hnz
  set X := noisy x nux
  set Y := noisy y nuy
  set Z := noisy z nuz
  have hXY : X.length = Y.length := by omega
  have h1 := zip2_length hXY
  have hXZ : X.length = Z.length := by omega
  have hYZ : Y.length = Z.length := by omega
  have h2 := zip2_length hXZ
  have h3 := zip2_length hYZ
  have hJ : (zip2 X Y).length = Z.length := by omega
  have h4 := zip2_length hJ
  set J := zip2 (zip2 X Y) Z with hJd
  have hk' : k < J.length := by omega
  refine ⟨fun i => eps J k (J.getD i []), fun i hi => ?_, ?_⟩
  · show IsNearest _ _ _ (eps J k (J.getD i []))
    have : J.getD i [] = X.getD i [] ++ Y.getD i [] ++ Z.getD i [] := by
      rw [hJd, zip2_getD hJ (by omega), zip2_getD hXY (by omega)]
    rw [this]
    exact eps_nearest hk' _
  · have hm : cmiOf psi X Y Z k base = cmi psi nux nuy nuz x y z k base := by
      unfold cmi
      rw [if_neg (by omega), if_neg (by omega)]
    rw [← hm]
    unfold cmiOf
    rw [← hJd, collect_kth (by omega : k ≠ 0) hk']
    simp only
    have hl1 : (J.map (eps J k)).length = X.length := by simp; omega
    rw [avgdigamma_eq psi (zip2 X Z) _ (by omega), avgdigamma_eq psi (zip2 Y Z) _ (by omega),
      avgdigamma_eq psi Z _ (by omega)]
    have e1 : ∀ i < x.length, (J.map (eps J k)).getD i 0 = eps J k (J.getD i []) :=
      fun i hi => eps_getD k (by omega)
    rw [h2, h3, ← hXZ, ← hXY, hx, ← Finset.sum_div, ← Finset.sum_div, ← Finset.sum_div]
    have es : ∀ (W : Pts) (g : Nat → List ℝ), (∀ i < x.length, W.getD i [] = g i) →
        ∑ i ∈ Finset.range x.length, psi (near W ((J.map (eps J k)).getD i 0 - 1e-15) (W.getD i []))
        = ∑ i ∈ Finset.range x.length, psi (near W (eps J k (J.getD i []) - 1e-15) (g i)) :=
      fun W g hg => Finset.sum_congr rfl fun i hi => by
        rw [e1 i (Finset.mem_range.mp hi), hg i (Finset.mem_range.mp hi)]
    rw [es (zip2 X Z) (fun i => X.getD i [] ++ Z.getD i []) fun i hi => zip2_getD hXZ (by omega),
      es (zip2 Y Z) (fun i => Y.getD i [] ++ Z.getD i []) fun i hi => zip2_getD hYZ (by omega),
      es Z (fun i => Z.getD i []) fun i _ => rfl, neg_div]

/-- C88. The conditional mutual information of `x` and `y` is that of `y` and `x`. -/
theorem C88_cmi_symmetric (psi : Nat → ℝ) {d e : Nat} {x y z nux nuy nuz : Pts} (hx : Sized d x)
    (hy : Sized e y) (hsx : Sized d nux) (hsy : Sized e nuy) (hxz : x.length = z.length)
    (hnx : nux.length = x.length) (hny : nuy.length = y.length) (hnz : nuz.length = z.length)
    (k : Nat) (base : ℝ) :
    cmi psi nux nuy nuz x y z k base = cmi psi nuy nux nuz y x z k base := by
  unfold cmi
  by_cases hl : x.length = y.length
  swap
  · rw [if_pos hl, if_pos (fun h => hl h.symm)]
  rw [if_neg (not_not.mpr hl), if_neg (not_not.mpr hl.symm), hl]
  split
  · rfl
  rename_i hk
  have hX := noisy_sized hx hsx
  have hY := noisy_sized hy hsy
  have lX := noisy_length hnx
  have lY := noisy_length hny
  have lZ := noisy_length hnz
  set X := noisy x nux
  set Y := noisy y nuy
  set Z := noisy z nuz
  have hXY : X.length = Y.length := by omega
  have a1 := zip2_length hXY
  have a2 := zip2_length hXY.symm
  have h1 := zip2_length (show (zip2 X Y).length = Z.length by omega)
  have h2 := zip2_length (show (zip2 Y X).length = Z.length by omega)
  unfold cmiOf
  rcases Nat.eq_zero_or_pos k with rfl | h0
  · rw [kth_fail_zero (by intro h; rw [h] at h1; simp at h1; omega),
      kth_fail_zero (by intro h; rw [h] at h2; simp at h2; omega)]
  · rw [collect_kth (by omega) (by omega), collect_kth (by omega) (by omega)]
    have ee : (zip2 (zip2 X Y) Z).map (eps (zip2 (zip2 X Y) Z) k)
        = (zip2 (zip2 Y X) Z).map (eps (zip2 (zip2 Y X) Z) k) := by
      apply List.ext_getElem
      · simp only [List.length_map]; omega
      · intro i g1 g2
        simp only [List.length_map] at g1
        simp only [List.getElem_map]
        unfold eps
        congr 1
        apply List.ext_getElem
        · simp only [List.length_map]; omega
        · intro j j1 j2
          simp only [List.length_map] at j1
          have iX : i < X.length := by omega
          have iY : i < Y.length := by omega
          have jX : j < X.length := by omega
          have jY : j < Y.length := by omega
          have eX := hX _ (List.getElem_mem iX)
          have eX' := hX _ (List.getElem_mem jX)
          have eY := hY _ (List.getElem_mem iY)
          have eY' := hY _ (List.getElem_mem jY)
          simp only [List.getElem_map, zip2, List.getElem_zipWith]
          rw [maxDist_append (X[i] ++ Y[i]) _ (X[j] ++ Y[j]) _ (by simp [eX, eX', eY, eY']),
            maxDist_append (Y[i] ++ X[i]) _ (Y[j] ++ X[j]) _ (by simp [eX, eX', eY, eY']),
            maxDist_append X[i] _ X[j] _ (by rw [eX, eX']), maxDist_append Y[i] _ Y[j] _ (by rw [eY, eY']),
            max_comm (maxDist X[i] X[j])]
    simp only [ee]
    congr 2
    ring

/-! ### Divergence -/

/-- C88. `kldiv` of two samples, for `k ≥ 2`: from the distances of each point of `x` to its `k`-th nearest
other point of `x` and to its `k`-th nearest point of `xp`.  A point of `x` that coincides with `k` others,
or with `k` points of `xp`, is a `ValueError`. -/
theorem C88_kldiv {d : Nat} {x xp : Pts} (hx : Sized d x) (hp : Sized d xp) {k : Nat} (h0 : 2 ≤ k)
    (hk : k < x.length) (hkp : k < xp.length) (base : ℝ) :
    ((∀ p ∈ x, near x 0 p ≤ k ∧ near xp 0 p < k) → ∃ e e' : List ℝ → ℝ,
      (∀ p ∈ x, IsNearest x (k + 1) p (e p) ∧ IsNearest xp k p (e' p)) ∧
      kldiv x xp k base = .ok ((Real.log xp.length - Real.log (x.length - 1)
        + d * ((x.map fun p => Real.log (e' p)).sum / x.length)
        - d * ((x.map fun p => Real.log (e p)).sum / x.length)) / Real.log base)) ∧
    ((∃ p ∈ x, k < near x 0 p ∨ k ≤ near xp 0 p) → kldiv x xp k base = .error .valueError) := by
  have hne : x ≠ [] := by rintro rfl; simp at hk
  have hnp : xp ≠ [] := by rintro rfl; simp at hkp
  have hd := dim_sized hx hne
  have hdp := dim_sized hp hnp
  have hlog : pyLog ((x.length : ℝ) - 1) = .ok (Real.log (x.length - 1)) := by
    apply pyLog_ok
    have : (3 : ℝ) ≤ x.length := by exact_mod_cast (by omega : 3 ≤ x.length)
    linarith
  have hko : Net.collect (kthOther xp k) x = .ok (x.map (eps xp (k - 1))) :=
    Net.collect_ok _ _ _ fun p _ => kthOther_ok h0 (by omega) p
  have hsucc : k - 1 + 1 = k := by omega
  have hkp' : k - 1 < xp.length := by omega
  have hpos' : ∀ p, 0 < eps xp (k - 1) p ↔ near xp 0 p < k := fun p => by
    rw [eps_pos_iff hkp' p]; omega
  unfold kldiv
  rw [if_neg (by omega), if_neg (by omega), if_neg (by rw [hd, hdp]; simp)]
  simp only [hlog, collect_kth (by omega : k ≠ 0) hk, hko]
  constructor
  · intro h
    refine ⟨eps x k, eps xp (k - 1), fun p _ => ⟨eps_nearest hk p, ?_⟩, ?_⟩
    · have := eps_nearest hkp' p
      rwa [hsucc] at this
    · have l1 : Net.collect pyLog (x.map (eps xp (k - 1))) = .ok ((x.map (eps xp (k - 1))).map Real.log) := by
        refine logs_ok fun a ha => ?_
        obtain ⟨p, hpm, rfl⟩ := List.mem_map.mp ha
        exact (hpos' p).mpr (h p hpm).2
      have l2 : Net.collect pyLog (x.map (eps x k)) = .ok ((x.map (eps x k)).map Real.log) := by
        refine logs_ok fun a ha => ?_
        obtain ⟨p, hpm, rfl⟩ := List.mem_map.mp ha
        exact (eps_pos_iff hk p).mpr (h p hpm).1
      simp only [l1, l2, List.map_map, mean, List.length_map, hd]
      rfl
  · rintro ⟨p, hpm, h⟩
    by_cases hall : ∀ q ∈ x, near xp 0 q < k
    · have l1 : Net.collect pyLog (x.map (eps xp (k - 1))) = .ok ((x.map (eps xp (k - 1))).map Real.log) := by
        refine logs_ok fun a ha => ?_
        obtain ⟨p, hpm, rfl⟩ := List.mem_map.mp ha
        exact (hpos' p).mpr (hall p hpm)
      have hx' : k < near x 0 p := by
        rcases h with h | h
        · exact h
        · exact absurd (hall p hpm) (by omega)
      have l2 : Net.collect pyLog (x.map (eps x k)) = .error .valueError :=
        logs_fail (List.mem_map_of_mem hpm) fun g => absurd ((eps_pos_iff hk p).mp g) (by omega)
      simp only [l1, l2]
    · push Not at hall
      obtain ⟨q, hq, hq'⟩ := hall
      have l1 : Net.collect pyLog (x.map (eps xp (k - 1))) = .error .valueError :=
        logs_fail (List.mem_map_of_mem hq) fun g => absurd ((hpos' q).mp g) (by omega)
      simp only [l1]

/-- C88. With `k = 1` the divergence of any two samples, and with `k = 0` every estimate, is an
`IndexError`: asked for one neighbour, the search returns a number, not a list. -/
theorem C88_one_violated (psi : Nat → ℝ) {d : Nat} {x xp nu : Pts} (hx : Sized d x) (hp : Sized d xp)
    (hl : nu.length = x.length) (base : ℝ) :
    (1 < x.length → 1 < xp.length → kldiv x xp 1 base = .error .indexError) ∧
    (0 < x.length → entropy psi nu x 0 base = .error .indexError) := by
  refine ⟨fun h1 h2 => ?_, fun h => ?_⟩
  · have hne : x ≠ [] := by rintro rfl; simp at h1
    have hnp : xp ≠ [] := by rintro rfl; simp at h2
    have hlog : pyLog ((x.length : ℝ) - 1) = .ok (Real.log (x.length - 1)) := by
      apply pyLog_ok
      have : (2 : ℝ) ≤ x.length := by exact_mod_cast (by omega : 2 ≤ x.length)
      linarith
    have hko : Net.collect (kthOther xp 1) x = .error .indexError := by
      cases x with
      | nil => exact absurd rfl hne
      | cons a t =>
        have : kthOther xp 1 a = .error .indexError := by
          unfold kthOther; rw [if_neg (by omega), if_pos rfl]
        simp only [Net.collect, this]
    unfold kldiv
    rw [if_neg (by omega), if_neg (by omega), if_neg (by rw [dim_sized hx hne, dim_sized hp hnp]; simp)]
    simp only [hlog, collect_kth one_ne_zero h1, hko]
  · unfold entropy
    rw [if_neg (by omega)]
    have := noisy_length hl
    exact entropyOf_zero psi (by intro hn; rw [hn] at this; simp at this; omega) base

/-! ### Mixed samples -/

/-- C88. `micd` of points and labels: the entropy of the points less the mean, over the labels, of the
entropies of the points with that label; for a label with too few points the entropy of all. -/
theorem C88_micd {K : Type} [DecidableEq K] (psi : Nat → ℝ) {nu0 : Pts} {nu : K → Pts} {x : Pts} {y : List K}
    (hxy : x.length = y.length) {k : Nat} {base H : ℝ} (hH : entropy psi nu0 x k base = .ok H)
    {h : K → ℝ} (hh : ∀ v ∈ y, k < (given x y v).length → entropy psi (nu v) (given x y v) k base = .ok (h v))
    (hf : ∀ v ∈ y, (given x y v).length ≤ k → h v = H) :
    (∀ v, (given x y v).length = y.count v) ∧
    micd psi nu0 nu x y k base = .ok (H - ∑ v ∈ y.toFinset, (y.count v : ℝ) / y.length * h v) := by
  constructor
  · intro v
    unfold given
    rw [List.length_map, ← List.countP_eq_length_filter]
    have : (x.zip y).countP (fun p => decide (p.2 = v)) = ((x.zip y).map Prod.snd).countP (fun w => decide (w = v)) := by
      rw [List.countP_map]; rfl
    rw [this, List.map_snd_zip (by omega)]
    rfl
  · unfold micd
    rw [hH]
    simp only
    rw [if_neg (by omega)]
    have hperm := Entropy.tally_perm y
    have hc : Net.collect (micdStep psi nu x y k base H) (y.foldl Entropy.tally [])
        = .ok ((y.foldl Entropy.tally []).map fun p => (p.2 : ℝ) / y.length * h p.1) := by
      refine Net.collect_ok _ _ _ fun p hp => ?_
      have hm := hperm.mem_iff.mp hp
      obtain ⟨v, hv, rfl⟩ := List.mem_map.mp hm
      rw [List.mem_dedup] at hv
      unfold micdStep
      split
      · rename_i hk
        simp only [hh v hv hk]
      · rename_i hk
        rw [hf v hv (by simp only at hk; omega)]
    rw [hc]
    simp only
    congr 2
    have he : y.dedup.toFinset = y.toFinset := by ext; simp
    rw [(hperm.map _).sum_eq, List.map_map, ← he, List.sum_toFinset _ (List.nodup_dedup y)]
    rfl

/-! ### The hypotheses can be met -/

/-- Three points on a line, and noise. -/
def linePts : Pts := [[0], [1], [3]]
def lineNoise : Pts := [[0], [0], [0]]

theorem line_sized : Sized 1 linePts ∧ Sized 1 lineNoise := by
  constructor <;> simp [Sized, linePts, lineNoise]

theorem line_noisy : noisy linePts lineNoise = linePts := by
  simp [noisy, linePts, lineNoise]

theorem line_near : ∀ p ∈ linePts, near linePts 0 p ≤ 1 := by
  simp [linePts, near, Within, List.countP_cons]
  norm_num

example : Sized 1 linePts ∧ Sized 1 lineNoise ∧ lineNoise.length = linePts.length ∧ 1 < linePts.length ∧
    ∀ p ∈ noisy linePts lineNoise, near (noisy linePts lineNoise) 0 p ≤ 1 :=
  ⟨line_sized.1, line_sized.2, rfl, by simp [linePts], by rw [line_noisy]; exact line_near⟩

/-- Points that coincide. -/
example : ∃ p ∈ noisy [[0], [0], [3]] lineNoise, 1 < near (noisy [[0], [0], [3]] lineNoise) 0 p := by
  have : noisy [[0], [0], [3]] lineNoise = [[0], [0], [3]] := by simp [noisy, lineNoise]
  rw [this]
  exact ⟨[0], by simp, by simp [near, Within, List.countP_cons]⟩

/-- Another order; a scale. -/
example : ([[1], [0], [3]].zip [[0], [0], [0]]).Perm (linePts.zip lineNoise) ∧
    ∃ h, entropy (fun _ => 0) lineNoise linePts 1 2 = .ok h := by
  refine ⟨by unfold linePts lineNoise; exact List.Perm.swap _ _ _, ?_⟩
  obtain ⟨e, -, he⟩ := (C88_entropy (fun _ => 0) line_sized.1 line_sized.2 rfl le_rfl
    (by simp [linePts]) 2).1 (by rw [line_noisy]; exact line_near)
  exact ⟨_, he⟩

/-- Two samples; and two that share a point twice. -/
example : (∀ p ∈ linePts, near linePts 0 p ≤ 2 ∧ near [[5], [6], [8]] 0 p < 2) ∧
    ∃ p ∈ linePts, 2 ≤ near [[1], [1], [8]] 0 p := by
  constructor
  · simp [linePts, near, Within, List.countP_cons]
    norm_num
  · exact ⟨[1], by simp [linePts], by simp [near, Within, List.countP_cons]⟩

/-- Labels, one of them with one point only. -/
example : ∃ (H : ℝ) (h : Bool → ℝ), entropy (fun _ => 0) lineNoise linePts 1 2 = .ok H ∧
    (∀ v ∈ [true, true, false], 1 < (given linePts [true, true, false] v).length →
      entropy (fun _ => 0) [[0], [0]] (given linePts [true, true, false] v) 1 2 = .ok (h v)) ∧
    ∀ v ∈ [true, true, false], (given linePts [true, true, false] v).length ≤ 1 → h v = H := by
  obtain ⟨e, -, he⟩ := (C88_entropy (fun _ => 0) line_sized.1 line_sized.2 rfl le_rfl
    (by simp [linePts]) 2).1 (by rw [line_noisy]; exact line_near)
  have hn : noisy [[0], [1]] [[0], [0]] = [[0], [1]] := by simp [noisy]
  obtain ⟨e', -, he'⟩ := (C88_entropy (fun _ => 0) (d := 1) (x := [[0], [1]]) (nu := [[0], [0]])
    (by simp [Sized]) (by simp [Sized]) rfl le_rfl (by simp) 2).1
    (by rw [hn]; simp [near, Within, List.countP_cons])
  obtain ⟨H, hH⟩ : ∃ H, entropy (fun _ => 0) lineNoise linePts 1 2 = .ok H := ⟨_, he⟩
  obtain ⟨H', hH'⟩ : ∃ H, entropy (fun _ => 0) [[0], [0]] [[0], [1]] 1 2 = .ok H := ⟨_, he'⟩
  refine ⟨H, fun v => if v then H' else H, hH, fun v hv hl => ?_, fun v hv hl => ?_⟩
  · cases v
    · simp [given, linePts] at hl
    · exact hH'
  · cases v
    · rfl
    · simp [given, linePts] at hl

end Cgpm.Props
