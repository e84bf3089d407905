import Verif.Lemmas.Constraints

namespace Cgpm
open Classical Props

/-! ### `simulate_crp` -/

theorem pyMax_le {l : List Nat} {n : Nat} (hl : l ≠ []) (h : ∀ x ∈ l, x ≤ n) : pyMax l ≤ n := by
  have key : ∀ (t : List Nat) (x : Nat), x ≤ n → (∀ y ∈ t, y ≤ n) → t.foldl max x ≤ n := by
    intro t
    induction t with
    | nil => intro x hx _; exact hx
    | cons y t ih => intro x hx h; exact ih _ (max_le hx (h y (by simp))) fun z hz => h z (by simp [hz])
  cases l with
  | nil => exact absurd rfl hl
  | cons x t => exact key t x (h x (by simp)) fun y hy => h y (by simp [hy])

theorem sum_modify_succ (Nk : List Nat) (a : Nat) (h : a < Nk.length) :
    (Nk.modify a (· + 1)).sum = Nk.sum + 1 := by
  induction Nk generalizing a with
  | nil => simp at h
  | cons x t ih =>
    cases a with
    | zero => simp [List.modify_cons]; omega
    | succ a => simp only [List.modify_succ_cons, List.sum_cons, ih a (by simpa using h)]; omega

/-- Invariant of the loop of `simulate_crp` before customer `i`. -/
structure CrpLoopInv (i : Nat) (part Nk : List Nat) : Prop where
  len : part.length = i
  tot : Nk.sum = i
  lt : ∀ a ∈ part, a < Nk.length
  all : ∀ k < Nk.length, k ∈ part
  cnt : ∀ k, Nk[k]? = if k < Nk.length then some (part.count k) else none

theorem crpWeights_ok {i : Nat} (hi : 1 ≤ i) {alpha : ℝ} (ha : 0 < alpha) (Nk : List Nat) :
    let ps := (Nk.map fun n : Nat => (n : ℝ) / ((i : ℝ) - 1 + alpha)) ++ [alpha / ((i : ℝ) - 1 + alpha)]
    (∀ x ∈ ps, 0 ≤ x) ∧ 0 < ps.sum ∧ ps.length = Nk.length + 1 := by
  have hd : (0 : ℝ) < (i : ℝ) - 1 + alpha := by
    have : (1 : ℝ) ≤ i := by exact_mod_cast hi
    linarith
  have h0 : ∀ x ∈ (Nk.map fun n : Nat => (n : ℝ) / ((i : ℝ) - 1 + alpha)), 0 ≤ x := by
    intro x hx
    obtain ⟨n, -, rfl⟩ := List.mem_map.mp hx
    exact div_nonneg (Nat.cast_nonneg n) hd.le
  refine ⟨fun x hx => ?_, ?_, by simp⟩
  · rcases List.mem_append.mp hx with hx | hx
    · exact h0 x hx
    · rw [List.mem_singleton] at hx; subst hx; exact (div_pos ha hd).le
  · rw [List.sum_append]
    have := List.sum_nonneg h0
    have h2 : 0 < alpha / ((i : ℝ) - 1 + alpha) := div_pos ha hd
    simp only [List.sum_cons, List.sum_nil, add_zero]
    linarith

theorem crpLoop_ok {alpha : ℝ} (ha : 0 < alpha) (us : Nat → ℝ)
    (hus : ∀ i, 0 ≤ us i ∧ us i < 1) (n i : Nat) (hi : 1 ≤ i) {part Nk : List Nat}
    (hI : CrpLoopInv i part Nk) :
    ∃ part' Nk', crpLoop alpha us (List.range' i n) part Nk = .ok (part', Nk') ∧
      CrpLoopInv (i + n) part' Nk' := by
  induction n generalizing i part Nk with
  | zero => exact ⟨part, Nk, rfl, hI⟩
  | succ n ih =>
    obtain ⟨p0, ps, pl⟩ := crpWeights_ok hi ha Nk
    obtain ⟨a, hal, hfl, -⟩ := pflip_range p0 ps (hus i).1 (hus i).2
    rw [pl] at hal
    rw [List.range'_succ, crpLoop]
    simp only [hfl]
    have e : i + (n + 1) = i + 1 + n := by omega
    by_cases h1 : a = Nk.length
    · rw [if_pos h1, e]
      refine ih (i + 1) (by omega) ⟨by simp [hI.len], by simp [hI.tot], ?_, ?_, ?_⟩
      · intro x hx
        rcases List.mem_append.mp hx with hx | hx
        · have := hI.lt x hx; simp; omega
        · rw [List.mem_singleton] at hx; simp; omega
      · intro k hk
        simp at hk
        by_cases h : k = Nk.length
        · simp [h, h1]
        · simp [hI.all k (by omega)]
      · intro k
        by_cases h : k = Nk.length
        · subst h
          have h0 : part.count Nk.length = 0 :=
            List.count_eq_zero.mpr fun hm => absurd (hI.lt _ hm) (lt_irrefl _)
          simp [h1, List.count_append, h0]
        · by_cases hk : k < Nk.length
          · rw [List.getElem?_append_left hk, hI.cnt k, if_pos hk, if_pos (by simp; omega)]
            have : Nk.length ≠ k := fun e => h e.symm
            simp [List.count_append, h1, List.count_cons, this]
          · rw [List.getElem?_eq_none (by simp; omega), if_neg (by simp; omega)]
    · rw [if_neg h1, if_pos (by omega), e]
      refine ih (i + 1) (by omega) ⟨by simp [hI.len], ?_, ?_, ?_, ?_⟩
      · rw [sum_modify_succ _ _ (by omega), hI.tot]
      · intro x hx
        rw [List.length_modify]
        rcases List.mem_append.mp hx with hx | hx
        · exact hI.lt x hx
        · rw [List.mem_singleton] at hx; omega
      · intro k hk
        rw [List.length_modify] at hk
        simp [hI.all k hk]
      · intro k
        rw [List.length_modify, List.getElem?_modify, hI.cnt k]
        by_cases hk : k < Nk.length
        · rw [if_pos hk, if_pos hk]
          by_cases h : a = k
          · simp [h, List.count_append]
          · simp [h, List.count_append, List.count_cons]
        · rw [if_neg hk, if_neg hk]; rfl

theorem range_drop_one (N : Nat) : (List.range N).drop 1 = List.range' 1 (N - 1) := by
  rw [List.range_eq_range']
  cases N with
  | zero => rfl
  | succ n => simp [List.range'_succ]

theorem crpLoopInv_one : CrpLoopInv 1 [0] [1] := by
  refine ⟨rfl, rfl, by simp, fun k hk => by simp at hk; simp [hk], fun k => ?_⟩
  cases k with
  | zero => simp
  | succ k => simp

theorem simulateCrp_ok {N : Nat} (hN : 0 < N) {alpha : ℝ} (ha : 0 < alpha) (us : Nat → ℝ)
    (hus : ∀ i, 0 ≤ us i ∧ us i < 1) :
    ∃ part K, simulateCrp N alpha us = .ok part ∧ part.length = N ∧
      ∀ a, a ∈ part ↔ a < K := by
  obtain ⟨part, Nk, e, hI⟩ := crpLoop_ok ha us hus (N - 1) 1 le_rfl crpLoopInv_one
  have hN' : 1 + (N - 1) = N := by omega
  rw [hN'] at hI
  refine ⟨part, Nk.length, ?_, hI.len, fun a => ⟨hI.lt a, hI.all a⟩⟩
  unfold simulateCrp
  rw [if_neg (by rintro (h | h); omega; linarith), range_drop_one, e]
  simp only
  have hne : part ≠ [] := by
    intro h; have := hI.len; rw [h] at this; simp at this; omega
  have hK : 0 < Nk.length := by
    cases part with
    | nil => exact absurd rfl hne
    | cons x t => have := hI.lt x (by simp); omega
  rw [if_pos]
  refine ⟨?_, hI.len, hI.tot⟩
  have h1 := pyMax_le (n := Nk.length - 1) hne fun x hx => by have := hI.lt x hx; omega
  have h2 := le_pyMax (hI.all (Nk.length - 1) (by omega))
  omega

/-! ### `simulate_crp_constrained_dependent` -/

theorem foldl_set_count (block : List Nat) (part : List (Option Nat)) (a : Nat)
    (hnd : block.Nodup) (h : ∀ c ∈ block, part[c]? = some none) :
    (block.foldl (fun Z f => Z.set f (some a)) part).count none + block.length
      = part.count none := by
  induction block generalizing part with
  | nil => rfl
  | cons c t ih =>
    have hc := h c (by simp)
    have hlt : c < part.length := by
      by_contra hh; rw [List.getElem?_eq_none (by omega)] at hc; cases hc
    have hcv : part[c] = none := by
      rw [List.getElem?_eq_getElem hlt] at hc; exact Option.some.inj hc
    have hm : (none : Option Nat) ∈ part := by rw [← hcv]; exact List.getElem_mem hlt
    have hpos := List.count_pos_iff.mpr hm
    have hcs : (part.set c (some a)).count none = part.count none - 1 := by
      rw [List.count_set hlt, hcv]; simp
    rw [List.foldl_cons, List.length_cons]
    have := ih (part.set c (some a)) (List.nodup_cons.mp hnd).2 fun d hd => by
      have hne : c ≠ d := by rintro rfl; exact (List.nodup_cons.mp hnd).1 hd
      rw [List.getElem?_set_ne hne]; exact h d (by simp [hd])
    omega

theorem assignBlocks_ok (crp : List Nat) (Cd : Blocks) (i : Nat) (part : List (Option Nat))
    (hnd : Cd.flatten.Nodup) (h : ∀ c ∈ Cd.flatten, part[c]? = some none)
    (hi : i + Cd.length ≤ crp.length) :
    ∃ part', assignBlocks crp Cd i part = .ok part' ∧ part'.length = part.length ∧
      part'.count none + Cd.flatten.length = part.count none ∧
      (∀ k b, Cd[k]? = some b → ∀ c ∈ b, part'[c]? = some crp[i + k]?) ∧
      ∀ j, j ∉ Cd.flatten → part'[j]? = part[j]? := by
  induction Cd generalizing i part with
  | nil => exact ⟨part, rfl, rfl, by simp, by simp, fun _ _ => rfl⟩
  | cons b t ih =>
    have hil : i < crp.length := by simp at hi; omega
    rw [List.flatten_cons, List.nodup_append] at hnd
    obtain ⟨n1, n2, n3⟩ := hnd
    have hb : ∀ c ∈ b, part[c]? = some none := fun c hc => h c (by simp [hc])
    have hget := foldl_set_getElem? b part (some crp[i])
    have hbl : ∀ c ∈ b, c < part.length := fun c hc => by
      by_contra hh; have := hb c hc; rw [List.getElem?_eq_none (by omega)] at this; cases this
    obtain ⟨part', e, h1, h2, h3, h4⟩ := ih (i + 1)
      (b.foldl (fun Z f => Z.set f (some crp[i])) part) n2 (by
        intro c hc
        rw [hget, if_neg (fun hh => n3 c hh.1 c hc rfl)]
        obtain ⟨b', hb', hcb'⟩ := List.mem_flatten.mp hc
        exact h c (List.mem_flatten.mpr ⟨b', by simp [hb'], hcb'⟩)) (by simp at hi; omega)
    refine ⟨part', ?_, by rw [h1, foldl_set_length], ?_, ?_, ?_⟩
    · rw [assignBlocks, List.getElem?_eq_getElem hil]; exact e
    · have := foldl_set_count b part crp[i] n1 hb
      rw [List.flatten_cons, List.length_append]; omega
    · intro k b' hk c hc
      cases k with
      | zero =>
        simp only [List.getElem?_cons_zero, Option.some.injEq] at hk
        subst hk
        rw [h4 c (fun hh => n3 c hc c hh rfl), hget, if_pos ⟨hc, hbl c hc⟩, Nat.add_zero,
          List.getElem?_eq_getElem hil]
      | succ k =>
        rw [List.getElem?_cons_succ] at hk
        rw [h3 k b' hk c hc]
        congr 2; omega
    · intro j hj
      rw [List.flatten_cons, List.mem_append, not_or] at hj
      rw [h4 j hj.2, hget, if_neg (fun hh => hj.1 hh.1)]

theorem assignRest_ok (part : List (Option Nat)) (rest : List Nat)
    (h : part.count none ≤ rest.length) :
    ∃ Z, assignRest part rest = .ok Z ∧ Z.length = part.length ∧
      (∀ j a : Nat, part[j]? = some (some a) → Z[j]? = some a) ∧
      (∀ x ∈ Z, (some x) ∈ part ∨ x ∈ rest) ∧
      ((part.zip Z).filter fun p => p.1 = none).map Prod.snd = rest.take (part.count none) := by
  induction part generalizing rest with
  | nil => exact ⟨[], rfl, rfl, by simp, by simp, by simp⟩
  | cons p t ih =>
    cases p with
    | some a =>
      obtain ⟨Z, e, h1, h2, h3, h4⟩ := ih rest (by simpa [List.count_cons] using h)
      refine ⟨a :: Z, by simp [assignRest, e, Except.map], by simp [h1], ?_, ?_, by
        simpa [List.count_cons] using h4⟩
      · intro j b hj
        cases j with
        | zero => simpa using hj
        | succ j => exact h2 j b (by simpa using hj)
      · intro x hx
        rcases List.mem_cons.mp hx with rfl | hx
        · simp
        · rcases h3 x hx with h | h
          · simp [h]
          · simp [h]
    | none =>
      cases rest with
      | nil => simp [List.count_cons] at h
      | cons r rest =>
        obtain ⟨Z, e, h1, h2, h3, h4⟩ := ih rest (by simpa [List.count_cons] using h)
        refine ⟨r :: Z, by simp [assignRest, e, Except.map], by simp [h1], ?_, ?_, by
          simpa [List.count_cons] using h4⟩
        · intro j b hj
          cases j with
          | zero => simp at hj
          | succ j => exact h2 j b (by simpa using hj)
        · intro x hx
          rcases List.mem_cons.mp hx with rfl | hx
          · simp
          · rcases h3 x hx with h | h
            · simp [h]
            · simp [h]

theorem flatten_length_le {N : Nat} {Cd : Blocks} (hnd : Cd.flatten.Nodup)
    (hr : ∀ b ∈ Cd, ∀ c ∈ b, c < N) : Cd.flatten.length ≤ N := by
  have h : Cd.flatten ⊆ List.range N := by
    intro c hc
    obtain ⟨b, hb, hcb⟩ := List.mem_flatten.mp hc
    exact List.mem_range.mpr (hr b hb c hcb)
  have := (List.subperm_of_subset hnd h).length_le
  simpa using this

theorem length_le_flatten {Cd : Blocks} (hne : ∀ b ∈ Cd, b ≠ []) : Cd.length ≤ Cd.flatten.length := by
  induction Cd with
  | nil => simp
  | cons b t ih =>
    have h1 := ih fun x hx => hne x (by simp [hx])
    have h2 : 0 < b.length := List.length_pos_iff.mpr (hne b (by simp))
    simp only [List.length_cons, List.flatten_cons, List.length_append]
    omega

theorem headD_mem {b : List Nat} (hb : b ≠ []) : b.headD 0 ∈ b := by
  cases b with
  | nil => exact absurd rfl hb
  | cons x t => simp

theorem simulateDependent_ok {N : Nat} (hN : 0 < N) {alpha : ℝ} (ha : 0 < alpha) {Cd : Blocks}
    (hv : ValidConstraints N Cd []) (hne : ∀ b ∈ Cd, b ≠ []) (us : Nat → ℝ)
    (hus : ∀ i, 0 ≤ us i ∧ us i < 1) :
    ∃ Z, simulateDependent N alpha Cd us = .ok Z ∧ Z.length = N ∧
      (∀ b ∈ Cd, ∀ x ∈ b, ∀ y ∈ b, Z[x]? = Z[y]?) ∧ (∀ t ∈ Z, t < N) ∧
      ∃ crp, simulateCrp (N - Cd.flatten.length + Cd.length) alpha us = .ok crp ∧
        (Cd.map (fun b => b.headD 0) ++ (List.range N).filter fun c => c ∉ Cd.flatten).map
          (fun c => Z.getD c 0) = crp := by
  have hfl := flatten_length_le hv.once hv.range
  have hlf := length_le_flatten hne
  have hval := (validateDependency_iff (some N) Cd []).mpr hv
  have hsum : (Cd.map List.length).sum = Cd.flatten.length := List.length_flatten.symm
  have hn : numEffective N Cd = .ok (N - Cd.flatten.length + Cd.length) := by
    unfold numEffective; rw [hsum]; simp only; rw [if_pos ⟨hfl, by omega⟩]
  have hnpos : 0 < N - Cd.flatten.length + Cd.length := by
    rcases Nat.eq_zero_or_pos Cd.length with h | h
    · have : Cd = [] := List.length_eq_zero_iff.mp h
      subst this; simpa using hN
    · omega
  obtain ⟨crp, K, e, hl, hmem⟩ := simulateCrp_ok hnpos ha us hus
  obtain ⟨part, e2, h1, h2, h3, h4⟩ := assignBlocks_ok crp Cd 0 (List.replicate N none) hv.once
    (by
      intro c hc
      obtain ⟨b, hb, hcb⟩ := List.mem_flatten.mp hc
      have := hv.range b hb c hcb
      rw [List.getElem?_replicate, if_pos this]) (by omega)
  have hcount : part.count none ≤ (crp.drop Cd.length).length := by
    rw [List.count_replicate_self] at h2
    rw [List.length_drop, hl]; omega
  obtain ⟨Z, e3, h5, h6, h7, h8⟩ := assignRest_ok part (crp.drop Cd.length) hcount
  have hcrplt : ∀ x ∈ crp, x < N := by
    intro x hx
    have hK : ∀ k < K, k ∈ crp := fun k hk => (hmem k).mpr hk
    have hle : K ≤ crp.length := by
      have hs : List.range K ⊆ crp := fun k hk => hK k (List.mem_range.mp hk)
      have := (List.subperm_of_subset List.nodup_range hs).length_le
      simpa using this
    have := (hmem x).mp hx
    omega
  refine ⟨Z, ?_, by rw [h5, h1, List.length_replicate], ?_, ?_, crp, e, ?_⟩
  · unfold simulateDependent
    rw [hval]
    simp only
    rw [if_neg (by rintro (h | h); omega; linarith), hn]
    simp only
    rw [e]; simp only; rw [e2]; exact e3
  · intro b hb x hx y hy
    obtain ⟨k, hk, rfl⟩ := List.getElem_of_mem hb
    have hkc : k < crp.length := by omega
    have hb' : Cd[k]? = some Cd[k] := List.getElem?_eq_getElem hk
    have hx' := h3 k _ hb' x hx
    have hy' := h3 k _ hb' y hy
    rw [Nat.zero_add, List.getElem?_eq_getElem hkc] at hx' hy'
    rw [h6 x _ hx', h6 y _ hy']
  · intro t ht
    rcases h7 t ht with h | h
    · obtain ⟨j, hj, hjt⟩ := List.getElem_of_mem h
      by_cases hjf : j ∈ Cd.flatten
      · obtain ⟨b, hb, hjb⟩ := List.mem_flatten.mp hjf
        obtain ⟨k, hk, rfl⟩ := List.getElem_of_mem hb
        have hkc : k < crp.length := by omega
        have := h3 k _ (List.getElem?_eq_getElem hk) j hjb
        rw [List.getElem?_eq_getElem hj, hjt, Nat.zero_add, List.getElem?_eq_getElem hkc] at this
        have : t = crp[k] := by simpa using this
        rw [this]; exact hcrplt _ (List.getElem_mem hkc)
      · have := h4 j hjf
        rw [List.getElem?_eq_getElem hj, hjt, List.getElem?_replicate] at this
        split at this <;> simp at this
    · exact hcrplt t (List.mem_of_mem_drop h)
  · have hZl : Z.length = N := by rw [h5, h1, List.length_replicate]
    have hpl : part.length = N := by rw [h1, List.length_replicate]
    have hA : (Cd.map fun b => b.headD 0).map (fun c => Z.getD c 0) = crp.take Cd.length := by
      apply List.ext_getElem?
      intro k
      by_cases hk : k < Cd.length
      · have hkc : k < crp.length := by omega
        have hh := h3 k _ (List.getElem?_eq_getElem hk) _ (headD_mem (hne _ (List.getElem_mem hk)))
        rw [Nat.zero_add, List.getElem?_eq_getElem hkc] at hh
        have hz := h6 _ _ hh
        rw [List.map_map, List.getElem?_map, List.getElem?_eq_getElem hk,
          List.getElem?_take_of_lt hk, List.getElem?_eq_getElem hkc]
        simp only [Option.map_some, Function.comp, List.getD_eq_getElem?_getD, hz, Option.getD_some]
      · rw [List.getElem?_eq_none (by simp; omega), List.getElem?_eq_none (by simp; omega)]
    have hnone : ∀ j < N, (part[j]? = some none ↔ j ∉ Cd.flatten) := by
      intro j hj
      constructor
      · intro hh hm
        obtain ⟨b, hb, hjb⟩ := List.mem_flatten.mp hm
        obtain ⟨k, hk, rfl⟩ := List.getElem_of_mem hb
        have hkc : k < crp.length := by omega
        have := h3 k _ (List.getElem?_eq_getElem hk) j hjb
        rw [hh, Nat.zero_add, List.getElem?_eq_getElem hkc] at this
        simp at this
      · intro hh
        rw [h4 j hh, List.getElem?_replicate, if_pos hj]
    have hB : ((List.range N).filter fun c => c ∉ Cd.flatten).map (fun c => Z.getD c 0)
        = ((part.zip Z).filter fun p => p.1 = none).map Prod.snd := by
      have hzip : part.zip Z = (List.range N).map fun j => ((part[j]?).join, Z.getD j 0) := by
        apply List.ext_getElem?
        intro j
        by_cases hj : j < N
        · have hjp : j < part.length := by omega
          have hjz : j < Z.length := by omega
          have hpz : (part.zip Z)[j]? = some (part[j], Z[j]) := List.getElem?_zip_eq_some.mpr
            ⟨List.getElem?_eq_getElem hjp, List.getElem?_eq_getElem hjz⟩
          rw [List.getElem?_map, List.getElem?_range hj, hpz]
          simp [List.getD_eq_getElem?_getD, List.getElem?_eq_getElem hjp,
            List.getElem?_eq_getElem hjz]
        · rw [List.getElem?_eq_none (by simp; omega), List.getElem?_eq_none (by simp; omega)]
      rw [hzip, List.filter_map, List.map_map]
      have : (List.range N).filter ((fun p : Option Nat × Nat => decide (p.1 = none)) ∘
          fun j => ((part[j]?).join, Z.getD j 0)) = (List.range N).filter fun c => c ∉ Cd.flatten := by
        apply List.filter_congr
        intro j hj
        have hj' := List.mem_range.mp hj
        rw [Bool.eq_iff_iff]
        simp only [Function.comp, decide_eq_true_eq, ← hnone j hj']
        rw [List.getElem?_eq_getElem (by omega)]
        simp
      rw [this]
      rfl
    rw [List.map_append, hA, hB, h8]
    have hc : part.count none = (crp.drop Cd.length).length := by
      rw [List.count_replicate_self] at h2
      rw [List.length_drop, hl]; omega
    rw [hc, List.take_length, List.take_append_drop]

/-! ### the score -/

theorem get?_bump (d : Dict Tab Int) (t x : Tab) :
    (bump d t).get? x = if x = t then some ((d.get? t).getD 0 + 1) else d.get? x := by
  unfold bump; rw [Dict.get?_set]

theorem foldl_bump (L : List Tab) (d : Dict Tab Int) (hd : d.WF) (n : Tab → Nat)
    (hn : ∀ t, d.get? t = if n t = 0 then none else some (n t : Int)) :
    (L.foldl bump d).WF ∧ ∀ t, (L.foldl bump d).get? t =
      if n t + L.count t = 0 then none else some ((n t + L.count t : Nat) : Int) := by
  induction L generalizing d n with
  | nil => exact ⟨hd, by simpa using hn⟩
  | cons x L ih =>
    have := ih (bump d x) (Dict.wf_set hd _ _) (fun t => n t + if t = x then 1 else 0) (by
      intro t
      rw [get?_bump]
      by_cases h : t = x
      · subst h
        simp only [if_true]
        rw [if_neg (by omega), hn t]
        by_cases h0 : n t = 0
        · simp [h0]
        · simp [h0]
      · simp [h, hn t])
    refine ⟨this.1, fun t => ?_⟩
    rw [List.foldl_cons, this.2 t]
    have e : (n t + if t = x then 1 else 0) + L.count t = n t + (x :: L).count t := by
      rw [List.count_cons]
      by_cases h : t = x
      · simp [h]; omega
      · have : x ≠ t := fun e => h e.symm
        simp [h, this]
    simp only [e]

theorem countBlocks_ok (Z : Dict Row Tab) (Cd : Blocks) (d : Dict Tab Int)
    (hne : ∀ b ∈ Cd, b ≠ []) (hk : ∀ c ∈ Cd.flatten, c ∈ Z.keys) :
    countBlocks Z Cd d =
      .ok ((Cd.map fun b => (Z.get? (b.headD 0)).getD 0).foldl bump d) := by
  induction Cd generalizing d with
  | nil => rfl
  | cons b t ih =>
    cases b with
    | nil => exact absurd rfl (hne [] (by simp))
    | cons c b =>
      obtain ⟨z, hz⟩ := Dict.exists_of_mem_keys (hk c (by simp))
      simp only [countBlocks, hz]
      rw [ih _ (fun x hx => hne x (by simp [hx])) fun c hc => hk c (by
        rw [List.flatten_cons]; exact List.mem_append_right _ hc)]
      simp [hz]

theorem data_seatAll {s : Crp} (h : Crp.Inv s) (l : List (Row × Tab))
    (hl : (l.map Prod.fst).Nodup) (hf : ∀ p ∈ l, s.data.get? p.1 = none) :
    (s.run (seatAll l)).data = s.data ++ l ∧ (s.run (seatAll l)).alpha = s.alpha := by
  induction l generalizing s with
  | nil => simp [seatAll, Crp.run]
  | cons p l ih =>
    obtain ⟨r, x⟩ := p
    have hr := hf (r, x) (by simp)
    have hok := Crp.incorporate_ok h (x := x) hr
    have := ih (s := (s.incorporate r x).state) (Crp.inv_incorporate h r x)
      (by simp at hl; exact hl.2) (by
        intro p hp
        have hne : p.1 ≠ r := by
          rintro e
          simp only [List.map_cons, List.nodup_cons] at hl
          exact hl.1 (e ▸ List.mem_map_of_mem (f := Prod.fst) hp)
        rw [hok, Out.state_ok]
        simp only [← Dict.set_of_not_mem _ hr, Dict.get?_set_ne _ _ hne]
        exact hf p (by simp [hp]))
    simp only [seatAll, List.map_cons, Crp.run, List.foldl_cons] at this ⊢
    change (List.foldl _ (s.incorporate r x).state _).data = _ ∧ _
    rw [this.1]
    refine ⟨by rw [hok]; simp [Out.state], ?_⟩
    change (List.foldl _ (s.incorporate r x).state _).alpha = _
    rw [this.2, hok]; rfl

/-- The effective customers, in the order in which the code counts them. -/
def effList (Z : Dict Row Tab) (Cd : Blocks) : List (Row × Tab) :=
  (Cd.map fun b => (b.headD 0, (Z.get? (b.headD 0)).getD 0)) ++
    Z.filter fun p => p.1 ∉ Cd.flatten

theorem heads_nodup {Cd : Blocks} (hnd : Cd.flatten.Nodup) (hne : ∀ b ∈ Cd, b ≠ []) :
    (Cd.map fun b => b.headD 0).Nodup := by
  induction Cd with
  | nil => simp
  | cons b t ih =>
    rw [List.flatten_cons, List.nodup_append] at hnd
    rw [List.map_cons, List.nodup_cons]
    refine ⟨fun hm => ?_, ih hnd.2.1 fun x hx => hne x (by simp [hx])⟩
    obtain ⟨b', hb', e⟩ := List.mem_map.mp hm
    have mem : ∀ b : List Nat, b ≠ [] → b.headD 0 ∈ b := by
      intro b hb; cases b with
      | nil => exact absurd rfl hb
      | cons x t => simp
    exact hnd.2.2 _ (mem b (hne b (by simp))) _
      (List.mem_flatten.mpr ⟨b', hb', mem b' (hne b' (by simp [hb']))⟩) e.symm

theorem effList_perm {Z : Dict Row Tab} (hZ : Z.WF) {Cd : Blocks} (hnd : Cd.flatten.Nodup)
    (hne : ∀ b ∈ Cd, b ≠ []) (hk : ∀ c ∈ Cd.flatten, c ∈ Z.keys) :
    (effList Z Cd).Perm (collapse Z Cd) := by
  have hZn : Z.Nodup := List.Nodup.of_map Prod.fst hZ
  have hm : ∀ b ∈ Cd, b.headD 0 ∈ Cd.flatten := fun b hb =>
    List.mem_flatten.mpr ⟨b, hb, headD_mem (hne b hb)⟩
  have hin : ∀ b ∈ Cd, (b.headD 0, (Z.get? (b.headD 0)).getD 0) ∈ Z := by
    intro b hb
    obtain ⟨z, hz⟩ := Dict.exists_of_mem_keys (hk _ (hm b hb))
    rw [hz]; exact Dict.mem_of_get? hz
  refine (List.perm_ext_iff_of_nodup ?_ (hZn.filter _)).mpr fun p => ?_
  · unfold effList
    rw [List.nodup_append]
    refine ⟨?_, hZn.filter _, ?_⟩
    · refine List.Nodup.of_map Prod.fst ?_
      rw [List.map_map]
      exact heads_nodup hnd hne
    · intro a ha b hb e
      subst e
      obtain ⟨b, hb', rfl⟩ := List.mem_map.mp ha
      have := (List.mem_filter.mp hb).2
      simp only [decide_eq_true_eq] at this
      exact this (hm b hb')
  · unfold effList
    rw [List.mem_append, List.mem_filter, List.mem_filter, List.mem_map]
    simp only [decide_eq_true_eq]
    constructor
    · rintro (⟨b, hb, rfl⟩ | ⟨h1, h2⟩)
      · refine ⟨hin b hb, .inl ⟨b, hb, ?_⟩⟩
        cases b with
        | nil => exact absurd rfl (hne _ hb)
        | cons x t => simp
      · exact ⟨h1, .inr h2⟩
    · rintro ⟨h1, ⟨b, hb, e⟩ | h2⟩
      · left
        refine ⟨b, hb, ?_⟩
        have e' : b.headD 0 = p.1 := by
          cases b with
          | nil => simp at e
          | cons x t => simpa using e
        rw [e', Dict.get?_of_mem hZ h1]; rfl
      · exact .inr ⟨h1, h2⟩

theorem effList_length {Z : Dict Row Tab} (hZ : Z.WF) {Cd : Blocks} (hnd : Cd.flatten.Nodup)
    (hk : ∀ c ∈ Cd.flatten, c ∈ Z.keys) :
    Cd.flatten.length ≤ Z.length ∧
    (effList Z Cd).length = Z.length - Cd.flatten.length + Cd.length := by
  have h1 : (Z.filter fun p => p.1 ∈ Cd.flatten).length = Cd.flatten.length := by
    have hp : ((Z.filter fun p => p.1 ∈ Cd.flatten).map Prod.fst).Perm Cd.flatten := by
      refine (List.perm_ext_iff_of_nodup ?_ hnd).mpr fun c => ?_
      · exact (List.Sublist.map Prod.fst (List.filter_sublist)).nodup hZ
      · constructor
        · intro hc
          obtain ⟨p, hp, rfl⟩ := List.mem_map.mp hc
          simpa using (List.mem_filter.mp hp).2
        · intro hc
          obtain ⟨z, hz⟩ := Dict.exists_of_mem_keys (hk c hc)
          exact List.mem_map.mpr ⟨(c, z), List.mem_filter.mpr ⟨Dict.mem_of_get? hz, by simpa using hc⟩, rfl⟩
    have := hp.length_eq
    simpa using this
  have h2 := List.length_eq_length_filter_add (l := Z) (fun p => decide (p.1 ∈ Cd.flatten))
  have h3 : (Z.filter fun p => !decide (p.1 ∈ Cd.flatten)) = Z.filter fun p => p.1 ∉ Cd.flatten := by
    congr 1; funext p
    rw [Bool.eq_iff_iff]
    simp only [decide_eq_true_eq, Bool.not_eq_true', decide_eq_false_iff_not]
  rw [h3, h1] at h2
  refine ⟨by omega, ?_⟩
  unfold effList
  rw [List.length_append, List.length_map]
  omega

theorem logpDependent_spec {Z : Dict Row Tab} (hZ : Z.WF) {alpha : ℝ} (ha : 0 < alpha)
    {Cd : Blocks} (hnd : Cd.flatten.Nodup) (hne : ∀ b ∈ Cd, b ≠ [])
    (hk : ∀ c ∈ Cd.flatten, c ∈ Z.keys)
    (hok : ∀ b ∈ Cd, ∀ x ∈ b, ∀ y ∈ b, Z.get? x = Z.get? y) :
    logpDependent Z alpha Cd =
      .ok ((((Crp.init alpha).run (seatAll (collapse Z Cd))).logpdfScore : ℝ) : LogP) := by
  obtain ⟨hle, hlen⟩ := effList_length hZ hnd hk
  have hperm := effList_perm hZ hnd hne hk
  have hvp : (Con.validatePartition ⟨Cd, [], [], []⟩ fun c => Z.get? c) = true := by
    unfold Con.validatePartition
    rw [decide_eq_true_eq]
    refine ⟨fun b hb => ⟨fun c hc => hok b hb _ (headD_mem (hne b hb)) c hc, fun p _ => ?_⟩, by simp⟩
    simp [Con.compatible, Dict.has]
  have hlf := length_le_flatten hne
  have hnum : numEffective Z.length Cd = .ok (effList Z Cd).length := by
    unfold numEffective
    rw [show (Cd.map List.length).sum = Cd.flatten.length from List.length_flatten.symm]
    simp only
    rw [if_pos ⟨hle, by omega⟩, hlen]
  have hcnt : partitionCounts Z Cd = .ok (((effList Z Cd).map Prod.snd).foldl bump []) := by
    unfold partitionCounts
    rw [countBlocks_ok Z Cd [] hne hk]
    simp only [effList, List.map_append, List.foldl_append, List.map_map, List.foldl_map]
    rfl
  obtain ⟨w, g⟩ := foldl_bump ((effList Z Cd).map Prod.snd) [] Dict.wf_nil (fun _ => 0) (by simp)
  -- the reference seating
  have hcn : ((collapse Z Cd).map Prod.fst).Nodup :=
    (List.Sublist.map Prod.fst List.filter_sublist).nodup hZ
  obtain ⟨hd, hal⟩ := data_seatAll (Crp.inv_init alpha) (collapse Z Cd) hcn fun _ _ => rfl
  have hinv := Crp.inv_run (Crp.inv_init alpha) (seatAll (collapse Z Cd))
  set s := (Crp.init alpha).run (seatAll (collapse Z Cd)) with hs
  have hd' : s.data = collapse Z Cd := by rw [hd]; rfl
  have hseat : ∀ t, nSeated s.data t = ((effList Z Cd).map Prod.snd).count t := by
    intro t
    rw [hd', ← nSeated_perm hperm]
    unfold nSeated
    rw [List.count, List.countP_map]
    congr 1
  have hcp : (((effList Z Cd).map Prod.snd).foldl bump []).Perm s.counts := by
    refine Dict.perm_of_get? w hinv.wfCounts fun t => ?_
    rw [g t, hinv.hCounts t, countOf, hseat t]
    simp
  have hvals : (Dict.vals (((effList Z Cd).map Prod.snd).foldl bump [])).Perm s.counts.vals :=
    hcp.map _
  have hN : s.N = ((effList Z Cd).length : Int) := by
    rw [hinv.hN, hd', hperm.length_eq]
  unfold logpDependent
  rw [if_neg (by simp [hvp]), if_neg (by linarith), hnum]
  simp only
  rw [hcnt]
  simp only
  rw [if_neg (by rw [hvals.sum_eq, Crp.sum_counts hinv, hN]; simp)]
  congr 2
  unfold Crp.logpdfScore
  rw [hN, hal]
  unfold Crp.calcLogpdfMarginal
  rw [hvals.length_eq, (hvals.map _).sum_eq]
  rfl

theorem logpDependent_broken {Z : Dict Row Tab} {alpha : ℝ} {Cd : Blocks}
    (hbad : ∃ b ∈ Cd, ∃ x ∈ b, ∃ y ∈ b, Z.get? x ≠ Z.get? y) :
    logpDependent Z alpha Cd = .ok ⊥ := by
  unfold logpDependent
  rw [if_pos]
  intro h
  unfold Con.validatePartition at h
  rw [decide_eq_true_eq] at h
  obtain ⟨b, hb, x, hx, y, hy, hne⟩ := hbad
  have := (h.1 b hb).1
  exact hne ((this x hx).symm.trans (this y hy))

end Cgpm
