import Verif.Spec.Constraints
import Verif.Lemmas.Flip
import Verif.Lemmas.Dict
import Verif.Lemmas.CrpProps
import Mathlib.Data.List.Nodup
import Mathlib.Data.List.Dedup

namespace Cgpm
open Classical Props

/-! ### the validator -/

theorem checkBlock_spec (N : Nat) (block S : List Nat) (counts : Dict Nat Nat)
    (hc : ∀ c, counts.get? c = if c ∈ S then some 1 else none) :
    (((∀ c ∈ block, c < N) ∧ (S ++ block).Nodup) ∨ ¬ S.Nodup →
      S.Nodup → ∃ counts', checkBlock N block counts = .ok counts' ∧
        ∀ c, counts'.get? c = if c ∈ S ++ block then some 1 else none) ∧
    (S.Nodup → ¬ ((∀ c ∈ block, c < N) ∧ (S ++ block).Nodup) →
      checkBlock N block counts = .error .valueError) := by
  induction block generalizing S counts with
  | nil =>
    refine ⟨fun _ _ => ⟨counts, rfl, by simpa using hc⟩, fun hS h => absurd ?_ h⟩
    simpa using hS
  | cons col t ih =>
    simp only [checkBlock]
    by_cases hN : N ≤ col
    · rw [if_pos hN]
      refine ⟨fun h hS => ?_, fun _ _ => rfl⟩
      rcases h with h | h
      · exact absurd (h.1 col (by simp)) (by omega)
      · exact absurd hS h
    · rw [if_neg hN]
      by_cases hm : col ∈ S
      · rw [hc col, if_pos hm]
        simp only [Option.getD_some]
        rw [if_pos (by omega)]
        refine ⟨fun h hS => ?_, fun _ _ => rfl⟩
        rcases h with h | h
        · have := h.2
          rw [List.nodup_append] at this
          exact absurd rfl (this.2.2 col hm col (by simp))
        · exact absurd hS h
      · rw [hc col, if_neg hm]
        simp only [Option.getD_none]
        rw [if_neg (by omega)]
        have hc' : ∀ c, (counts.set col (0 + 1)).get? c = if c ∈ S ++ [col] then some 1 else none := by
          intro c
          rw [Dict.get?_set]
          by_cases h : c = col
          · subst h; simp
          · simp [h, hc c]
        obtain ⟨i1, i2⟩ := ih (S ++ [col]) (counts.set col (0 + 1)) hc'
        have hS' : S.Nodup → (S ++ [col]).Nodup := fun h => by
          rw [List.nodup_append]
          exact ⟨h, by simp, fun a ha b hb => by rintro rfl; simp at hb; exact hm (hb ▸ ha)⟩
        rw [List.append_assoc] at i1 i2
        have e : [col] ++ t = col :: t := rfl
        rw [e] at i1 i2
        refine ⟨fun h hS => i1 ?_ (hS' hS), fun hS h => i2 (hS' hS) fun hh => h ⟨?_, hh.2⟩⟩
        · rcases h with h | h
          · exact .inl ⟨fun c hc => h.1 c (by simp [hc]), h.2⟩
          · exact absurd hS h
        · intro c hc
          rcases List.mem_cons.mp hc with rfl | hc
          · omega
          · exact hh.1 c hc

theorem checkBlocks_spec (N : Nat) (Ci : Pairs) (Cd : Blocks) (S : List Nat)
    (counts : Dict Nat Nat) (hS : S.Nodup)
    (hc : ∀ c, counts.get? c = if c ∈ S then some 1 else none) :
    (∃ counts', checkBlocks N Ci Cd counts = .ok counts') ↔
      (∀ b ∈ Cd, b.length ≠ 1) ∧ (∀ b ∈ Cd, ∀ c ∈ b, c < N) ∧ (S ++ Cd.flatten).Nodup ∧
      ∀ p ∈ Ci, ∀ b ∈ Cd, ¬ (p.1 ∈ b ∧ p.2 ∈ b) := by
  induction Cd generalizing S counts with
  | nil => simp [checkBlocks, hS]
  | cons b t ih =>
    simp only [checkBlocks]
    by_cases h1 : b.length = 1
    · rw [if_pos h1]
      constructor
      · rintro ⟨_, h⟩; cases h
      · intro h; exact absurd h1 (h.1 b (by simp))
    · rw [if_neg h1]
      obtain ⟨s1, s2⟩ := checkBlock_spec N b S counts hc
      by_cases h2 : (∀ c ∈ b, c < N) ∧ (S ++ b).Nodup
      · obtain ⟨counts', e, hc'⟩ := s1 (.inl h2) hS
        rw [e]
        simp only
        by_cases h3 : ∃ p ∈ Ci, p.1 ∈ b ∧ p.2 ∈ b
        · rw [if_pos h3]
          constructor
          · rintro ⟨_, h⟩; cases h
          · intro h
            obtain ⟨p, hp, hpb⟩ := h3
            exact absurd hpb (h.2.2.2 p hp b (by simp))
        · rw [if_neg h3, ih (S ++ b) counts' h2.2 hc']
          simp only [List.flatten_cons, List.append_assoc, List.mem_cons, forall_eq_or_imp]
          constructor
          · rintro ⟨a1, a2, a3, a4⟩
            exact ⟨⟨h1, a1⟩, ⟨h2.1, a2⟩, a3, fun p hp => ⟨fun hpb => h3 ⟨p, hp, hpb⟩, a4 p hp⟩⟩
          · rintro ⟨⟨_, a1⟩, ⟨_, a2⟩, a3, a4⟩
            exact ⟨a1, a2, a3, fun p hp => (a4 p hp).2⟩
      · rw [s2 hS h2]
        constructor
        · rintro ⟨_, h⟩; cases h
        · intro h
          refine absurd ⟨h.2.1 b (by simp), ?_⟩ h2
          have := h.2.2.1
          rw [List.flatten_cons, ← List.append_assoc] at this
          exact (List.nodup_append.mp this).1

theorem checkPairs_spec (N : Nat) (Ci : Pairs) :
    checkPairs N Ci = .ok () ↔ (∀ p ∈ Ci, p.1 < N ∧ p.2 < N) ∧ ∀ p ∈ Ci, p.1 ≠ p.2 := by
  induction Ci with
  | nil => simp [checkPairs]
  | cons p t ih =>
    simp only [checkPairs]
    split
    · rename_i h
      constructor
      · intro h; cases h
      · intro h'; have := h'.1 p (by simp); omega
    · split
      · rename_i h
        constructor
        · intro h; cases h
        · intro h'; exact absurd h (h'.2 p (by simp))
      · rename_i h1 h2
        rw [ih]
        simp only [List.mem_cons, forall_eq_or_imp]
        constructor
        · rintro ⟨a, b⟩; exact ⟨⟨by omega, a⟩, h2, b⟩
        · rintro ⟨⟨_, a⟩, _, b⟩; exact ⟨a, b⟩

theorem validateDependency_iff (N : Option Nat) (Cd : Blocks) (Ci : Pairs) :
    validateDependency N Cd Ci = .ok () ↔ ValidConstraints (N.getD (10 ^ 10)) Cd Ci := by
  have hb := checkBlocks_spec (N.getD (10 ^ 10)) Ci Cd [] [] List.nodup_nil (by simp)
  unfold validateDependency
  cases h : checkBlocks (N.getD (10 ^ 10)) Ci Cd [] with
  | error e =>
    simp only [h]
    constructor
    · intro h; cases h
    · intro hv
      have := hb.mpr ⟨hv.size, hv.range, by simpa using hv.once, hv.noPairInBlock⟩
      obtain ⟨_, h'⟩ := this; rw [h] at h'; cases h'
  | ok c =>
    simp only [h]
    obtain ⟨h1, h2, h3, h4⟩ := hb.mp ⟨c, h⟩
    rw [checkPairs_spec]
    constructor
    · rintro ⟨a, b⟩; exact ⟨h1, h2, by simpa using h3, a, b, h4⟩
    · intro hv; exact ⟨hv.pairRange, hv.pairNe⟩

/-! ### drawing a table -/

theorem sum_map_div_real (p : List ℝ) (c : ℝ) : (p.map fun x => x / c).sum = p.sum / c := by
  induction p with
  | nil => simp
  | cons x t ih => simp [ih, add_div]

theorem pflip_range {p : List ℝ} (h : ∀ x ∈ p, 0 ≤ x) (hs : 0 < p.sum) {u : ℝ} (hu : 0 ≤ u)
    (hu1 : u < 1) :
    ∃ (a : Nat) (ha : a < p.length), pflip p (List.range p.length) u = .ok a ∧ 0 < p[a] := by
  have hq0 : ∀ x ∈ p.map (fun x => x / p.sum), 0 ≤ x := by
    intro x hx
    obtain ⟨y, hy, rfl⟩ := List.mem_map.mp hx
    exact div_nonneg (h y hy) hs.le
  have hqs : (p.map fun x => x / p.sum).sum = 1 := by
    rw [sum_map_div_real, div_self hs.ne']
  have hlt := choiceIdx_lt hq0 hqs hu hu1
  have hlt' : choiceIdx (p.map fun x => x / p.sum) u < p.length := by simpa using hlt
  by_cases h1 : ∃ x, p = [x]
  · obtain ⟨x, rfl⟩ := h1
    refine ⟨0, by simp, ?_, by simpa using hs⟩
    simp [pflip, List.range_succ]
  · refine ⟨_, hlt', ?_, ?_⟩
    · unfold pflip
      split
      · exact absurd ⟨_, rfl⟩ h1
      · rw [if_neg (by
          rintro (h2 | h2 | ⟨x, hx, h2⟩)
          · exact hs.ne' h2
          · simp at h2
          · exact absurd (div_nonneg (h x hx) hs.le) (not_le.mpr h2))]
        rw [List.getElem?_range hlt']
    · have hi := (choiceIdx_iff hq0 hu hlt).mp rfl
      rw [prefSum_succ hlt] at hi
      have : 0 < (p.map fun x => x / p.sum)[choiceIdx (p.map fun x => x / p.sum) u] := by
        linarith [hi.1, hi.2]
      rw [List.getElem_map] at this
      by_contra hc
      have h0 : p[choiceIdx (p.map fun x => x / p.sum) u] ≤ 0 := not_lt.mp hc
      have := div_nonpos_of_nonpos_of_nonneg h0 hs.le
      linarith

/-- The probability with which `pflip` returns the element at `i`. -/
theorem volume_pflip {α : Type} {p : List ℝ} (h : ∀ x ∈ p, 0 ≤ x) (hs : 0 < p.sum)
    {array : List α} (hnd : array.Nodup) (hlen : p.length = array.length) {i : ℕ}
    (hi : i < p.length) {a : α} (ha : array[i]? = some a) :
    MeasureTheory.volume {u : ℝ | 0 ≤ u ∧ u < 1 ∧ pflip p array u = .ok a}
      = ENNReal.ofReal (p[i] / p.sum) := by
  have hq0 : ∀ x ∈ p.map (fun x => x / p.sum), 0 ≤ x := by
    intro x hx
    obtain ⟨y, hy, rfl⟩ := List.mem_map.mp hx
    exact div_nonneg (h y hy) hs.le
  have hqs : (p.map fun x => x / p.sum).sum = 1 := by
    rw [sum_map_div_real, div_self hs.ne']
  have hiq : i < (p.map fun x => x / p.sum).length := by simpa using hi
  have hset : {u : ℝ | 0 ≤ u ∧ u < 1 ∧ pflip p array u = .ok a}
      = {u : ℝ | 0 ≤ u ∧ u < 1 ∧ choiceIdx (p.map fun x => x / p.sum) u = i} := by
    ext u
    simp only [Set.mem_ofPred_eq]
    refine and_congr_right fun hu => and_congr_right fun hu1 => ?_
    have hlt := choiceIdx_lt hq0 hqs hu hu1
    have hlt' : choiceIdx (p.map fun x => x / p.sum) u < array.length := by
      rw [← hlen]; simpa using hlt
    have e : pflip p array u = .ok array[choiceIdx (p.map fun x => x / p.sum) u] := by
      unfold pflip
      split
      · rename_i x y _
        have h0 : choiceIdx ([x].map fun z => z / [x].sum) u = 0 := by simpa using hlt
        simp only [h0, List.getElem_cons_zero]
      · rw [if_neg (by
          rintro (h2 | h2 | ⟨x, hx, h2⟩)
          · exact hs.ne' h2
          · exact h2 hlen
          · exact absurd (div_nonneg (h x hx) hs.le) (not_le.mpr h2))]
        rw [List.getElem?_eq_getElem hlt']
    rw [e]
    have hial : i < array.length := by omega
    have hai : array[i] = a := by
      rw [List.getElem?_eq_getElem hial] at ha; exact Option.some.inj ha
    rw [← hai]
    constructor
    · intro he; exact (List.Nodup.getElem_inj_iff hnd).mp (Except.ok.inj he)
    · intro he; simp [he]
  rw [hset, volume_choice hq0 hqs hiq, List.getElem_map]

/-! ### friends -/

theorem compatibleConstraints_comm (a : Blocks) (b : Pairs) (c : Blocks) (d : Pairs) :
    compatibleConstraints a b c d = compatibleConstraints c d a b := by
  unfold compatibleConstraints
  cases exOk (validateDependency none a b) <;> cases exOk (validateDependency none a d) <;>
    cases exOk (validateDependency none c b) <;> cases exOk (validateDependency none c d) <;> rfl

theorem Con.compatible_comm (c : Con) (a b : Nat) : c.compatible a b = c.compatible b a := by
  unfold Con.compatible
  rw [compatibleConstraints_comm]
  simp only [or_comm (a := (a, b) ∈ c.Ci), Bool.and_comm (c.Rd.has a || c.Ri.has a)]

theorem mem_combinations2 {block : List Nat} {a b : Nat} (ha : a ∈ block) (hb : b ∈ block)
    (h : a ≠ b) : (a, b) ∈ combinations2 block ∨ (b, a) ∈ combinations2 block := by
  induction block with
  | nil => cases ha
  | cons x t ih =>
    simp only [combinations2, List.mem_append, List.mem_map, Prod.mk.injEq]
    rcases List.mem_cons.mp ha with rfl | ha1
    · rcases List.mem_cons.mp hb with rfl | hb1
      · exact absurd rfl h
      · exact .inl (.inl ⟨_, hb1, rfl, rfl⟩)
    · rcases List.mem_cons.mp hb with rfl | hb1
      · exact .inr (.inl ⟨_, ha1, rfl, rfl⟩)
      · rcases ih ha1 hb1 with h | h
        · exact .inl (.inr h)
        · exact .inr (.inr h)

theorem of_mem_combinations2 {block : List Nat} {a b : Nat} (h : (a, b) ∈ combinations2 block) :
    a ∈ block ∧ b ∈ block := by
  induction block with
  | nil => cases h
  | cons x t ih =>
    simp only [combinations2, List.mem_append, List.mem_map, Prod.mk.injEq] at h
    rcases h with ⟨y, hy, rfl, rfl⟩ | h
    · exact ⟨by simp, by simp [hy]⟩
    · have := ih h; exact ⟨by simp [this.1], by simp [this.2]⟩

/-- Two blocks sharing a column are the same. -/
theorem block_unique {Cd : Blocks} (h : Cd.flatten.Nodup) {b b' : List Nat} (hb : b ∈ Cd)
    (hb' : b' ∈ Cd) {c : Nat} (hc : c ∈ b) (hc' : c ∈ b') : b = b' := by
  induction Cd with
  | nil => cases hb
  | cons x t ih =>
    rw [List.flatten_cons, List.nodup_append] at h
    rcases List.mem_cons.mp hb with rfl | hb1
    · rcases List.mem_cons.mp hb' with rfl | hb1'
      · rfl
      · exact absurd rfl (h.2.2 c hc c (List.mem_flatten.mpr ⟨b', hb1', hc'⟩))
    · rcases List.mem_cons.mp hb' with rfl | hb1'
      · exact absurd rfl (h.2.2 c hc' c (List.mem_flatten.mpr ⟨b, hb1, hc⟩))
      · exact ih h.2.1 hb1 hb1'

theorem Con.friends_cases (c : Con) (h : c.Cd.flatten.Nodup) (i : Nat) :
    (∃ b ∈ c.Cd, i ∈ b ∧ c.friends i = b) ∨ ((∀ b ∈ c.Cd, i ∉ b) ∧ c.friends i = [i]) := by
  unfold Con.friends
  cases hf : (c.Cd.filter fun b => i ∈ b).getLast? with
  | none =>
    right
    rw [List.getLast?_eq_none_iff] at hf
    refine ⟨fun b hb hib => ?_, rfl⟩
    have : b ∈ c.Cd.filter fun b => i ∈ b := by simp [hb, hib]
    rw [hf] at this; cases this
  | some b =>
    left
    have := List.mem_of_getLast? hf
    have := List.mem_filter.mp this
    exact ⟨b, this.1, by simpa using this.2, rfl⟩

theorem Con.mem_friends (c : Con) (h : c.Cd.flatten.Nodup) (i : Nat) : i ∈ c.friends i := by
  rcases c.friends_cases h i with ⟨b, -, hi, e⟩ | ⟨-, e⟩ <;> rw [e]
  · exact hi
  · simp

theorem Con.friends_eq (c : Con) (h : c.Cd.flatten.Nodup) {i f : Nat} (hf : f ∈ c.friends i) :
    c.friends f = c.friends i := by
  rcases c.friends_cases h i with ⟨b, hb, hi, e⟩ | ⟨hn, e⟩
  · rw [e] at hf
    rcases c.friends_cases h f with ⟨b', hb', hf', e'⟩ | ⟨hn', -⟩
    · rw [e, e', block_unique h hb hb' hf hf']
    · exact absurd hf (hn' b hb)
  · rw [e] at hf
    have : f = i := by simpa using hf
    rw [this]

theorem Con.friends_of_block (c : Con) (h : c.Cd.flatten.Nodup) {b : List Nat} (hb : b ∈ c.Cd)
    {i : Nat} (hi : i ∈ b) : c.friends i = b := by
  rcases c.friends_cases h i with ⟨b', hb', hi', e⟩ | ⟨hn, -⟩
  · rw [e, block_unique h hb' hb hi' hi]
  · exact absurd hi (hn b hb)

/-! ### the seating loop -/

theorem foldl_set_getElem? (fr : List Nat) (Z : List (Option Nat)) (a : Option Nat) (j : Nat) :
    (fr.foldl (fun Z f => Z.set f a) Z)[j]? =
      if j ∈ fr ∧ j < Z.length then some a else Z[j]? := by
  induction fr generalizing Z with
  | nil => simp
  | cons f t ih =>
    rw [List.foldl_cons, ih]
    simp only [List.length_set, List.mem_cons]
    by_cases hj : j < Z.length
    · by_cases h1 : j ∈ t
      · simp [h1, hj]
      · by_cases h2 : j = f
        · subst h2; simp [h1, hj]
        · have : f ≠ j := fun e => h2 e.symm
          simp [h1, h2, List.getElem?_set, this]
    · have h0 : Z[j]? = none := List.getElem?_eq_none (by omega)
      have h1 : (Z.set f a)[j]? = none := List.getElem?_eq_none (by simp; omega)
      simp [hj]

theorem foldl_set_length (fr : List Nat) (Z : List (Option Nat)) (a : Option Nat) :
    (fr.foldl (fun Z f => Z.set f a) Z).length = Z.length := by
  induction fr generalizing Z with
  | nil => rfl
  | cons f t ih => rw [List.foldl_cons, ih]; simp

theorem nTables_spec (Z : List (Option Nat)) :
    (∀ (j t : Nat), Z[j]? = some (some t) → t < nTables Z) ∧
    ∀ n, (∀ (j t : Nat), Z[j]? = some (some t) → t < n) → nTables Z ≤ n := by
  have key : ∀ (Z : List (Option Nat)) (b : Nat),
      let r := Z.foldl (fun b z => max b (match z with | none => 0 | some t => t + 1)) b
      b ≤ r ∧ (∀ z ∈ Z, ∀ t, z = some t → t < r) ∧
        ∀ n, b ≤ n → (∀ z ∈ Z, ∀ t, z = some t → t < n) → r ≤ n := by
    intro Z
    induction Z with
    | nil => intro b; simp
    | cons z Z ih =>
      intro b
      simp only [List.foldl_cons]
      obtain ⟨h1, h2, h3⟩ := ih (max b (match z with | none => 0 | some t => t + 1))
      refine ⟨le_trans (le_max_left _ _) h1, fun y hy t ht => ?_, fun n hb hn => h3 n ?_ ?_⟩
      · rcases List.mem_cons.mp hy with rfl | hy
        · subst ht
          have h0 : t + 1 ≤ max b (t + 1) := le_max_right _ _
          exact lt_of_lt_of_le (Nat.lt_succ_self t) (le_trans h0 h1)
        · exact h2 y hy t ht
      · refine max_le hb ?_
        cases z with
        | none => exact Nat.zero_le _
        | some t => exact hn (some t) (by simp) t rfl
      · exact fun y hy t ht => hn y (by simp [hy]) t ht
  obtain ⟨-, h2, h3⟩ := key Z 0
  refine ⟨fun j t h => h2 _ (List.mem_of_getElem? h) t rfl, fun n h => h3 n (Nat.zero_le _) ?_⟩
  intro z hz t ht
  obtain ⟨j, hj, rfl⟩ := List.getElem_of_mem hz
  exact h j t (by rw [List.getElem?_eq_getElem hj, ht])

/-- Invariant after the customers before `i`. -/
structure SeatInv (c : Con) (N i : Nat) (Z : List (Option Nat)) : Prop where
  len : Z.length = N
  done : ∀ j : Nat, j < i → Z[j]? ≠ some none
  table : ∀ (j t : Nat), Z[j]? = some (some t) → t < i
  friend : ∀ (j t : Nat), Z[j]? = some (some t) → ∀ f ∈ c.friends j, Z[f]? = some (some t)
  compat : ∀ (a b t : Nat), Z[a]? = some (some t) → Z[b]? = some (some t) → a ≠ b →
    c.compatible a b = true

/-- What input validation guarantees. -/
structure GoodCon (c : Con) (N : Nat) : Prop where
  valid : ValidConstraints N c.Cd c.Ci
  inner : ∀ b ∈ c.Cd, ∀ x ∈ b, ∀ y ∈ b, x ≠ y → c.compatible x y = true

theorem GoodCon.of {c : Con} {N : Nat} (h : c.validateInput N = .ok ()) : GoodCon c N := by
  unfold Con.validateInput at h
  cases hv : validateDependency (some N) c.Cd c.Ci with
  | error e => rw [hv] at h; cases h
  | ok u =>
    rw [hv] at h
    simp only at h
    split at h
    · cases h
    · split at h
      · cases h
      · rename_i h1 h2
        refine ⟨(validateDependency_iff (some N) _ _).mp hv, fun b hb x hx y hy hxy => ?_⟩
        by_contra hc
        rw [Bool.not_eq_true] at hc
        rcases mem_combinations2 hx hy hxy with hm | hm
        · exact h2 ⟨b, hb, _, hm, hc⟩
        · exact h2 ⟨b, hb, _, hm, by rw [c.compatible_comm]; exact hc⟩

theorem probTable_nonneg (c : Con) {alpha : ℝ} (ha : 0 < alpha) (Z : List (Option Nat)) (i : Nat) :
    (∀ x ∈ c.probTable alpha Z i, 0 ≤ x) ∧ 0 < (c.probTable alpha Z i).sum := by
  have h : ∀ x ∈ (List.range (nTables Z)).map (fun t =>
    let custs := (List.range Z.length).filter fun i => Z[i]? = some (some t)
    if ∃ tc ∈ custs, ∃ f ∈ c.friends i, c.compatible f tc = false then (0 : ℝ)
    else (custs.length : ℝ)), 0 ≤ x := by
    intro x hx
    obtain ⟨t, -, rfl⟩ := List.mem_map.mp hx
    simp only
    split
    · exact le_rfl
    · exact Nat.cast_nonneg _
  constructor
  · intro x hx
    unfold Con.probTable at hx
    rcases List.mem_append.mp hx with hx | hx
    · exact h x hx
    · have : x = alpha := by simpa using hx
      rw [this]; exact ha.le
  · unfold Con.probTable
    rw [List.sum_append]
    have := List.sum_nonneg h
    simp only [List.sum_cons, List.sum_nil, add_zero]
    linarith

theorem seatOne_ok {c : Con} {N : Nat} (hg : GoodCon c N) {alpha : ℝ} (ha : 0 < alpha)
    {Z : List (Option Nat)} {i : Nat} (hi : i < N) (hI : SeatInv c N i Z) {u : ℝ} (hu : 0 ≤ u)
    (hu1 : u < 1) : ∃ Z', c.seatOne alpha Z i u = .ok Z' ∧ SeatInv c N (i + 1) Z' := by
  have hnd := hg.valid.once
  have hZi : i < Z.length := by rw [hI.len]; exact hi
  unfold Con.seatOne
  rw [List.getElem?_eq_getElem hZi]
  cases hz : Z[i] with
  | some t =>
    refine ⟨Z, rfl, hI.len, fun j hj => ?_, fun j t h => Nat.lt_succ_of_lt (hI.table j t h),
      hI.friend, hI.compat⟩
    rcases Nat.lt_succ_iff_lt_or_eq.mp hj with hj | rfl
    · exact hI.done j hj
    · rw [List.getElem?_eq_getElem hZi, hz]; simp
  | none =>
    simp only
    have hfN : ∀ f ∈ c.friends i, f < N := by
      intro f hf
      rcases c.friends_cases hnd i with ⟨b, hb, -, e⟩ | ⟨-, e⟩
      · exact hg.valid.range b hb f (e ▸ hf)
      · rw [e] at hf; have : f = i := by simpa using hf
        omega
    have hfree : ∀ f ∈ c.friends i, Z[f]? = some none := by
      intro f hf
      have hfl : f < Z.length := by rw [hI.len]; exact hfN f hf
      rw [List.getElem?_eq_getElem hfl]
      cases hzf : Z[f] with
      | none => rfl
      | some t =>
        have h1 : Z[f]? = some (some t) := by rw [List.getElem?_eq_getElem hfl, hzf]
        have h2 := hI.friend f t h1 i (by rw [c.friends_eq hnd hf]; exact c.mem_friends hnd i)
        rw [List.getElem?_eq_getElem hZi, hz] at h2; cases h2
    rw [if_neg (by rintro ⟨f, hf, h⟩; exact h (hfree f hf))]
    obtain ⟨hp0, hps⟩ := probTable_nonneg c ha Z i
    obtain ⟨a, hal, hfl, hpos⟩ := pflip_range hp0 hps hu hu1
    rw [hfl]
    refine ⟨_, rfl, ?_⟩
    have hplen : (c.probTable alpha Z i).length = nTables Z + 1 := by
      unfold Con.probTable; simp
    have hai : a ≤ nTables Z := by rw [hplen] at hal; omega
    have hnt : nTables Z ≤ i := (nTables_spec Z).2 i hI.table
    -- everybody at the chosen table is compatible
    have hok : ∀ tc : Nat, Z[tc]? = some (some a) → ∀ f ∈ c.friends i, c.compatible f tc = true := by
      intro tc htc f hf
      have hlt := (nTables_spec Z).1 tc a htc
      by_contra hc
      rw [Bool.not_eq_true] at hc
      have htl : tc < Z.length := by
        by_contra h
        rw [List.getElem?_eq_none (by omega)] at htc; cases htc
      have : (c.probTable alpha Z i)[a] = 0 := by
        have e : (c.probTable alpha Z i)[a]? = some 0 := by
          unfold Con.probTable
          rw [List.getElem?_append_left (by simpa using hlt), List.getElem?_map,
            List.getElem?_range hlt]
          simp only [Option.map_some]
          rw [if_pos]
          exact ⟨tc, List.mem_filter.mpr ⟨List.mem_range.mpr htl, by rw [htc]; simp⟩, f, hf, hc⟩
        rw [List.getElem?_eq_getElem hal] at e
        exact Option.some.inj e
      linarith
    have hget := foldl_set_getElem? (c.friends i) Z (some a)
    have hget' : ∀ j, ((c.friends i).foldl (fun Z f => Z.set f (some a)) Z)[j]? =
        if j ∈ c.friends i then some (some a) else Z[j]? := by
      intro j
      rw [hget j]
      by_cases h : j ∈ c.friends i
      · rw [if_pos h, if_pos ⟨h, by rw [hI.len]; exact hfN j h⟩]
      · rw [if_neg h, if_neg (fun h' => h h'.1)]
    refine ⟨by rw [foldl_set_length]; exact hI.len, fun j hj => ?_, fun j t h => ?_,
      fun j t h f hf => ?_, fun x y t hx hy hxy => ?_⟩
    · rw [hget']
      split
      · simp
      · rename_i hn
        have : j ≠ i := fun e => hn (e ▸ c.mem_friends hnd i)
        exact hI.done j (by omega)
    · rw [hget'] at h
      split at h
      · cases h; omega
      · exact Nat.lt_succ_of_lt (hI.table j t h)
    · rw [hget'] at h ⊢
      split at h
      · rename_i hj
        cases h
        rw [c.friends_eq hnd hj] at hf
        rw [if_pos hf]
      · rename_i hj
        rw [if_neg, hI.friend j t h f hf]
        intro hfi
        apply hj
        have h1 := c.friends_eq hnd hf
        have h2 := c.friends_eq hnd hfi
        rw [← h2, h1]; exact c.mem_friends hnd j
    · rw [hget'] at hx hy
      by_cases h1 : x ∈ c.friends i
      · by_cases h2 : y ∈ c.friends i
        · rcases c.friends_cases hnd i with ⟨b, hb, -, e⟩ | ⟨-, e⟩
          · exact hg.inner b hb x (e ▸ h1) y (e ▸ h2) hxy
          · rw [e] at h1 h2
            simp at h1 h2
            exact absurd (h1.trans h2.symm) hxy
        · rw [if_pos h1] at hx
          rw [if_neg h2] at hy
          cases hx
          exact hok y hy x h1
      · by_cases h2 : y ∈ c.friends i
        · rw [if_neg h1] at hx
          rw [if_pos h2] at hy
          cases hy
          rw [c.compatible_comm]
          exact hok x hx y h2
        · rw [if_neg h1] at hx
          rw [if_neg h2] at hy
          exact hI.compat x y t hx hy hxy

theorem seatLoop_ok {c : Con} {N : Nat} (hg : GoodCon c N) {alpha : ℝ} (ha : 0 < alpha)
    (us : Nat → ℝ) (hus : ∀ i, 0 ≤ us i ∧ us i < 1) (n i : Nat) (hn : i + n = N)
    {Z : List (Option Nat)} (hI : SeatInv c N i Z) :
    ∃ Z', c.seatLoop alpha us (List.range' i n) Z = .ok Z' ∧ SeatInv c N N Z' := by
  induction n generalizing i Z with
  | zero =>
    have : i = N := by omega
    subst this
    exact ⟨Z, rfl, hI⟩
  | succ n ih =>
    obtain ⟨Z', h1, h2⟩ := seatOne_ok hg ha (by omega) hI (hus i).1 (hus i).2
    obtain ⟨Z'', h3, h4⟩ := ih (i + 1) (by omega) h2
    refine ⟨Z'', ?_, h4⟩
    rw [List.range'_succ, Con.seatLoop, h1]
    exact h3

end Cgpm
