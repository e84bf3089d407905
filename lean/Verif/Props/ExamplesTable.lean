import Verif.Props.Examples

/-!
C76, continued: the models of src/dummy with a table of probabilities (`TwoWay`, `FourWay`) and
`PieceWise`.
-/
namespace Cgpm.Props
open Cgpm MeasureTheory ProbabilityTheory Classical Cgpm.Examples
open scoped ENNReal

theorem mass_npLog {p : ℝ} (h : 0 ≤ p) : mass (npLog p) = ENNReal.ofReal p := by
  unfold npLog
  split
  · rename_i h0
    show ENNReal.ofReal (Real.exp (Real.log p)) = _
    rw [Real.exp_log h0]
  · rename_i h0
    have : p = 0 := le_antisymm (not_lt.mp h0) h
    rw [if_pos this, this]
    simp [mass]

theorem pflip_list {l : List ℝ} (h : ∀ p ∈ l, 0 ≤ p) (hs : 0 < l.sum) (g : Nat → ℝ≥0∞) :
    (Draws.ofRand (Rand.pflip l)).E g
      = ∑ i ∈ Finset.range l.length, ENNReal.ofReal (l.getD i 0 / l.sum) * g i := by
  have := Draws.E_pflip (l := l) (p := id) h (by simpa using hs) g
  simpa using this

theorem twoWay_at {out inp : Nat} {y x : ℝ} (hy : y = 0 ∨ y = 1) (hx : x = 0 ∨ x = 1) :
    worth ((twoWay out inp).logpdf [(out, x)] [] [(inp, y)])
      = ENNReal.ofReal (if y = 0 then (if x = 0 then 0.9 else 0.1) else (if x = 0 then 0.3 else 0.7)) := by
  have h : (twoWay out inp).logpdf [(out, x)] [] [(inp, y)]
      = .ok (npLog ((twoWayTable ⌊y⌋₊).getD ⌊x⌋₊ 0)) := by
    show (do
      let y ← ask [(inp, y)] inp
      if ¬ (y = 0 ∨ y = 1) then Except.error Exn.assertion
      else do
        let x ← ask [(out, x)] out
        if x = 0 ∨ x = 1 then Except.ok (npLog ((twoWayTable ⌊y⌋₊).getD ⌊x⌋₊ 0)) else .ok .ninf) = _
    rw [ask_one, ask_one]
    show (if ¬ (y = 0 ∨ y = 1) then Except.error Exn.assertion
      else if x = 0 ∨ x = 1 then Except.ok (npLog ((twoWayTable ⌊y⌋₊).getD ⌊x⌋₊ 0)) else .ok .ninf) = _
    rw [if_neg (not_not.mpr hy), if_pos hx]
  rw [h]
  show mass _ = _
  rcases hy with rfl | rfl <;> rcases hx with rfl | rfl <;>
    (rw [mass_npLog (by simp [twoWayTable]; try norm_num)]; simp [twoWayTable])

/-- **C76.** `TwoWay` draws 0 and 1 with the probabilities that its `logpdf` reports, reports no
probability for any other value, and refuses any other input. -/
theorem C76_twoway (out inp : Nat) (y : ℝ) :
    (y = 0 ∨ y = 1 →
      (∀ G : Dict Nat ℝ → ℝ≥0∞, ((twoWay out inp).simulate [out] [] [(inp, y)]).E G
        = worth ((twoWay out inp).logpdf [(out, 0)] [] [(inp, y)]) * G [(out, 0)]
          + worth ((twoWay out inp).logpdf [(out, 1)] [] [(inp, y)]) * G [(out, 1)]) ∧
      worth ((twoWay out inp).logpdf [(out, 0)] [] [(inp, y)])
        + worth ((twoWay out inp).logpdf [(out, 1)] [] [(inp, y)]) = 1 ∧
      ∀ x, x ≠ 0 → x ≠ 1 → (twoWay out inp).logpdf [(out, x)] [] [(inp, y)] = .ok .ninf) ∧
    (¬ (y = 0 ∨ y = 1) → ∀ x, (twoWay out inp).logpdf [(out, x)] [] [(inp, y)] = .error .assertion ∧
      (twoWay out inp).simulate [out] [] [(inp, y)] = .raise .assertion) := by
  have hlog : ∀ x, (twoWay out inp).logpdf [(out, x)] [] [(inp, y)]
      = if ¬ (y = 0 ∨ y = 1) then .error .assertion
        else if x = 0 ∨ x = 1 then .ok (npLog ((twoWayTable ⌊y⌋₊).getD ⌊x⌋₊ 0)) else .ok .ninf := by
    intro x
    show (do
      let y ← ask [(inp, y)] inp
      if ¬ (y = 0 ∨ y = 1) then Except.error Exn.assertion
      else do
        let x ← ask [(out, x)] out
        if x = 0 ∨ x = 1 then Except.ok (npLog ((twoWayTable ⌊y⌋₊).getD ⌊x⌋₊ 0)) else .ok .ninf) = _
    rw [ask_one, ask_one]
    rfl
  have hsim : (twoWay out inp).simulate [out] [] [(inp, y)]
      = if ¬ (y = 0 ∨ y = 1) then .raise .assertion
        else (Draws.ofRand (Rand.pflip (twoWayTable ⌊y⌋₊))).bind fun x => .pure [(out, (x : ℝ))] := by
    show ((Draws.ofExcept (ask [(inp, y)] inp)).bind fun y =>
      if ¬ (y = 0 ∨ y = 1) then .raise .assertion
      else (Draws.ofRand (Rand.pflip (twoWayTable ⌊y⌋₊))).bind fun x => .pure [(out, (x : ℝ))]) = _
    rw [ask_one]
    rfl
  refine ⟨fun hy => ⟨fun G => ?_, ?_, fun x h0 h1 => ?_⟩, fun hy x => ?_⟩
  · rw [twoWay_at hy (.inl rfl), twoWay_at hy (.inr rfl), hsim, if_neg (not_not.mpr hy), Draws.E_bind,
      pflip_list]
    · rcases hy with rfl | rfl <;> norm_num [twoWayTable, Finset.sum_range_succ, Draws.E]
    · rcases hy with rfl | rfl <;> norm_num [twoWayTable]
    · rcases hy with rfl | rfl <;> norm_num [twoWayTable]
  · rw [twoWay_at hy (.inl rfl), twoWay_at hy (.inr rfl)]
    rcases hy with rfl | rfl
    · rw [← ENNReal.ofReal_add (by norm_num) (by norm_num)]; norm_num
    · rw [← ENNReal.ofReal_add (by norm_num) (by norm_num)]; norm_num
  · rw [hlog, if_neg (not_not.mpr hy), if_neg (by simp [h0, h1])]
  · rw [hlog, hsim, if_pos hy, if_pos hy]
    exact ⟨rfl, rfl⟩

theorem fourWay_sim (out i0 i1 : Nat) (hi : i0 ≠ i1) (y0 y1 : ℝ) :
    (fourWay out i0 i1).simulate [out] [] [(i0, y0), (i1, y1)]
      = (Draws.ofRand (Rand.pflip (fourWayTable (quadrant y0 y1)))).bind fun x =>
          .pure [(out, (x : ℝ))] := by
  show ((Draws.ofExcept (ask [(i0, y0), (i1, y1)] i0)).bind fun y0 =>
    (Draws.ofExcept (ask _ i1)).bind fun y1 =>
    (Draws.ofRand (Rand.pflip (fourWayTable (quadrant y0 y1)))).bind fun x =>
      .pure [(out, (x : ℝ))]) = _
  have h0 : ask [(i0, y0), (i1, y1)] i0 = .ok y0 := by simp [ask, Dict.get?]
  have h1 : ask [(i0, y0), (i1, y1)] i1 = .ok y1 := by simp [ask, Dict.get?, hi]
  rw [h0, h1]
  rfl

theorem fourWay_log (out i0 i1 : Nat) (hi : i0 ≠ i1) (y0 y1 x : ℝ) :
    (fourWay out i0 i1).logpdf [(out, x)] [] [(i0, y0), (i1, y1)]
      = if ¬ (0 ≤ x ∧ x ≤ 3) then .ok .ninf
        else if (⌊x⌋₊ : ℝ) ≠ x then .error .typeError
        else .ok (npLog ((fourWayTable (quadrant y0 y1)).getD ⌊x⌋₊ 0)) := by
  show (do
    let x ← ask [(out, x)] out
    if ¬ (0 ≤ x ∧ x ≤ 3) then Except.ok Fl.ninf
    else do
      let y0 ← ask [(i0, y0), (i1, y1)] i0
      let y1 ← ask _ i1
      if (⌊x⌋₊ : ℝ) ≠ x then .error .typeError
      else .ok (npLog ((fourWayTable (quadrant y0 y1)).getD ⌊x⌋₊ 0))) = _
  have h0 : ask [(i0, y0), (i1, y1)] i0 = .ok y0 := by simp [ask, Dict.get?]
  have h1 : ask [(i0, y0), (i1, y1)] i1 = .ok y1 := by simp [ask, Dict.get?, hi]
  rw [ask_one, h0, h1]
  rfl

theorem fourWay_nonneg (q : Nat) : ∀ p ∈ fourWayTable q, 0 ≤ p := by
  unfold fourWayTable
  split <;> simp <;> norm_num

theorem fourWay_length (q : Nat) : (fourWayTable q).length = 4 := by
  unfold fourWayTable
  split <;> rfl

theorem fourWay_worth (out i0 i1 : Nat) (hi : i0 ≠ i1) (y0 y1 : ℝ) {k : Nat} (hk : k < 4) :
    worth ((fourWay out i0 i1).logpdf [(out, (k : ℝ))] [] [(i0, y0), (i1, y1)])
      = ENNReal.ofReal ((fourWayTable (quadrant y0 y1)).getD k 0) := by
  have h3 : (k : ℝ) ≤ 3 := by exact_mod_cast Nat.lt_succ_iff.mp hk
  rw [fourWay_log _ _ _ hi, if_neg (not_not.mpr ⟨Nat.cast_nonneg k, h3⟩), Nat.floor_natCast,
    if_neg (not_not.mpr rfl)]
  refine mass_npLog ?_
  have hl : k < (fourWayTable (quadrant y0 y1)).length := by rw [fourWay_length]; exact hk
  rw [List.getD_eq_getElem _ _ hl]
  exact fourWay_nonneg _ _ (List.getElem_mem hl)

theorem fourWay_E (out i0 i1 : Nat) (hi : i0 ≠ i1) (y0 y1 : ℝ) (G : Dict Nat ℝ → ℝ≥0∞) :
    ((fourWay out i0 i1).simulate [out] [] [(i0, y0), (i1, y1)]).E G
      = ∑ k ∈ Finset.range 4, ENNReal.ofReal ((fourWayTable (quadrant y0 y1)).getD k 0
          / (fourWayTable (quadrant y0 y1)).sum) * G [(out, (k : ℝ))] := by
  rw [fourWay_sim _ _ _ hi, Draws.E_bind, pflip_list (fourWay_nonneg _), fourWay_length]
  · rfl
  · unfold fourWayTable
    split <;> norm_num

/-- **C76.** When the second input is negative, `FourWay` draws each of its four values with the
probability that its `logpdf` reports. -/
theorem C76_fourway (out : Nat) {i0 i1 : Nat} (hi : i0 ≠ i1) (y0 : ℝ) {y1 : ℝ} (h : y1 < 0) :
    (∀ G : Dict Nat ℝ → ℝ≥0∞, ((fourWay out i0 i1).simulate [out] [] [(i0, y0), (i1, y1)]).E G
      = ∑ k ∈ Finset.range 4,
          worth ((fourWay out i0 i1).logpdf [(out, (k : ℝ))] [] [(i0, y0), (i1, y1)])
            * G [(out, (k : ℝ))]) ∧
    ∀ x, x < 0 ∨ 3 < x →
      (fourWay out i0 i1).logpdf [(out, x)] [] [(i0, y0), (i1, y1)] = .ok .ninf := by
  refine ⟨fun G => ?_, fun x hx => ?_⟩
  · rw [fourWay_E _ _ _ hi]
    refine Finset.sum_congr rfl fun k hk => ?_
    rw [fourWay_worth _ _ _ hi _ _ (Finset.mem_range.mp hk)]
    have : (fourWayTable (quadrant y0 y1)).sum = 1 := by
      unfold quadrant
      rw [if_neg (by rintro ⟨-, h'⟩; linarith), if_neg (by rintro ⟨-, h'⟩; linarith)]
      split <;> norm_num [fourWayTable]
    rw [this, div_one]
  · rw [fourWay_log _ _ _ hi, if_pos (by rintro ⟨a, b⟩; rcases hx with hx | hx <;> linarith)]

/-- **C76.** `TwoWay.retrieve_y_for_x` gives an input at which the value asked about is more probable
than any other, and refuses what is not a value. -/
theorem C76_twoway_retrieve (out inp : Nat) (x : ℝ) :
    (x = 0 ∨ x = 1 → ∃ y, twoWayRetrieve x = .ok y ∧ ∀ x', x' ≠ x →
      worth ((twoWay out inp).logpdf [(out, x')] [] [(inp, y)])
        < worth ((twoWay out inp).logpdf [(out, x)] [] [(inp, y)])) ∧
    (¬ (x = 0 ∨ x = 1) → twoWayRetrieve x = .error .valueError) := by
  refine ⟨fun hx => ?_, fun hx => ?_⟩
  · have key : ∀ y : ℝ, (y = 0 ∨ y = 1) → x = y → ∀ x', x' ≠ x →
        worth ((twoWay out inp).logpdf [(out, x')] [] [(inp, y)])
          < worth ((twoWay out inp).logpdf [(out, x)] [] [(inp, y)]) := by
      intro y hy hxy x' hx'
      rw [twoWay_at hy hx]
      by_cases h' : x' = 0 ∨ x' = 1
      · rw [twoWay_at hy h', ENNReal.ofReal_lt_ofReal_iff]
        · subst hxy
          rcases hy with rfl | rfl <;> rcases h' with rfl | rfl <;> simp at hx' ⊢ <;> norm_num
        · split <;> split <;> norm_num
      · rw [((C76_twoway (out := out) (inp := inp) (y := y)).1 hy).2.2 x' (fun h => h' (.inl h))
          (fun h => h' (.inr h))]
        show (0 : ℝ≥0∞) < _
        rw [ENNReal.ofReal_pos]
        split <;> split <;> norm_num
    rcases hx with rfl | rfl
    · exact ⟨0, by simp [twoWayRetrieve], key 0 (.inl rfl) rfl⟩
    · exact ⟨1, by simp [twoWayRetrieve], key 1 (.inr rfl) rfl⟩
  · rw [twoWayRetrieve, if_neg fun h => hx (.inl h), if_neg fun h => hx (.inr h)]

/-- **C76.** `FourWay.retrieve_y_for_x` gives inputs at which the value asked about is more probable
than any other, and refuses what is not a value. -/
theorem C76_fourway_retrieve (out : Nat) {i0 i1 : Nat} (hi : i0 ≠ i1) (x : ℝ) :
    (∀ k : Nat, k < 4 → x = k → ∃ y0 y1, fourWayRetrieve x = .ok (y0, y1) ∧
      ∀ j : Nat, j < 4 → j ≠ k →
        worth ((fourWay out i0 i1).logpdf [(out, (j : ℝ))] [] [(i0, y0), (i1, y1)])
          < worth ((fourWay out i0 i1).logpdf [(out, x)] [] [(i0, y0), (i1, y1)])) ∧
    ((∀ k : Nat, k < 4 → x ≠ k) → fourWayRetrieve x = .error .valueError) := by
  refine ⟨fun k hk hx => ?_, fun hx => ?_⟩
  · subst hx
    have key : ∀ y0 y1 : ℝ, quadrant y0 y1 = k → ∀ j : Nat, j < 4 → j ≠ k →
        worth ((fourWay out i0 i1).logpdf [(out, (j : ℝ))] [] [(i0, y0), (i1, y1)])
          < worth ((fourWay out i0 i1).logpdf [(out, (k : ℝ))] [] [(i0, y0), (i1, y1)]) := by
      intro y0 y1 hq j hj hjk
      rw [fourWay_worth _ _ _ hi _ _ hj, fourWay_worth _ _ _ hi _ _ hk, hq,
        ENNReal.ofReal_lt_ofReal_iff]
      · interval_cases k <;> interval_cases j <;> simp [fourWayTable] at hjk ⊢ <;> norm_num
      · interval_cases k <;> simp [fourWayTable] <;> norm_num
    interval_cases k
    · exact ⟨2, 2, by norm_num [fourWayRetrieve], key 2 2 (by norm_num [quadrant])⟩
    · exact ⟨-2, 2, by norm_num [fourWayRetrieve], key (-2) 2 (by norm_num [quadrant])⟩
    · exact ⟨2, -2, by norm_num [fourWayRetrieve], key 2 (-2) (by norm_num [quadrant])⟩
    · exact ⟨-2, -2, by norm_num [fourWayRetrieve], key (-2) (-2) (by norm_num [quadrant])⟩
  · have h0 := hx 0 (by norm_num)
    have h1 := hx 1 (by norm_num)
    have h2 := hx 2 (by norm_num)
    have h3 := hx 3 (by norm_num)
    push_cast at h0 h1 h2 h3
    rw [fourWayRetrieve, if_neg h0, if_neg h1, if_neg h2, if_neg h3]

/-- **C76, false of the code.** When the second input is not negative, the probabilities that `FourWay`
reports do not sum to one (they sum to 0.9 or to 1.1), and its values are drawn with the normalised
ones. -/
theorem C76_fourway_violated (out : Nat) {i0 i1 : Nat} (hi : i0 ≠ i1) (y0 : ℝ) {y1 : ℝ} (h : 0 ≤ y1) :
    (∑ k ∈ Finset.range 4,
      worth ((fourWay out i0 i1).logpdf [(out, (k : ℝ))] [] [(i0, y0), (i1, y1)]))
        = ENNReal.ofReal (if 0 ≤ y0 then 0.9 else 1.1) ∧
    ∀ k : Nat, k < 4 → ((fourWay out i0 i1).simulate [out] [] [(i0, y0), (i1, y1)]).E
        (fun d => if d = [(out, (k : ℝ))] then 1 else 0)
      ≠ worth ((fourWay out i0 i1).logpdf [(out, (k : ℝ))] [] [(i0, y0), (i1, y1)]) := by
  have hq : quadrant y0 y1 = if 0 ≤ y0 then 0 else 1 := by
    unfold quadrant
    by_cases h0 : 0 ≤ y0
    · rw [if_pos ⟨h0, h⟩, if_pos h0]
    · rw [if_neg (fun hh => h0 hh.1), if_pos ⟨(not_le.mp h0).le, h⟩, if_neg h0]
  constructor
  · rw [Finset.sum_congr rfl fun k hk => fourWay_worth _ _ _ hi _ _ (Finset.mem_range.mp hk), hq,
      ← ENNReal.ofReal_sum_of_nonneg]
    · split <;> norm_num [fourWayTable, Finset.sum_range_succ]
    · intro k hk
      have hl : k < (fourWayTable (if 0 ≤ y0 then 0 else 1)).length := by
        rw [fourWay_length]; exact Finset.mem_range.mp hk
      rw [List.getD_eq_getElem _ _ hl]
      exact fourWay_nonneg _ _ (List.getElem_mem hl)
  · intro k hk
    rw [fourWay_E _ _ _ hi, fourWay_worth _ _ _ hi _ _ hk, Finset.sum_eq_single k]
    · rw [if_pos rfl, mul_one, hq, Ne, ENNReal.ofReal_eq_ofReal_iff]
      · by_cases h0 : 0 ≤ y0
        · rw [if_pos h0]
          interval_cases k <;> norm_num [fourWayTable]
        · rw [if_neg h0]
          interval_cases k <;> norm_num [fourWayTable]
      · by_cases h0 : 0 ≤ y0
        · rw [if_pos h0]
          interval_cases k <;> norm_num [fourWayTable]
        · rw [if_neg h0]
          interval_cases k <;> norm_num [fourWayTable]
      · by_cases h0 : 0 ≤ y0
        · rw [if_pos h0]
          interval_cases k <;> norm_num [fourWayTable]
        · rw [if_neg h0]
          interval_cases k <;> norm_num [fourWayTable]
    · intro b _ hb
      rw [if_neg, mul_zero]
      simpa using hb
    · intro hn
      exact absurd (Finset.mem_range.mpr hk) hn

end Cgpm.Props
