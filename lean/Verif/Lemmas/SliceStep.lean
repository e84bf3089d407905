import Verif.Lemmas.SliceDens

/-! The interval of the slice sampler: where the loops that extend it end. -/
namespace Cgpm.Sampler
open Cgpm MeasureTheory
open scoped ENNReal

variable (p : ℝ → ℝ≥0∞) (K : Set ℝ) (D : Domain) (w : ℝ)

/-- The loop to the left ends, within `n` steps from `a`. -/
def loGood : ℕ → ℝ → ℝ → Prop
  | 0, τ, a => (a : EReal) < D.lo ∨ Under p K τ a
  | n + 1, τ, a => (a : EReal) < D.lo ∨ Under p K τ a ∨ (Over p τ a ∧ loGood n τ (a - w))

open Classical in
/-- Where it ends. -/
noncomputable def loEnd : ℕ → ℝ → ℝ → ℝ
  | 0, _, a => if (a : EReal) < D.lo then D.lo.toReal else a
  | n + 1, τ, a => if (a : EReal) < D.lo then D.lo.toReal
      else if Over p τ a then loEnd n τ (a - w) else a

/-- The loop to the right ends, within `n` steps from `b`. -/
def hiGood : ℕ → ℝ → ℝ → Prop
  | 0, τ, b => D.hi < (b : EReal) ∨ Under p K τ b
  | n + 1, τ, b => D.hi < (b : EReal) ∨ Under p K τ b ∨ (Over p τ b ∧ hiGood n τ (b + w))

open Classical in
/-- Where it ends. -/
noncomputable def hiEnd : ℕ → ℝ → ℝ → ℝ
  | 0, _, b => if D.hi < (b : EReal) then D.hi.toReal else b
  | n + 1, τ, b => if D.hi < (b : EReal) then D.hi.toReal
      else if Over p τ b then hiEnd n τ (b + w) else b

variable {p K D w}

theorem not_over_of_under {τ y : ℝ} (h : Under p K τ y) : ¬ Over p τ y := not_lt.mpr h.2

theorem loGood_mono {n : ℕ} {τ a : ℝ} (h : loGood p K D w n τ a) :
    loGood p K D w (n + 1) τ a ∧ loEnd p D w (n + 1) τ a = loEnd p D w n τ a := by
  induction n generalizing a with
  | zero =>
    unfold loGood at h ⊢
    unfold loEnd
    rcases h with h | h
    · exact ⟨.inl h, by rw [if_pos h, if_pos h]⟩
    · exact ⟨.inr (.inl h), by rw [if_neg (not_over_of_under h)]⟩
  | succ n ih =>
    unfold loGood at h ⊢
    unfold loEnd
    rcases h with h | h | h
    · exact ⟨.inl h, by rw [if_pos h, if_pos h]⟩
    · exact ⟨.inr (.inl h), by rw [if_neg (not_over_of_under h), if_neg (not_over_of_under h)]⟩
    · exact ⟨.inr (.inr ⟨h.1, (ih h.2).1⟩), by rw [if_pos h.1, if_pos h.1, (ih h.2).2]⟩

theorem loGood_add {n : ℕ} {τ a : ℝ} (h : loGood p K D w n τ a) (k : ℕ) :
    loGood p K D w (n + k) τ a ∧ loEnd p D w (n + k) τ a = loEnd p D w n τ a := by
  induction k with
  | zero => exact ⟨h, rfl⟩
  | succ k ih =>
    obtain ⟨h1, h2⟩ := loGood_mono ih.1
    exact ⟨h1, h2.trans ih.2⟩

theorem lo_bound {x : ℝ} (hx : D.lo ≤ (x : EReal)) {a : ℝ} (ha : (a : EReal) < D.lo) :
    ((D.lo.toReal : ℝ) : EReal) = D.lo :=
  EReal.coe_toReal (ne_top_of_le_ne_top (EReal.coe_ne_top x) hx) (ne_bot_of_gt ha)

open Classical in
theorem lo_pass {x : ℝ} (hx : D.lo ≤ (x : EReal)) {n : ℕ} {τ a : ℝ} (h : loGood p K D w n τ a)
    (hlt : loEnd p D w n τ a < a) :
    ((D.lo ≤ (a : EReal)) ∧ Over p τ a) ∧ ∃ m, loGood p K D w m τ (a - w) ∧
      loEnd p D w m τ (a - w) = loEnd p D w n τ a := by
  have hge : D.lo ≤ (a : EReal) := by
    by_contra hn
    rw [not_le] at hn
    have e := lo_bound hx hn
    have : loEnd p D w n τ a = D.lo.toReal := by
      cases n <;> (unfold loEnd; rw [if_pos hn])
    rw [this, ← EReal.coe_lt_coe_iff, e] at hlt
    exact absurd hlt (not_lt.mpr hn.le)
  cases n with
  | zero =>
    unfold loEnd at hlt
    rw [if_neg (not_lt.mpr hge)] at hlt
    exact absurd hlt (lt_irrefl a)
  | succ n =>
    unfold loGood at h
    have he : loEnd p D w (n + 1) τ a = if Over p τ a then loEnd p D w n τ (a - w) else a := by
      conv_lhs => unfold loEnd
      rw [if_neg (not_lt.mpr hge)]
    rw [he] at hlt ⊢
    rcases h with h | h | h
    · exact absurd h (not_lt.mpr hge)
    · rw [if_neg (not_over_of_under h)] at hlt
      exact absurd hlt (lt_irrefl a)
    · rw [if_pos h.1]
      exact ⟨⟨hge, h.1⟩, n, h.2, rfl⟩

theorem lo_far {x : ℝ} (hx : D.lo ≤ (x : EReal)) {n : ℕ} {τ a : ℝ} (h : loGood p K D w n τ a) (j : ℕ)
    (hlt : ∀ i : ℕ, i < j → loEnd p D w n τ a < a - i * w) :
    (∀ i : ℕ, i < j → (D.lo ≤ ((a - i * w : ℝ) : EReal)) ∧ Over p τ (a - i * w)) ∧
      ∃ m, loGood p K D w m τ (a - j * w) ∧ loEnd p D w m τ (a - j * w) = loEnd p D w n τ a := by
  induction j with
  | zero =>
    refine ⟨fun i hi => absurd hi (Nat.not_lt_zero i), n, ?_, ?_⟩
    · rw [Nat.cast_zero, zero_mul, sub_zero]; exact h
    · rw [Nat.cast_zero, zero_mul, sub_zero]
  | succ j ih =>
    obtain ⟨h1, m, h2, h3⟩ := ih fun i hi => hlt i (Nat.lt_succ_of_lt hi)
    obtain ⟨h4, m', h5, h6⟩ := lo_pass hx h2 (by rw [h3]; exact hlt j (Nat.lt_succ_self j))
    have e : a - (j : ℝ) * w - w = a - ((j + 1 : ℕ) : ℝ) * w := by push_cast; ring
    rw [e] at h5 h6
    refine ⟨fun i hi => ?_, m', h5, h6.trans h3⟩
    rcases Nat.lt_succ_iff_lt_or_eq.mp hi with hi | rfl
    · exact h1 i hi
    · exact h4

theorem lo_back {n : ℕ} {τ a : ℝ} (j : ℕ)
    (hov : ∀ i : ℕ, i < j → (D.lo ≤ ((a - i * w : ℝ) : EReal)) ∧ Over p τ (a - i * w))
    (h : loGood p K D w n τ (a - j * w)) :
    ∃ m, loGood p K D w m τ a ∧ loEnd p D w m τ a = loEnd p D w n τ (a - j * w) := by
  induction j generalizing n with
  | zero =>
    rw [Nat.cast_zero, zero_mul, sub_zero] at h ⊢
    exact ⟨n, h, rfl⟩
  | succ j ih =>
    have e : a - ((j + 1 : ℕ) : ℝ) * w = a - (j : ℝ) * w - w := by push_cast; ring
    rw [e] at h ⊢
    obtain ⟨g1, g2⟩ := hov j (Nat.lt_succ_self j)
    have hg : loGood p K D w (n + 1) τ (a - j * w) := .inr (.inr ⟨g2, h⟩)
    have he : loEnd p D w (n + 1) τ (a - j * w) = loEnd p D w n τ (a - j * w - w) := by
      conv_lhs => unfold loEnd
      rw [if_neg (not_lt.mpr g1), if_pos g2]
    obtain ⟨m, m1, m2⟩ := ih (fun i hi => hov i (Nat.lt_succ_of_lt hi)) hg
    exact ⟨m, m1, m2.trans he⟩

theorem loEnd_within (hw : 0 < w) {x : ℝ} (hx : D.lo ≤ (x : EReal)) {n : ℕ} {τ a : ℝ} (hax : a ≤ x)
    (h : loGood p K D w n τ a) :
    D.lo ≤ ((loEnd p D w n τ a : ℝ) : EReal) ∧ loEnd p D w n τ a ≤ x := by
  have hcut : (a : EReal) < D.lo → D.lo ≤ ((D.lo.toReal : ℝ) : EReal) ∧ D.lo.toReal ≤ x := fun hn => by
    have e := lo_bound hx hn
    exact ⟨e.ge, by rw [← EReal.coe_le_coe_iff, e]; exact hx⟩
  induction n generalizing a with
  | zero =>
    unfold loEnd
    by_cases hn : (a : EReal) < D.lo
    · rw [if_pos hn]; exact hcut hn
    · rw [if_neg hn]; exact ⟨not_lt.mp hn, hax⟩
  | succ n ih =>
    unfold loEnd
    by_cases hn : (a : EReal) < D.lo
    · rw [if_pos hn]; exact hcut hn
    · rw [if_neg hn]
      unfold loGood at h
      rcases h with h | h | h
      · exact absurd h hn
      · rw [if_neg (not_over_of_under h)]; exact ⟨not_lt.mp hn, hax⟩
      · rw [if_pos h.1]
        refine ih (by linarith) h.2 fun hn' => ?_
        have e := lo_bound hx hn'
        exact ⟨e.ge, by rw [← EReal.coe_le_coe_iff, e]; exact hx⟩

theorem measurable_loGood (hp : Measurable p) (hK : MeasurableSet K) (n : ℕ) :
    MeasurableSet {q : ℝ × ℝ | loGood p K D w n q.1 q.2} := by
  have h1 : MeasurableSet {q : ℝ × ℝ | (q.2 : EReal) < D.lo} :=
    measurableSet_lt (measurable_coe_real_ereal.comp measurable_snd) measurable_const
  have h2 : MeasurableSet {q : ℝ × ℝ | Under p K q.1 q.2} :=
    measurable_under hp hK measurable_fst measurable_snd
  induction n with
  | zero => exact h1.union h2
  | succ n ih =>
    have hs : Measurable fun q : ℝ × ℝ => (q.1, q.2 - w) :=
      measurable_fst.prodMk (measurable_snd.sub_const w)
    exact h1.union (h2.union ((measurable_over hp measurable_fst measurable_snd).inter (hs ih)))

open Classical in
theorem measurable_loEnd (hp : Measurable p) (n : ℕ) :
    Measurable fun q : ℝ × ℝ => loEnd p D w n q.1 q.2 := by
  have h1 : MeasurableSet {q : ℝ × ℝ | (q.2 : EReal) < D.lo} :=
    measurableSet_lt (measurable_coe_real_ereal.comp measurable_snd) measurable_const
  induction n with
  | zero => exact Measurable.ite h1 measurable_const measurable_snd
  | succ n ih =>
    have hs : Measurable fun q : ℝ × ℝ => (q.1, q.2 - w) :=
      measurable_fst.prodMk (measurable_snd.sub_const w)
    exact Measurable.ite h1 measurable_const
      (Measurable.ite (measurable_over hp measurable_fst measurable_snd) (ih.comp hs) measurable_snd)

theorem hiGood_mono {n : ℕ} {τ b : ℝ} (h : hiGood p K D w n τ b) :
    hiGood p K D w (n + 1) τ b ∧ hiEnd p D w (n + 1) τ b = hiEnd p D w n τ b := by
  induction n generalizing b with
  | zero =>
    unfold hiGood at h ⊢
    unfold hiEnd
    rcases h with h | h
    · exact ⟨.inl h, by rw [if_pos h, if_pos h]⟩
    · exact ⟨.inr (.inl h), by rw [if_neg (not_over_of_under h)]⟩
  | succ n ih =>
    unfold hiGood at h ⊢
    unfold hiEnd
    rcases h with h | h | h
    · exact ⟨.inl h, by rw [if_pos h, if_pos h]⟩
    · exact ⟨.inr (.inl h), by rw [if_neg (not_over_of_under h), if_neg (not_over_of_under h)]⟩
    · exact ⟨.inr (.inr ⟨h.1, (ih h.2).1⟩), by rw [if_pos h.1, if_pos h.1, (ih h.2).2]⟩

theorem hiGood_add {n : ℕ} {τ b : ℝ} (h : hiGood p K D w n τ b) (k : ℕ) :
    hiGood p K D w (n + k) τ b ∧ hiEnd p D w (n + k) τ b = hiEnd p D w n τ b := by
  induction k with
  | zero => exact ⟨h, rfl⟩
  | succ k ih =>
    obtain ⟨h1, h2⟩ := hiGood_mono ih.1
    exact ⟨h1, h2.trans ih.2⟩

theorem hi_bound {x : ℝ} (hx : (x : EReal) ≤ D.hi) {b : ℝ} (ha : D.hi < (b : EReal)) :
    ((D.hi.toReal : ℝ) : EReal) = D.hi :=
  EReal.coe_toReal (ne_top_of_lt ha) (ne_bot_of_le_ne_bot (EReal.coe_ne_bot x) hx)

open Classical in
theorem hi_pass {x : ℝ} (hx : (x : EReal) ≤ D.hi) {n : ℕ} {τ b : ℝ} (h : hiGood p K D w n τ b)
    (hlt : b < hiEnd p D w n τ b) :
    (((b : EReal) ≤ D.hi) ∧ Over p τ b) ∧ ∃ m, hiGood p K D w m τ (b + w) ∧
      hiEnd p D w m τ (b + w) = hiEnd p D w n τ b := by
  have hge : (b : EReal) ≤ D.hi := by
    by_contra hn
    rw [not_le] at hn
    have e := hi_bound hx hn
    have : hiEnd p D w n τ b = D.hi.toReal := by
      cases n <;> (unfold hiEnd; rw [if_pos hn])
    rw [this, ← EReal.coe_lt_coe_iff, e] at hlt
    exact absurd hlt (not_lt.mpr hn.le)
  cases n with
  | zero =>
    unfold hiEnd at hlt
    rw [if_neg (not_lt.mpr hge)] at hlt
    exact absurd hlt (lt_irrefl b)
  | succ n =>
    unfold hiGood at h
    have he : hiEnd p D w (n + 1) τ b = if Over p τ b then hiEnd p D w n τ (b + w) else b := by
      conv_lhs => unfold hiEnd
      rw [if_neg (not_lt.mpr hge)]
    rw [he] at hlt ⊢
    rcases h with h | h | h
    · exact absurd h (not_lt.mpr hge)
    · rw [if_neg (not_over_of_under h)] at hlt
      exact absurd hlt (lt_irrefl b)
    · rw [if_pos h.1]
      exact ⟨⟨hge, h.1⟩, n, h.2, rfl⟩

theorem hi_far {x : ℝ} (hx : (x : EReal) ≤ D.hi) {n : ℕ} {τ b : ℝ} (h : hiGood p K D w n τ b) (j : ℕ)
    (hlt : ∀ i : ℕ, i < j → b + i * w < hiEnd p D w n τ b) :
    (∀ i : ℕ, i < j → (((b + i * w : ℝ) : EReal) ≤ D.hi) ∧ Over p τ (b + i * w)) ∧
      ∃ m, hiGood p K D w m τ (b + j * w) ∧ hiEnd p D w m τ (b + j * w) = hiEnd p D w n τ b := by
  induction j with
  | zero =>
    refine ⟨fun i hi => absurd hi (Nat.not_lt_zero i), n, ?_, ?_⟩
    · rw [Nat.cast_zero, zero_mul, add_zero]; exact h
    · rw [Nat.cast_zero, zero_mul, add_zero]
  | succ j ih =>
    obtain ⟨h1, m, h2, h3⟩ := ih fun i hi => hlt i (Nat.lt_succ_of_lt hi)
    obtain ⟨h4, m', h5, h6⟩ := hi_pass hx h2 (by rw [h3]; exact hlt j (Nat.lt_succ_self j))
    have e : b + (j : ℝ) * w + w = b + ((j + 1 : ℕ) : ℝ) * w := by push_cast; ring
    rw [e] at h5 h6
    refine ⟨fun i hi => ?_, m', h5, h6.trans h3⟩
    rcases Nat.lt_succ_iff_lt_or_eq.mp hi with hi | rfl
    · exact h1 i hi
    · exact h4

theorem hi_back {n : ℕ} {τ b : ℝ} (j : ℕ)
    (hov : ∀ i : ℕ, i < j → (((b + i * w : ℝ) : EReal) ≤ D.hi) ∧ Over p τ (b + i * w))
    (h : hiGood p K D w n τ (b + j * w)) :
    ∃ m, hiGood p K D w m τ b ∧ hiEnd p D w m τ b = hiEnd p D w n τ (b + j * w) := by
  induction j generalizing n with
  | zero =>
    rw [Nat.cast_zero, zero_mul, add_zero] at h ⊢
    exact ⟨n, h, rfl⟩
  | succ j ih =>
    have e : b + ((j + 1 : ℕ) : ℝ) * w = b + (j : ℝ) * w + w := by push_cast; ring
    rw [e] at h ⊢
    obtain ⟨g1, g2⟩ := hov j (Nat.lt_succ_self j)
    have hg : hiGood p K D w (n + 1) τ (b + j * w) := .inr (.inr ⟨g2, h⟩)
    have he : hiEnd p D w (n + 1) τ (b + j * w) = hiEnd p D w n τ (b + j * w + w) := by
      conv_lhs => unfold hiEnd
      rw [if_neg (not_lt.mpr g1), if_pos g2]
    obtain ⟨m, m1, m2⟩ := ih (fun i hi => hov i (Nat.lt_succ_of_lt hi)) hg
    exact ⟨m, m1, m2.trans he⟩

theorem hiEnd_within (hw : 0 < w) {x : ℝ} (hx : (x : EReal) ≤ D.hi) {n : ℕ} {τ b : ℝ} (hax : x ≤ b)
    (h : hiGood p K D w n τ b) :
    ((hiEnd p D w n τ b : ℝ) : EReal) ≤ D.hi ∧ x ≤ hiEnd p D w n τ b := by
  have hcut : D.hi < (b : EReal) → ((D.hi.toReal : ℝ) : EReal) ≤ D.hi ∧ x ≤ D.hi.toReal := fun hn => by
    have e := hi_bound hx hn
    exact ⟨e.le, by rw [← EReal.coe_le_coe_iff, e]; exact hx⟩
  induction n generalizing b with
  | zero =>
    unfold hiEnd
    by_cases hn : D.hi < (b : EReal)
    · rw [if_pos hn]; exact hcut hn
    · rw [if_neg hn]; exact ⟨not_lt.mp hn, hax⟩
  | succ n ih =>
    unfold hiEnd
    by_cases hn : D.hi < (b : EReal)
    · rw [if_pos hn]; exact hcut hn
    · rw [if_neg hn]
      unfold hiGood at h
      rcases h with h | h | h
      · exact absurd h hn
      · rw [if_neg (not_over_of_under h)]; exact ⟨not_lt.mp hn, hax⟩
      · rw [if_pos h.1]
        refine ih (by linarith) h.2 fun hn' => ?_
        have e := hi_bound hx hn'
        exact ⟨e.le, by rw [← EReal.coe_le_coe_iff, e]; exact hx⟩

theorem measurable_hiGood (hp : Measurable p) (hK : MeasurableSet K) (n : ℕ) :
    MeasurableSet {q : ℝ × ℝ | hiGood p K D w n q.1 q.2} := by
  have h1 : MeasurableSet {q : ℝ × ℝ | D.hi < (q.2 : EReal)} :=
    measurableSet_lt measurable_const (measurable_coe_real_ereal.comp measurable_snd)
  have h2 : MeasurableSet {q : ℝ × ℝ | Under p K q.1 q.2} :=
    measurable_under hp hK measurable_fst measurable_snd
  induction n with
  | zero => exact h1.union h2
  | succ n ih =>
    have hs : Measurable fun q : ℝ × ℝ => (q.1, q.2 + w) :=
      measurable_fst.prodMk (measurable_snd.add_const w)
    exact h1.union (h2.union ((measurable_over hp measurable_fst measurable_snd).inter (hs ih)))

open Classical in
theorem measurable_hiEnd (hp : Measurable p) (n : ℕ) :
    Measurable fun q : ℝ × ℝ => hiEnd p D w n q.1 q.2 := by
  have h1 : MeasurableSet {q : ℝ × ℝ | D.hi < (q.2 : EReal)} :=
    measurableSet_lt measurable_const (measurable_coe_real_ereal.comp measurable_snd)
  induction n with
  | zero => exact Measurable.ite h1 measurable_const measurable_snd
  | succ n ih =>
    have hs : Measurable fun q : ℝ × ℝ => (q.1, q.2 + w) :=
      measurable_fst.prodMk (measurable_snd.add_const w)
    exact Measurable.ite h1 measurable_const
      (Measurable.ite (measurable_over hp measurable_fst measurable_snd) (ih.comp hs) measurable_snd)

end Cgpm.Sampler
