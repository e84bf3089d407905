import Verif.Lemmas.LogSpace
import Mathlib.MeasureTheory.Measure.Lebesgue.Basic

namespace Cgpm
open Classical Props MeasureTheory

/-- sum of the first `i` entries -/
def prefSum (p : List ℝ) (i : ℕ) : ℝ := (p.take i).sum

theorem prefSum_zero (p : List ℝ) : prefSum p 0 = 0 := by simp [prefSum]

theorem prefSum_cons_succ (x : ℝ) (p : List ℝ) (i : ℕ) :
    prefSum (x :: p) (i + 1) = x + prefSum p i := by simp [prefSum]

theorem prefSum_mono {p : List ℝ} (h : ∀ x ∈ p, 0 ≤ x) {i j : ℕ} (hij : i ≤ j) :
    prefSum p i ≤ prefSum p j := by
  induction p generalizing i j with
  | nil => simp [prefSum]
  | cons x t ih =>
    cases j with
    | zero => simp_all
    | succ j =>
      cases i with
      | zero =>
        rw [prefSum_zero]
        exact List.sum_nonneg fun y hy => h y (List.mem_of_mem_take hy)
      | succ i =>
        rw [prefSum_cons_succ, prefSum_cons_succ]
        have := ih (fun y hy => h y (by simp [hy])) (Nat.le_of_succ_le_succ hij)
        linarith

theorem choice_iff_aux {p : List ℝ} (h : ∀ x ∈ p, 0 ≤ x) (s u : ℝ) (hs : s ≤ u) (i : ℕ)
    (hi : i < p.length) :
    (cumsum s p).countP (fun c => decide (c ≤ u)) = i ↔
      s + prefSum p i ≤ u ∧ u < s + prefSum p (i + 1) := by
  induction p generalizing s i with
  | nil => simp at hi
  | cons x t ih =>
    have hx : 0 ≤ x := h x (by simp)
    have ht : ∀ y ∈ t, 0 ≤ y := fun y hy => h y (by simp [hy])
    simp only [cumsum, List.countP_cons]
    by_cases hc : s + x ≤ u
    · simp only [hc, decide_true, if_true]
      cases i with
      | zero =>
        simp only [prefSum_zero, add_zero, prefSum_cons_succ]
        constructor
        · intro h; omega
        · intro h; linarith [h.2]
      | succ i =>
        have hi' : i < t.length := by simpa using hi
        have := ih ht (s + x) hc i hi'
        rw [Nat.add_right_cancel_iff, this, prefSum_cons_succ, prefSum_cons_succ, add_assoc,
          add_assoc]
    · have h0 : (cumsum (s + x) t).countP (fun c => decide (c ≤ u)) = 0 := by
        rw [List.countP_eq_zero]
        have : ∀ (t : List ℝ) (s : ℝ), (∀ y ∈ t, 0 ≤ y) → ∀ c ∈ cumsum s t, s ≤ c := by
          intro t
          induction t with
          | nil => intro s _ c hc; simp [cumsum] at hc
          | cons y t ih2 =>
            intro s hy c hc
            have hy0 : 0 ≤ y := hy y (by simp)
            rcases List.mem_cons.mp hc with rfl | hc
            · linarith
            · have := ih2 (s + y) (fun z hz => hy z (by simp [hz])) c hc
              linarith
        intro c hcm
        have := this t (s + x) ht c hcm
        simp; linarith
      simp only [hc, decide_false, Bool.false_eq_true, if_false, h0, add_zero]
      cases i with
      | zero => simp only [prefSum_zero, add_zero, prefSum_cons_succ, true_iff]; exact ⟨hs, by linarith⟩
      | succ i =>
        constructor
        · intro h; omega
        · rintro ⟨h1, -⟩
          rw [prefSum_cons_succ] at h1
          have : 0 ≤ prefSum t i := by
            have := prefSum_mono ht (Nat.zero_le i); rwa [prefSum_zero] at this
          linarith

/-- Index `i` is drawn exactly for `u` in the `i`-th interval of the cumulative sums. -/
theorem choiceIdx_iff {p : List ℝ} (h : ∀ x ∈ p, 0 ≤ x) {u : ℝ} (hu : 0 ≤ u) {i : ℕ}
    (hi : i < p.length) : choiceIdx p u = i ↔ prefSum p i ≤ u ∧ u < prefSum p (i + 1) := by
  unfold choiceIdx
  rw [choice_iff_aux h 0 u hu i hi, zero_add, zero_add]

theorem prefSum_succ {p : List ℝ} {i : ℕ} (hi : i < p.length) :
    prefSum p (i + 1) = prefSum p i + p[i] := by
  unfold prefSum
  exact List.sum_take_succ p i hi

theorem choiceIdx_lt {p : List ℝ} (h : ∀ x ∈ p, 0 ≤ x) (hs : p.sum = 1) {u : ℝ} (hu : 0 ≤ u)
    (hu1 : u < 1) : choiceIdx p u < p.length := by
  -- the least prefix sum above u
  have hex : ∃ j, u < prefSum p j := ⟨p.length, by simpa [prefSum, hs] using hu1⟩
  have hj := Nat.find_spec hex
  have hmin : ∀ i < Nat.find hex, ¬ u < prefSum p i := fun i hi => Nat.find_min hex hi
  set j := Nat.find hex
  have hj0 : j ≠ 0 := by
    intro h0; rw [h0, prefSum_zero] at hj; linarith
  obtain ⟨i, hi⟩ := Nat.exists_eq_succ_of_ne_zero hj0
  have hil : i < p.length := by
    by_contra hc
    have h1 := hmin i (by omega)
    have h2 : prefSum p i = 1 := by
      unfold prefSum; rw [List.take_of_length_le (by omega), hs]
    rw [h2] at h1; exact h1 hu1
  have : choiceIdx p u = i :=
    (choiceIdx_iff h hu hil).mpr ⟨not_lt.mp (hmin i (by omega)), by rw [← Nat.succ_eq_add_one, ← hi]; exact hj⟩
  omega

/-- The measure of the draws that give index `i`. -/
theorem volume_choice {p : List ℝ} (h : ∀ x ∈ p, 0 ≤ x) (hs : p.sum = 1) {i : ℕ}
    (hi : i < p.length) :
    volume {u : ℝ | 0 ≤ u ∧ u < 1 ∧ choiceIdx p u = i} = ENNReal.ofReal p[i] := by
  have : {u : ℝ | 0 ≤ u ∧ u < 1 ∧ choiceIdx p u = i}
      = Set.Ico (prefSum p i) (prefSum p (i + 1)) := by
    ext u
    have h0 : 0 ≤ prefSum p i := by
      have := prefSum_mono h (Nat.zero_le i); rwa [prefSum_zero] at this
    have h1 : prefSum p (i + 1) ≤ 1 := by
      have := prefSum_mono h (show i + 1 ≤ p.length from hi)
      rwa [show prefSum p p.length = 1 by simp [prefSum, hs]] at this
    simp only [Set.mem_ofPred_eq, Set.mem_Ico]
    constructor
    · rintro ⟨hu, -, hc⟩; exact (choiceIdx_iff h hu hi).mp hc
    · rintro ⟨ha, hb⟩
      exact ⟨by linarith, by linarith, (choiceIdx_iff h (by linarith) hi).mpr ⟨ha, hb⟩⟩
  rw [this, Real.volume_Ico, prefSum_succ hi]
  congr 1; ring

end Cgpm
