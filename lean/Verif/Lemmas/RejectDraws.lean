import Verif.Spec.RejectDraws
import Verif.Lemmas.Batch
import Verif.Lemmas.MhDraws

/-! The law of the samples of `rejection_sample`. -/
namespace Cgpm.Sampler
open Cgpm MeasureTheory Props Cgpm.Batch
open scoped ENNReal

/-- Mean of `F` over the next `k` samples within `n` trials; `a` is the chance of acceptance. -/
noncomputable def rejE (a : ℝ → ℝ≥0∞) (ν : Measure ℝ) : ℕ → ℕ → (List ℝ → ℝ≥0∞) → ℝ≥0∞
  | _, 0, F => F []
  | 0, _ + 1, _ => 0
  | n + 1, k + 1, F =>
    ∫⁻ x, (a x * rejE a ν n k (fun l => F (x :: l)) + (1 - a x) * rejE a ν n (k + 1) F) ∂ν

variable {a : ℝ → ℝ≥0∞} {ν : Measure ℝ}

theorem rejE_zero (n : ℕ) (F : List ℝ → ℝ≥0∞) : rejE a ν n 0 F = F [] := by
  cases n <;> rfl

theorem measurable_rejE [SFinite ν] (ha : Measurable a) (n : ℕ) :
    ∀ (k : ℕ) {β : Type} [MeasurableSpace β] {G : β → List ℝ → ℝ≥0∞}, MeasP k G →
      Measurable fun b => rejE a ν n k (G b) := by
  have hz : ∀ {β : Type} [MeasurableSpace β] {G : β → List ℝ → ℝ≥0∞}, MeasP 0 G →
      Measurable fun b => G b [] := by
    intro β _ G h
    have := Measurable.comp h (measurable_id.prodMk measurable_const)
      (f := fun b : β => (b, (Fin.elim0 : Fin 0 → ℝ)))
    simpa [Function.comp_def] using this
  induction n with
  | zero =>
    intro k β _ G h
    cases k with
    | zero => exact hz h
    | succ k => exact measurable_const
  | succ n ih =>
    intro k β _ G h
    cases k with
    | zero => exact hz h
    | succ k =>
      have h1 : Measurable fun p : β × ℝ => rejE a ν n k (fun l => G p.1 (p.2 :: l)) := ih k h.cons
      have h2 : Measurable fun p : β × ℝ => rejE a ν n (k + 1) (G p.1) :=
        (ih (k + 1) h).comp measurable_fst
      have h3 : Measurable fun p : β × ℝ => a p.2 * rejE a ν n k (fun l => G p.1 (p.2 :: l)) +
          (1 - a p.2) * rejE a ν n (k + 1) (G p.1) :=
        ((ha.comp measurable_snd).mul h1).add ((measurable_const.sub (ha.comp measurable_snd)).mul h2)
      exact h3.lintegral_prod_right'

theorem rejE_mono (n k : ℕ) (F : List ℝ → ℝ≥0∞) : rejE a ν n k F ≤ rejE a ν (n + 1) k F := by
  induction n generalizing k F with
  | zero =>
    cases k with
    | zero => exact le_rfl
    | succ k => exact zero_le
  | succ n ih =>
    cases k with
    | zero => exact le_rfl
    | succ k =>
      unfold rejE
      exact lintegral_mono fun x => add_le_add (mul_le_mul_right (ih _ _) _) (mul_le_mul_right (ih _ _) _)

/-- If accepted proposals have the law `ω`, then the samples are independent draws from it. -/
theorem rejE_iSup [IsProbabilityMeasure ν] {ω : Measure ℝ} [IsProbabilityMeasure ω] {α : ℝ≥0∞}
    (ha : Measurable a) (ha1 : ∀ x, a x ≤ 1) (hα : α ≠ 0)
    (hacc : ∀ h : ℝ → ℝ≥0∞, Measurable h → ∫⁻ x, a x * h x ∂ν = α * ∫⁻ x, h x ∂ω) (k : ℕ)
    {F : List ℝ → ℝ≥0∞} (hF : MeasL k F) :
    ⨆ n, rejE a ν n k F = seqE (List.replicate k ω) F := by
  have hα' : ∫⁻ x, a x ∂ν = α := by
    have := hacc (fun _ => 1) measurable_const
    simpa using this
  have hα1 : α ≤ 1 := by
    rw [← hα']
    calc ∫⁻ x, a x ∂ν ≤ ∫⁻ _, 1 ∂ν := lintegral_mono ha1
      _ = 1 := by simp
  have hrej : ∫⁻ x, (1 - a x) ∂ν = 1 - α := by
    rw [lintegral_sub ha (by rw [hα']; exact ne_top_of_le_ne_top ENNReal.one_ne_top hα1)
      (.of_forall ha1), hα']
    simp
  induction k generalizing F with
  | zero => simp only [rejE_zero, ciSup_const, List.replicate_zero, seqE]
  | succ k ih =>
    set J := seqE (List.replicate (k + 1) ω) F with hJ
    have hJ' : J = ∫⁻ x, seqE (List.replicate k ω) (fun l => F (x :: l)) ∂ω := rfl
    set B : ℕ → ℝ≥0∞ := fun n => ∫⁻ x, a x * rejE a ν n k (fun l => F (x :: l)) ∂ν with hB
    have hm : ∀ n, Measurable fun x => a x * rejE a ν n k (fun l => F (x :: l)) := fun n =>
      ha.mul (measurable_rejE ha n k hF.cons)
    have hstep : ∀ n, rejE a ν (n + 1) (k + 1) F = B n + (1 - α) * rejE a ν n (k + 1) F := by
      intro n
      conv_lhs => unfold rejE
      have hs : Measurable fun x => 1 - a x := measurable_const.sub ha
      rw [lintegral_add_left (hm n), lintegral_mul_const _ hs, hrej]
    have hBm : Monotone B := monotone_nat_of_le_succ fun n =>
      lintegral_mono fun x => mul_le_mul_right (rejE_mono n k _) _
    have hRm : Monotone fun n => rejE a ν n (k + 1) F := monotone_nat_of_le_succ fun n => rejE_mono n _ F
    have hBs : ⨆ n, B n = α * J := by
      rw [hJ', ← hacc _ (measurable_seqE _ (fun m hm => by
        rw [List.eq_of_mem_replicate hm]; infer_instance) (by rw [List.length_replicate]; exact hF.cons))]
      rw [hB, ← lintegral_iSup hm fun i j h x => mul_le_mul_right
        (monotone_nat_of_le_succ (fun n => rejE_mono n k fun l => F (x :: l)) h) _]
      refine lintegral_congr fun x => ?_
      rw [← ENNReal.mul_iSup, ih (hF.cons.at x)]
    have hup : ∀ n, rejE a ν n (k + 1) F ≤ J := by
      intro n
      induction n with
      | zero => exact zero_le
      | succ n ihn =>
        rw [hstep]
        calc B n + (1 - α) * rejE a ν n (k + 1) F ≤ α * J + (1 - α) * J :=
              add_le_add ((le_iSup B n).trans hBs.le) (mul_le_mul_right ihn _)
          _ = J := by rw [← add_mul, add_tsub_cancel_of_le hα1, one_mul]
    refine le_antisymm (iSup_le hup) ?_
    set S := ⨆ n, rejE a ν n (k + 1) F with hS
    have hSe : S = α * J + (1 - α) * S := by
      have e1 : S = ⨆ n, rejE a ν (n + 1) (k + 1) F := by
        rw [hS]; exact (hRm.iSup_nat_add 1).symm
      conv_lhs => rw [e1]
      simp only [hstep]
      rw [← hBs, hS, ENNReal.mul_iSup]
      exact (ENNReal.iSup_add_iSup_of_monotone hBm fun i j h => mul_le_mul_right (hRm h) _).symm
    by_cases hSt : S = ⊤
    · rw [hSt]; exact le_top
    · have h1 : α * S + (1 - α) * S = α * J + (1 - α) * S := by
        rw [← hSe, ← add_mul, add_tsub_cancel_of_le hα1, one_mul]
      have hf : (1 - α) * S ≠ ⊤ := ENNReal.mul_ne_top
        (ne_top_of_le_ne_top ENNReal.one_ne_top tsub_le_self) hSt
      have h2 := (ENNReal.add_left_inj hf).mp h1
      exact ((ENNReal.mul_right_inj hα (ne_top_of_le_ne_top ENNReal.one_ne_top hα1)).mp h2).ge

/-- The program is that process. -/
theorem rejLoop_E {target proposal : ℝ → ℝ} {draw : Draws ℝ} [IsProbabilityMeasure ν]
    (hlaw : LawOf ν id draw) (ht : Measurable target) (hp : Measurable proposal)
    (h0 : ∀ x, 0 ≤ target x) (hle : ∀ x, target x ≤ proposal x) (F : List ℝ → ℝ≥0∞) (n : ℕ) {k : ℕ}
    {s : List ℝ} {N : ℕ} (hN : N = s.length + k) (hF : MeasL k fun l => F (s ++ l)) :
    (rejLoopDraws target proposal draw N n s).E (atSamples F)
      = rejE (fun x => ENNReal.ofReal (target x / proposal x)) ν n k fun l => F (s ++ l) := by
  have ha : Measurable fun x => ENNReal.ofReal (target x / proposal x) := (ht.div hp).ennreal_ofReal
  have hdone : ∀ {n : ℕ} {s : List ℝ}, N ≤ s.length →
      (rejLoopDraws target proposal draw N n s).E (atSamples F) = F s := by
    intro n s h
    unfold rejLoopDraws
    rw [if_pos h]
    rfl
  induction n generalizing k s with
  | zero =>
    cases k with
    | zero => rw [hdone (by omega), rejE_zero, List.append_nil]
    | succ k =>
      unfold rejLoopDraws
      rw [if_neg (by omega)]
      rfl
  | succ n ih =>
    cases k with
    | zero => rw [hdone (by omega), rejE_zero, List.append_nil]
    | succ k =>
      have hstay := ih hN hF
      have hnext : ∀ x, (rejLoopDraws target proposal draw N n (s ++ [x])).E (atSamples F)
          = rejE (fun x => ENNReal.ofReal (target x / proposal x)) ν n k fun l => F (s ++ x :: l) := by
        intro x
        have := ih (s := s ++ [x]) (k := k) (by simp only [List.length_append, List.length_singleton]; omega)
          (by simpa [List.append_assoc] using hF.cons.at x)
        rw [this]
        simp only [List.append_assoc, List.singleton_append]
      have hmeas : Measurable fun x => ENNReal.ofReal (target x / proposal x) *
          rejE (fun x => ENNReal.ofReal (target x / proposal x)) ν n k (fun l => F (s ++ x :: l)) +
          (1 - ENNReal.ofReal (target x / proposal x)) *
          rejE (fun x => ENNReal.ofReal (target x / proposal x)) ν n (k + 1) fun l => F (s ++ l) :=
        (ha.mul (measurable_rejE ha n k hF.cons)).add ((measurable_const.sub ha).mul_const _)
      have hl := hlaw _ hmeas
      conv_lhs => unfold rejLoopDraws
      rw [if_neg (by omega)]
      dsimp only
      rw [Draws.E_bind]
      unfold rejE
      rw [← hl]
      refine congrArg (fun G => draw.E G) (funext fun x => ?_)
      simp only [id]
      rw [← hnext x, ← hstay]
      simp only [Draws.E]
      rw [npUniform_unit]
      have hx1 : target x / proposal x ≤ 1 := div_le_one_of_le₀ (hle x) ((h0 x).trans (hle x))
      have hx0 : 0 ≤ target x / proposal x := div_nonneg (h0 x) ((h0 x).trans (hle x))
      have hc := uniform_choice (target x / proposal x) hx0
        ((rejLoopDraws target proposal draw N n (s ++ [x])).E (atSamples F))
        ((rejLoopDraws target proposal draw N n s).E (atSamples F))
      rw [min_eq_right hx1] at hc
      rw [← hc]
      refine setLIntegral_congr_fun measurableSet_Ioo fun u hu => ?_
      simp only [not_lt.mpr (hle x), if_false]
      have hiff : u * proposal x < target x ↔ u < target x / proposal x := by
        rcases (((h0 x).trans (hle x)).eq_or_lt) with hq | hq
        · have ht0 : target x = 0 := le_antisymm (by rw [hq]; exact hle x) (h0 x)
          rw [← hq, ht0]
          simp only [mul_zero, div_zero, lt_irrefl, false_iff, not_lt]
          exact hu.1.le
        · rw [lt_div_iff₀ hq]
      by_cases h : u * proposal x < target x
      · rw [if_pos h, if_pos (hiff.mp h)]
      · rw [if_neg h, if_neg fun h' => h (hiff.mpr h')]

end Cgpm.Sampler
