import Verif.Props.LogSpace
import Verif.Spec.HyperGrid

/-!
Finite Gibbs sampling, and the distribution of `log_pflip` as an average over its uniform draw.
-/
namespace Cgpm.Spec.Hyper
open Cgpm Cgpm.Hyper Cgpm.Props MeasureTheory

/-- Resampling one coordinate from its conditional leaves the joint distribution unchanged. -/
theorem gibbs_invariant {n : ℕ} {m : Fin n → ℕ} (w : ((j : Fin n) → Fin (m j)) → ℝ)
    (hw : ∀ c, 0 < w c) (j : Fin n) (f : ((j : Fin n) → Fin (m j)) → ℝ) :
    ∑ c, w c * ∑ i, (w (Function.update c j i) / ∑ k, w (Function.update c j k))
        * f (Function.update c j i)
      = ∑ c, w c * f c := by
  classical
  set Z : ((j : Fin n) → Fin (m j)) → ℝ := fun c => ∑ k, w (Function.update c j k) with hZ
  have hZu : ∀ c i, Z (Function.update c j i) = Z c := by
    intro c i; simp [hZ]
  have hZpos : ∀ c, 0 < Z c := by
    intro c
    refine Finset.sum_pos (fun _ _ => hw _) ⟨c j, Finset.mem_univ _⟩
  have swap : ∀ G : ((j : Fin n) → Fin (m j)) → ((j : Fin n) → Fin (m j)) → ℝ,
      ∑ c, ∑ i, G c (Function.update c j i) = ∑ c, ∑ i, G (Function.update c j i) c := by
    intro G
    rw [← Fintype.sum_prod_type', ← Fintype.sum_prod_type']
    let e : (((j : Fin n) → Fin (m j)) × Fin (m j)) ≃ (((j : Fin n) → Fin (m j)) × Fin (m j)) :=
      { toFun := fun p => (Function.update p.1 j p.2, p.1 j)
        invFun := fun p => (Function.update p.1 j p.2, p.1 j)
        left_inv := fun p => by simp
        right_inv := fun p => by simp }
    rw [← Equiv.sum_comp e]
    refine Finset.sum_congr rfl fun p _ => ?_
    simp [e]
  have h1 : ∀ c, w c * ∑ i, (w (Function.update c j i) / Z c) * f (Function.update c j i)
      = ∑ i, (fun a b => w a * w b / Z b * f b) c (Function.update c j i) := by
    intro c
    rw [Finset.mul_sum]
    refine Finset.sum_congr rfl fun i _ => ?_
    simp only [hZu]
    ring
  rw [Finset.sum_congr rfl fun c _ => h1 c]
  refine (swap fun a b => w a * w b / Z b * f b).trans ?_
  refine Finset.sum_congr rfl fun c _ => ?_
  rw [← Finset.sum_mul, ← Finset.sum_div, ← Finset.sum_mul]
  change Z c * w c / Z c * f c = w c * f c
  rw [mul_div_assoc, mul_div_cancel₀ _ (hZpos c).ne']

/-- Averaging over the uniform draw of `choiceIdx`. -/
theorem integral_choice {p : List ℝ} (h0 : ∀ x ∈ p, 0 ≤ x) (h1 : p.sum = 1) (G : ℕ → ℝ) :
    ∫ u in (0 : ℝ)..1, G (choiceIdx p u) = ∑ i : Fin p.length, p[i] * G i := by
  have hS : ∀ i : Fin p.length, MeasurableSet {u : ℝ | 0 ≤ u ∧ u < 1 ∧ choiceIdx p u = i} := by
    intro i
    have : {u : ℝ | 0 ≤ u ∧ u < 1 ∧ choiceIdx p u = i}
        = Set.Ico 0 1 ∩ Set.Ico (prefSum p i) (prefSum p (i + 1)) := by
      ext u
      simp only [Set.mem_ofPred_eq, Set.mem_inter_iff, Set.mem_Ico]
      constructor
      · rintro ⟨a, b, c⟩
        exact ⟨⟨a, b⟩, (choiceIdx_iff h0 a i.2).mp c⟩
      · rintro ⟨⟨a, b⟩, c⟩
        exact ⟨a, b, (choiceIdx_iff h0 a i.2).mpr c⟩
    rw [this]
    exact measurableSet_Ico.inter measurableSet_Ico
  rw [intervalIntegral.integral_of_le zero_le_one, integral_Ioc_eq_integral_Ioo,
    ← integral_Ico_eq_integral_Ioo]
  have hfun : Set.EqOn (fun u => G (choiceIdx p u))
      (fun u => ∑ i : Fin p.length,
        Set.indicator {u : ℝ | 0 ≤ u ∧ u < 1 ∧ choiceIdx p u = i} (fun _ => G i) u)
      (Set.Ico 0 1) := by
    intro u hu
    have hlt := choiceIdx_lt h0 h1 hu.1 hu.2
    simp only
    rw [Finset.sum_eq_single (⟨choiceIdx p u, hlt⟩ : Fin p.length)]
    · rw [Set.indicator_of_mem]
      exact ⟨hu.1, hu.2, rfl⟩
    · intro i _ hi
      rw [Set.indicator_of_notMem]
      rintro ⟨-, -, e⟩
      exact hi (Fin.ext e.symm)
    · simp
  rw [setIntegral_congr_fun measurableSet_Ico hfun, integral_finsetSum]
  · refine Finset.sum_congr rfl fun i _ => ?_
    rw [integral_indicator (hS i), setIntegral_const, Measure.real, Measure.restrict_apply (hS i)]
    have : {u : ℝ | 0 ≤ u ∧ u < 1 ∧ choiceIdx p u = i} ∩ Set.Ico 0 1
        = {u : ℝ | 0 ≤ u ∧ u < 1 ∧ choiceIdx p u = i} := by
      apply Set.inter_eq_left.mpr
      rintro u ⟨a, b, -⟩
      exact ⟨a, b⟩
    rw [this, volume_choice h0 h1 i.2, ENNReal.toReal_ofReal (h0 _ (List.getElem_mem _))]
    rfl
  · intro i _
    refine (integrable_indicator_iff (hS i)).mpr ?_
    refine integrableOn_const ?_
    rw [Measure.restrict_apply (hS i)]
    exact ne_top_of_le_ne_top (by simp) (measure_mono (Set.inter_subset_right))

/-- Averaging over the uniform draw of `log_pflip` with finite log weights. -/
theorem logPflip_fin (ws : List ℝ) (hne : ws ≠ []) :
    ∃ p : List ℝ, p.length = ws.length ∧ (∀ x ∈ p, 0 ≤ x) ∧ p.sum = 1 ∧
      (∀ i (h : i < p.length) (h' : i < ws.length),
        p[i] = Real.exp ws[i] / (ws.map Real.exp).sum) ∧
      ∀ u, 0 ≤ u → u < 1 → choiceIdx p u < ws.length ∧
        logPflip (ws.map Fl.fin) (List.range ws.length) u = .ok (choiceIdx p u) := by
  have htot : ∀ l : List ℝ, total (l.map Fl.fin) = ENNReal.ofReal ((l.map Real.exp).sum) := by
    intro l
    induction l with
    | nil => simp [total]
    | cons x t ih =>
      have hnn : 0 ≤ (t.map Real.exp).sum :=
        List.sum_nonneg (by simpa using fun a _ => (Real.exp_pos a).le)
      rw [List.map_cons, List.map_cons, List.sum_cons, ENNReal.ofReal_add (Real.exp_pos x).le hnn,
        ← ih]
      rfl
  have hpos : 0 < (ws.map Real.exp).sum := by
    cases ws with
    | nil => exact absurd rfl hne
    | cons x t =>
      have hnn : 0 ≤ (t.map Real.exp).sum :=
        List.sum_nonneg (by simpa using fun a _ => (Real.exp_pos a).le)
      rw [List.map_cons, List.sum_cons]
      have := Real.exp_pos x
      linarith
  obtain ⟨p, hl, h0, hs, hm, hd⟩ := logPflip_eq (ws.map Fl.fin) (List.range ws.length)
    (by simp) (by rw [htot]; simpa using hpos) (by simp)
  refine ⟨p, by simpa using hl, h0, hs, ?_, ?_⟩
  · intro i h h'
    have := hm i h (by simpa using h')
    rw [htot, List.getElem_map, mass, ← ENNReal.ofReal_mul (h0 _ (List.getElem_mem _))] at this
    rw [eq_div_iff hpos.ne']
    exact (ENNReal.ofReal_eq_ofReal_iff
      (mul_nonneg (h0 _ (List.getElem_mem _)) hpos.le) (Real.exp_pos _).le).mp this
  · intro u hu hu1
    obtain ⟨h, e⟩ := hd u hu hu1
    refine ⟨by simpa using h, ?_⟩
    rw [e, List.getElem_range]

end Cgpm.Spec.Hyper
