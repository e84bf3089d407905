import Verif.Lemmas.DrawView
import Verif.Lemmas.StateTransition

/-! Averages over the draw of `log_pflip`, with weights that may be minus infinity. -/
namespace Cgpm
open Cgpm.Props

theorem mass_ofLogP (x : LogP) : mass (Fl.ofLogP x) = ENNReal.ofReal (pr x) := by
  induction x using WithBot.recBotCoe with
  | bot => rw [mass_ofLogP_bot]; simp [pr]
  | coe x => rfl

theorem pr_nonneg' (x : LogP) : 0 ≤ pr x := by
  induction x using WithBot.recBotCoe with
  | bot => simp [pr]
  | coe x => exact (Real.exp_pos x).le

theorem total_ofLogP (w : List LogP) :
    total (w.map Fl.ofLogP) = ENNReal.ofReal (w.map pr).sum := by
  induction w with
  | nil => simp [total]
  | cons x t ih =>
    have hnn : 0 ≤ (t.map pr).sum := List.sum_nonneg (by simpa using fun a _ => pr_nonneg' a)
    rw [List.map_cons, List.map_cons, List.sum_cons, ENNReal.ofReal_add (pr_nonneg' x) hnn,
      ← ih, ← mass_ofLogP]
    simp [total]

/-- The average of a function of the drawn position. -/
theorem flip_average (w : List LogP) (hpos : 0 < (w.map pr).sum) (F : Except Exn ℕ → ℝ) :
    ∫ u in (0 : ℝ)..1, F (logPflip (w.map Fl.ofLogP) (List.range w.length) u)
      = (∑ i : Fin w.length, pr w[i] * F (.ok i)) / (w.map pr).sum := by
  obtain ⟨p, hpl, hp0, hps, hpm, hd⟩ := logPflip_eq (w.map Fl.ofLogP) (List.range w.length)
    (by
      intro a ha
      obtain ⟨x, -, rfl⟩ := List.mem_map.mp ha
      exact ofLogP_ne x)
    (by rw [total_ofLogP, Ne, ENNReal.ofReal_eq_zero, not_le]; exact hpos) (by simp)
  have hlen : p.length = w.length := by simpa using hpl
  have hpv : ∀ i (h : i < w.length), p[i]'(by omega) = pr (w[i]) / (w.map pr).sum := by
    intro i h
    have h1 := hpm i (by omega) (by simpa using h)
    have hp0' : 0 ≤ p[i]'(by omega) := hp0 _ (List.getElem_mem _)
    rw [total_ofLogP, List.getElem_map, mass_ofLogP, ← ENNReal.ofReal_mul hp0',
      ENNReal.ofReal_eq_ofReal_iff (mul_nonneg hp0' hpos.le) (pr_nonneg' _)] at h1
    rw [← h1, mul_div_cancel_right₀ _ hpos.ne']
  have hF : ∫ u in (0 : ℝ)..1, F (logPflip (w.map Fl.ofLogP) (List.range w.length) u)
      = ∫ u in (0 : ℝ)..1, F (.ok (choiceIdx p u)) := by
    refine unit_congr fun u hu hu1 => ?_
    obtain ⟨h, e⟩ := hd u hu hu1
    rw [e]; simp
  rw [hF, Spec.Hyper.integral_choice hp0 hps (fun k => F (.ok k)), Finset.sum_div]
  rw [← (finCongr hlen).sum_comp]
  refine Finset.sum_congr rfl fun i _ => ?_
  have := hpv i (by omega)
  simp only [finCongr_apply, Fin.getElem_fin, Fin.val_cast] at this ⊢
  rw [this]; ring

end Cgpm
