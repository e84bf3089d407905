import Verif.Model.Transition
import Verif.Lemmas.StateFactor

/-! The transition of the concentration of a partition. -/
namespace Cgpm
open Cgpm.Props Cgpm.Spec Cgpm.Spec.Hyper

theorem Crp.transitionAlpha_ok {n : ℕ} (hn : 0 < n) (crp : Crp) (ha : 0 < crp.alpha) {u : ℝ}
    (hu : 0 ≤ u ∧ u < 1) : ∃ a ∈ concentrations n,
      crp.transitionAlpha n u = .ok { crp with alpha := a } := by
  obtain ⟨hg, -, -⟩ := concentrations_ok hn
  obtain ⟨v, hv, e⟩ := C57_crp_transition (X := List.replicate n (1 : ℝ)) (by simp; omega)
    (n := 30) (by norm_num) hg ha [(0, crp)] (Crp.init crp.alpha) hu
  refine ⟨v, hv, ?_⟩
  unfold Crp.transitionAlpha
  rw [hg]
  simp only [e, Out.map_ok]
  rfl

open Classical in
/-- The concentration is drawn with probability proportional to its prior times the probability of
the partition. -/
theorem Crp.transitionAlpha_average {n : ℕ} (hn : 0 < n) (crp : Crp) (ha : 0 < crp.alpha)
    (f : ℝ → ℝ) :
    ∫ u in (0 : ℝ)..1, f (crp.transitionAlpha n u).state.alpha
      = ∑ a ∈ (concentrations n).toFinset,
        (concentrationPrior n a * Real.exp (Crp.logpdfScore { crp with alpha := a })
          / ∑ b ∈ (concentrations n).toFinset,
            concentrationPrior n b * Real.exp (Crp.logpdfScore { crp with alpha := b })) * f a := by
  obtain ⟨hg, hlen, hpos⟩ := concentrations_ok hn
  have hX : List.replicate n (1 : ℝ) ≠ [] := by simp; omega
  have hc := C57_crp_conditional (X := List.replicate n (1 : ℝ)) hX (n := 30) (by norm_num) hg ha
    [(0, crp)] (Crp.init crp.alpha) (fun h => f ((h.get? "alpha").getD 0))
  have hsc : ∀ a, crpScore [("alpha", a)] [(0, crp)] = Crp.logpdfScore { crp with alpha := a } := by
    intro a; simp [crpScore, Dict.get?, Crp.logpdfScore]
  have hl : ∫ u in (0 : ℝ)..1, f (crp.transitionAlpha n u).state.alpha
      = ∫ u in (0 : ℝ)..1, f (((Hyper.transitionHypers Hyper.crpApi [("alpha", u)]
        ⟨[("alpha", crp.alpha)], [("alpha", concentrations n)], [(0, crp)],
          Crp.init crp.alpha⟩).state.hypers.get? "alpha").getD 0) := by
    have := average_congr (m := 1) (F := fun us => f (crp.transitionAlpha n (us.headD 0)).state.alpha)
      (F' := fun us => f (((Hyper.transitionHypers Hyper.crpApi [("alpha", us.headD 0)]
        ⟨[("alpha", crp.alpha)], [("alpha", concentrations n)], [(0, crp)],
          Crp.init crp.alpha⟩).state.hypers.get? "alpha").getD 0)) (by
        intro us hl hu
        obtain ⟨u, rfl⟩ : ∃ u, us = [u] := List.length_eq_one_iff.mp hl
        obtain ⟨v, hv, e⟩ := C57_crp_transition hX (n := 30) (by norm_num) hg ha [(0, crp)]
          (Crp.init crp.alpha) (hu u (by simp))
        simp only [List.headD_cons, e, Crp.transitionAlpha, hg, Out.map_ok, Out.state_ok]
        simp [Dict.get?])
    simpa only [average, List.headD_cons] using this
  rw [hl, hc]
  simp only [hsc]
  have hL : (0 : ℝ) < 30 := by norm_num
  have key : ∀ G : ℝ → ℝ, ∑ i : Fin (concentrations n).length, G (concentrations n)[i]
      = 30 * ∑ a ∈ (concentrations n).toFinset, concentrationPrior n a * G a := by
    intro G
    have h1 : ∑ i : Fin (concentrations n).length, G (concentrations n)[i]
        = ((concentrations n).map G).sum := by
      rw [← List.sum_ofFn]
      congr 1
      refine List.ext_getElem (by simp) fun i h1 h2 => by simp
    rw [h1, Finset.sum_list_map_count, Finset.mul_sum]
    refine Finset.sum_congr rfl fun a _ => ?_
    unfold concentrationPrior
    rw [hlen, nsmul_eq_mul]
    push_cast
    ring
  rw [key (fun a => Real.exp (Crp.logpdfScore { crp with alpha := a })),
    key (fun a => Real.exp (Crp.logpdfScore { crp with alpha := a }) /
      (30 * ∑ b ∈ (concentrations n).toFinset,
        concentrationPrior n b * Real.exp (Crp.logpdfScore { crp with alpha := b })) *
      f ((Dict.get? [("alpha", a)] "alpha").getD 0)), Finset.mul_sum]
  refine Finset.sum_congr rfl fun a _ => ?_
  simp only [Dict.get?, if_true, Option.getD_some]
  rw [mul_comm (30 : ℝ) (∑ b ∈ _, _), ← div_div]
  ring

end Cgpm
