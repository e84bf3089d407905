import Verif.Lemmas.Student
import Verif.Props.PrimNorm
import Mathlib.MeasureTheory.Function.JacobianOneDim

/-!
Property C08, continuous components: the predictive density of a normal and of a lognormal
component integrates to one in every reachable state.
-/
namespace Cgpm.Props
open Cgpm Cgpm.Comp MeasureTheory

/-- A density of the shape of the predictive of a normal component integrates to 1. -/
theorem normal_student {r s nu : ℝ} (m : ℝ) (hr : 0 < r) (hs : 0 < s) (hnu : 0 < nu) :
    ∫ y : ℝ, Real.exp (-(1 / 2) * LOG2PI
      + normalLogZ (r + 1) (s + r / (r + 1) * (y - m) ^ 2) (nu + 1) - normalLogZ r s nu) = 1 := by
  have ha : 0 < nu / 2 := by positivity
  have hρ : 0 < r / (r + 1) := by positivity
  have hr1 : 0 < r + 1 := by positivity
  have hG := Real.Gamma_pos_of_pos ha
  have hG1 : 0 < Real.Gamma (nu / 2 + 1 / 2) := Real.Gamma_pos_of_pos (by positivity)
  have key : ∀ y : ℝ, Real.exp (-(1 / 2) * LOG2PI
      + normalLogZ (r + 1) (s + r / (r + 1) * (y - m) ^ 2) (nu + 1) - normalLogZ r s nu) =
      (√(r / (r + 1) / Real.pi) * s ^ (nu / 2) * (Real.Gamma (nu / 2 + 1 / 2) / Real.Gamma (nu / 2)))
        * (s + r / (r + 1) * (y - m) ^ 2) ^ (-(nu / 2 + 1 / 2)) := by
    intro y
    have hc : 0 < s + r / (r + 1) * (y - m) ^ 2 := by positivity
    rw [Real.sqrt_eq_rpow, Real.rpow_def_of_pos (by positivity : 0 < r / (r + 1) / Real.pi),
      Real.rpow_def_of_pos hs, Real.rpow_def_of_pos hc,
      ← Real.exp_log hG1, ← Real.exp_log hG, ← Real.exp_sub, ← Real.exp_add, ← Real.exp_add,
      ← Real.exp_add]
    congr 1
    unfold normalLogZ LOG2PI gammaln
    rw [Real.log_div (by positivity) (by positivity), Real.log_div (by positivity) (by positivity),
      show (nu + 1) / 2 = nu / 2 + 1 / 2 by ring]
    ring
  simp_rw [key]
  rw [integral_const_mul, integral_student m ha hs hρ, Real.rpow_neg hs.le]
  have e : √(r / (r + 1) / Real.pi) * √(Real.pi / (r / (r + 1))) = 1 := by
    rw [← Real.sqrt_mul (by positivity)]
    rw [show r / (r + 1) / Real.pi * (Real.pi / (r / (r + 1))) = 1 by field_simp, Real.sqrt_one]
  have hp : 0 < s ^ (nu / 2) := Real.rpow_pos_of_pos hs _
  calc _ = (√(r / (r + 1) / Real.pi) * √(Real.pi / (r / (r + 1)))) *
        (s ^ (nu / 2) * (s ^ (nu / 2))⁻¹) *
        (Real.Gamma (nu / 2 + 1 / 2) / Real.Gamma (nu / 2) *
          (Real.Gamma (nu / 2) / Real.Gamma (nu / 2 + 1 / 2))) := by ring
    _ = 1 := by
      rw [e, mul_inv_cancel₀ hp.ne']
      field_simp

/-- The posterior scale after one more value. -/
theorem normal_scale_step {N : ℕ} {sx sxx m r s : ℝ} (hr : 0 < r) (y : ℝ) :
    s + (sxx + y * y) + r * m * m - (r + ((N : ℝ) + 1)) * ((r * m + (sx + y)) / (r + ((N : ℝ) + 1)))
      * ((r * m + (sx + y)) / (r + ((N : ℝ) + 1))) =
    (s + sxx + r * m * m - (r + N) * ((r * m + sx) / (r + N)) * ((r * m + sx) / (r + N)))
      + (r + N) / ((r + N) + 1) * (y - (r * m + sx) / (r + N)) ^ 2 := by
  have h1 : 0 < r + (N : ℝ) := by positivity
  have h2 : 0 < r + ((N : ℝ) + 1) := by positivity
  have h3 : 0 < r + (N : ℝ) + 1 := by positivity
  rw [show r + ((N : ℝ) + 1) = r + N + 1 by ring]
  field_simp
  ring

/-- The predictive of a normal component that has seen the values `l`. -/
theorem normal_norm_list (h : NormalH) (hk : normal.hypOk h) (l : List ℝ) :
    ∫ y : ℝ, Real.exp (normalPredictive y (l.length : ℤ) l.sum (l.map fun x => x * x).sum
      h.m h.r h.s h.nu) = 1 := by
  obtain ⟨hr, hs, hnu⟩ := hk
  have hr' : 0 < h.r := hr
  have hs' : 0 < h.s := hs
  have hnu' : 0 < h.nu := hnu
  have hsc := posterior_scale l h.m h.r hr
  have hsq : (l.map (· ^ 2)) = l.map fun x => x * x := by
    refine List.map_congr_left fun x _ => by ring
  rw [hsq] at hsc
  have hS : 0 < h.s + (l.map fun x => x * x).sum + h.r * h.m * h.m
      - (h.r + (l.length : ℝ)) * ((h.r * h.m + l.sum) / (h.r + (l.length : ℝ)))
        * ((h.r * h.m + l.sum) / (h.r + (l.length : ℝ))) := by linarith
  have hR : 0 < h.r + (l.length : ℝ) := by positivity
  have hNu : 0 < h.nu + (l.length : ℝ) := by positivity
  rw [← normal_student ((h.r * h.m + l.sum) / (h.r + (l.length : ℝ))) hR hS hNu]
  refine integral_congr_ae (Filter.Eventually.of_forall fun y => ?_)
  have hstep := normal_scale_step (N := l.length) (sx := l.sum)
    (sxx := (l.map fun x => x * x).sum) (m := h.m) (s := h.s) hr y
  have hS2 : 0 < h.s + (l.map fun x => x * x).sum + h.r * h.m * h.m
      - (h.r + (l.length : ℝ)) * ((h.r * h.m + l.sum) / (h.r + (l.length : ℝ)))
        * ((h.r * h.m + l.sum) / (h.r + (l.length : ℝ)))
      + (h.r + (l.length : ℝ)) / (h.r + (l.length : ℝ) + 1)
        * (y - (h.r * h.m + l.sum) / (h.r + (l.length : ℝ))) ^ 2 := by positivity
  have hcast : ((( l.length : ℤ) + 1 : ℤ) : ℝ) = (l.length : ℝ) + 1 := by push_cast; ring
  simp only [normalPredictive, normalPosterior, hcast, Int.cast_natCast]
  rw [hstep, if_neg hS.ne', if_neg hS2.ne', add_assoc h.r, add_assoc h.nu]

/-- **C08, continuous.** normal: after any history, the predictive density integrates to 1. -/
theorem C08_normal (h : NormalH) (hk : normal.hypOk h) (ops : List (Op ℝ NormalH)) :
    let c := (init normal h).run normal ops
    ∫ x : ℝ, pr (normal.logpdf c.hyp c.stat x) = 1 := by
  intro c
  have i := prim_inv_run .normal h ops
  have e : c.stat = normal.statOf c.data.vals := i.hstat
  rw [e, normal_stat]
  have hk' : normal.hypOk c.hyp := hypOk_run hk ops
  exact normal_norm_list c.hyp hk' c.data.vals

/-- **C08, continuous.** lognormal: after any history, the predictive density integrates to 1 over
the positive reals. -/
theorem C08_lognormal (h : NormalH) (hk : lognormal.hypOk h) (ops : List (Op ℝ NormalH)) :
    let c := (init lognormal h).run lognormal ops
    ∫ x in Set.Ioi (0 : ℝ), pr (lognormal.logpdf c.hyp c.stat x) = 1 := by
  intro c
  have i := prim_inv_run .lognormal h ops
  have e : c.stat = lognormal.statOf c.data.vals := i.hstat
  rw [e, lognormal_stat]
  have hk' : lognormal.hypOk c.hyp := hypOk_run hk ops
  have hn := normal_norm_list c.hyp hk' (c.data.vals.map Real.log)
  rw [List.length_map, List.map_map] at hn
  rw [← hn]
  set f : ℝ → ℝ := fun y => Real.exp (normalPredictive y (c.data.vals.length : ℤ)
    (c.data.vals.map Real.log).sum
    (c.data.vals.map ((fun x => x * x) ∘ Real.log)).sum c.hyp.m c.hyp.r c.hyp.s c.hyp.nu) with hf
  have himg : Real.exp '' Set.univ = Set.Ioi 0 := by
    rw [Set.image_univ, Real.range_exp]
  have hcv := integral_image_eq_integral_abs_deriv_smul (s := Set.univ) (f := Real.exp)
    (f' := Real.exp) MeasurableSet.univ (fun x _ => (Real.hasDerivAt_exp x).hasDerivWithinAt)
    Real.exp_injective.injOn (fun x => x⁻¹ * f (Real.log x))
  rw [himg] at hcv
  have e1 : ∀ x ∈ Set.Ioi (0 : ℝ), pr (lognormal.logpdf c.hyp ⟨(c.data.vals.length : ℤ),
      (c.data.vals.map Real.log).sum,
      (c.data.vals.map ((fun x => x * x) ∘ Real.log)).sum⟩ x) = x⁻¹ * f (Real.log x) := by
    intro x hx
    have hx' : (0 : ℝ) < x := hx
    simp only [lognormal, if_neg (not_le.mpr hx'), pr_coe, hf]
    rw [Real.exp_add, Real.exp_neg, Real.exp_log hx']
  refine (setIntegral_congr_fun measurableSet_Ioi e1).trans (hcv.trans ?_)
  rw [Measure.restrict_univ]
  refine integral_congr_ae (Filter.Eventually.of_forall fun x => ?_)
  show |Real.exp x| • ((Real.exp x)⁻¹ * f (Real.log (Real.exp x))) = f x
  rw [Real.log_exp, abs_of_pos (Real.exp_pos x), smul_eq_mul, ← mul_assoc,
    mul_inv_cancel₀ (Real.exp_pos x).ne', one_mul]

/-- Non-vacuity: the hypotheses are met, and the component has seen data. -/
example : normal.hypOk ⟨0, 1, 1, 1⟩ ∧ lognormal.hypOk ⟨0, 1, 1, 1⟩ ∧
    cells .lognormal [.inc 0 3, .inc 1 (-2), .inc 2 5] 2 = some 5 ∧
    cells .lognormal [.inc 0 3, .inc 1 (-2), .inc 2 5] 1 = none := by
  refine ⟨⟨one_pos, one_pos, one_pos⟩, ⟨one_pos, one_pos, one_pos⟩, ?_, ?_⟩
  · simp [cells, cellStep, remembered, support]
  · simp [cells, cellStep, remembered, support]

end Cgpm.Props
