import Verif.Spec.Ols
import Verif.Lemmas.Forest
import Mathlib.Analysis.InnerProductSpace.Projection.Minimal
import Mathlib.Analysis.InnerProductSpace.PiL2

/-!
Least squares: existence, and maximum likelihood.
-/
namespace Cgpm.OlsReg
open Cgpm Cgpm.Spec Cgpm.Spec.Ols Cgpm.Props

theorem zipWith_sum {α β : Type} {p : Nat} {w : List α} {y : List β} (hw : w.length = p) (hy : y.length = p)
    (f : α → β → ℝ) (a : α) (b : β) :
    (List.zipWith f w y).sum = ∑ j : Fin p, f (w.getD j a) (y.getD j b) := by
  rw [← List.sum_ofFn]
  congr 1
  refine List.ext_getElem (by simp [hw, hy]) fun i h1 h2 => ?_
  rw [List.getElem_zipWith, List.getElem_ofFn]
  simp only [List.length_zipWith, hw, hy, min_self] at h1
  rw [List.getD_eq_getElem _ _ (by omega), List.getD_eq_getElem _ _ (by omega)]

/-- The predictions of an affine function. -/
noncomputable def predictions (n p : Nat) (Y : List (List ℝ)) :
    (ℝ × (Fin p → ℝ)) →ₗ[ℝ] EuclideanSpace ℝ (Fin n) where
  toFun θ := WithLp.toLp 2 fun i => θ.1 + ∑ j, θ.2 j * (Y.getD i []).getD j 0
  map_add' a b := by
    ext i
    simp only [PiLp.add_apply, Prod.fst_add, Prod.snd_add, Pi.add_apply, add_mul, Finset.sum_add_distrib]
    ring
  map_smul' c a := by
    ext i
    simp only [PiLp.smul_apply, Prod.smul_fst, Prod.smul_snd, Pi.smul_apply, smul_eq_mul, RingHom.id_apply,
      mul_add, Finset.mul_sum, mul_assoc]

theorem loss_eq {p : Nat} {Y : List (List ℝ)} {X : List ℝ} (h : Y.length = X.length)
    (hY : ∀ y ∈ Y, y.length = p) {f : List ℝ → ℝ} (θ : ℝ × (Fin p → ℝ))
    (hf : ∀ y, y.length = p → f y = θ.1 + ∑ j, θ.2 j * y.getD j 0) :
    loss f Y X = ‖(WithLp.toLp 2 fun i : Fin X.length => X.getD i 0) - predictions X.length p Y θ‖ ^ 2 := by
  rw [EuclideanSpace.real_norm_sq_eq, loss, zipWith_sum h rfl _ [] 0]
  refine Finset.sum_congr rfl fun i _ => ?_
  have hi : (i : Nat) < Y.length := by rw [h]; exact i.2
  have : (Y.getD i []).length = p := by
    rw [List.getD_eq_getElem _ _ hi]
    exact hY _ (List.getElem_mem hi)
  rw [hf _ this]
  rfl

theorem affine_iff {p : Nat} {f : List ℝ → ℝ} :
    Affine p f ↔ ∃ θ : ℝ × (Fin p → ℝ), ∀ y, y.length = p → f y = θ.1 + ∑ j, θ.2 j * y.getD j 0 := by
  constructor
  · rintro ⟨b, w, hw, h⟩
    refine ⟨(b, fun j => w.getD j 0), fun y hy => ?_⟩
    rw [h y hy, zipWith_sum hw hy _ 0 0]
  · rintro ⟨⟨b, v⟩, h⟩
    refine ⟨b, List.ofFn v, by simp, fun y hy => ?_⟩
    rw [h y hy, zipWith_sum (by simp) hy _ 0 0]
    simp

/-- There is an affine function with the least squared errors. -/
theorem exists_leastSquares (p : Nat) (Y : List (List ℝ)) (X : List ℝ) (h : Y.length = X.length)
    (hY : ∀ y ∈ Y, y.length = p) :
    ∃ f, Affine p f ∧ ∀ f', Affine p f' → loss f Y X ≤ loss f' Y X := by
  set u : EuclideanSpace ℝ (Fin X.length) := WithLp.toLp 2 fun i : Fin X.length => X.getD i 0
  set K := LinearMap.range (predictions X.length p Y)
  have hc : IsComplete (K : Set (EuclideanSpace ℝ (Fin X.length))) := by
    have : FiniteDimensional ℝ K := inferInstance
    exact Submodule.complete_of_finiteDimensional K
  obtain ⟨v, hv, hmin⟩ := exists_norm_eq_iInf_of_complete_convex (u := u) ⟨0, K.zero_mem⟩ hc K.convex
  obtain ⟨θ, rfl⟩ := hv
  refine ⟨fun y => θ.1 + ∑ j, θ.2 j * y.getD j 0, affine_iff.mpr ⟨θ, fun _ _ => rfl⟩, fun f' hf' => ?_⟩
  obtain ⟨θ', hθ'⟩ := affine_iff.mp hf'
  rw [loss_eq h hY θ fun _ _ => rfl, loss_eq h hY θ' hθ']
  refine pow_le_pow_left₀ (norm_nonneg _) ?_ 2
  change ‖u - _‖ ≤ ‖u - _‖
  rw [hmin]
  exact ciInf_le ⟨0, by rintro x ⟨w, rfl⟩; exact norm_nonneg _⟩
    (⟨predictions X.length p Y θ', ⟨θ', rfl⟩⟩ : (K : Set (EuclideanSpace ℝ (Fin X.length))))

open Classical in
/-- A regression with least squared errors. -/
noncomputable def leastFit (Y : List (List ℝ)) (X : List ℝ) : List ℝ → ℝ :=
  if h : ∃ f, ∀ p, (∀ y ∈ Y, y.length = p) → Affine p f ∧ ∀ f', Affine p f' → loss f Y X ≤ loss f' Y X
  then h.choose else fun _ => 0

/-- What is assumed of `fit` can be met. -/
theorem leastFit_leastSquares : LeastSquares leastFit := by
  intro p Y X hX h hY
  have hne : Y ≠ [] := fun h0 => hX (List.length_eq_zero_iff.mp (by rw [← h, h0]; rfl))
  have hex : ∃ f, ∀ p, (∀ y ∈ Y, y.length = p) →
      Affine p f ∧ ∀ f', Affine p f' → loss f Y X ≤ loss f' Y X := by
    obtain ⟨f, hf⟩ := exists_leastSquares p Y X h hY
    refine ⟨f, fun q hq => ?_⟩
    obtain ⟨y, t, rfl⟩ := List.exists_cons_of_ne_nil hne
    have : q = p := (hq y List.mem_cons_self).symm.trans (hY y List.mem_cons_self)
    rw [this]
    exact hf
  unfold leastFit
  rw [dif_pos hex]
  exact hex.choose_spec p hY

/-- The logarithm of a normal density. -/
theorem log_normalDensity (m : ℝ) {s : ℝ} (hs : 0 < s) (x : ℝ) :
    Real.log (Rand.normalDensity m s x)
      = -Real.log s - 1 / 2 * Real.log (2 * Real.pi) - (x - m) ^ 2 / (2 * s ^ 2) := by
  unfold Rand.normalDensity
  have hpi : (0 : ℝ) < 2 * Real.pi := by positivity
  rw [Real.log_div (Real.exp_pos _).ne' (mul_pos hs (Real.sqrt_pos.mpr hpi)).ne', Real.log_exp,
    Real.log_mul hs.ne' (Real.sqrt_pos.mpr hpi).ne', Real.log_sqrt hpi.le]
  ring

/-- The log likelihood of normal values with errors `e`. -/
theorem sum_log_normalDensity {ι : Type} (l : List ι) (m x : ι → ℝ) {s : ℝ} (hs : 0 < s) :
    (l.map fun i => Real.log (Rand.normalDensity (m i) s (x i))).sum
      = l.length * (-Real.log s - 1 / 2 * Real.log (2 * Real.pi))
        - (l.map fun i => (x i - m i) ^ 2).sum / (2 * s ^ 2) := by
  induction l with
  | nil => simp
  | cons a t ih =>
    simp only [List.map_cons, List.sum_cons, List.length_cons, Nat.cast_add, Nat.cast_one]
    rw [ih, log_normalDensity _ hs]
    ring

/-- The mean squared error is the variance of maximum likelihood. -/
theorem likelihood_le {n S S' s t : ℝ} (hn : 0 < n) (hs : 0 < s) (ht : 0 < t) (hS : S = n * s ^ 2)
    (hle : S ≤ S') (c : ℝ) :
    n * (-Real.log t - c) - S' / (2 * t ^ 2) ≤ n * (-Real.log s - c) - S / (2 * s ^ 2) := by
  have h1 : S / (2 * s ^ 2) = n / 2 := by rw [hS]; field_simp
  have h2 : n * s ^ 2 / (2 * t ^ 2) ≤ S' / (2 * t ^ 2) := by
    rw [← hS]
    exact div_le_div_of_nonneg_right hle (by positivity)
  have h3 : Real.log ((s / t) ^ 2) ≤ (s / t) ^ 2 - 1 := Real.log_le_sub_one_of_pos (by positivity)
  rw [Real.log_pow, Real.log_div hs.ne' ht.ne'] at h3
  push_cast at h3
  have h4 : n * s ^ 2 / (2 * t ^ 2) = n / 2 * (s / t) ^ 2 := by field_simp
  rw [h1]
  rw [h4] at h2
  nlinarith

end Cgpm.OlsReg
