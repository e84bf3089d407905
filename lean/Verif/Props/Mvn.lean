import Verif.Lemmas.MvnDeriv
import Verif.Lemmas.FactorQuery

/-!
C83: the multivariate normal log density and its gradient.

`Spec.Mvn.IsChoFactor cho` says that scipy's `cho_factor` finds the triangular factor of every positive
definite matrix; nothing is assumed about the fallback `loser` for other matrices.
-/
namespace Cgpm.Props
open Cgpm.Mvn Cgpm.Spec.Mvn Cgpm.Spec.Factor Matrix

variable {cho : ChoFactor} {loser : (n : Nat) → Matrix (Fin n) (Fin n) ℝ → Cov n}

theorem mvn_covf (hc : IsChoFactor cho) {n : Nat} {S : Matrix (Fin n) (Fin n) ℝ} (hS : S.PosDef) :
    (∀ y, (covarianceFactor cho loser S).solve y = S⁻¹ *ᵥ y) ∧
      (covarianceFactor cho loser S).inverse = S⁻¹ ∧
      (covarianceFactor cho loser S).logsqrtdet = 1 / 2 * Real.log S.det := by
  obtain ⟨U, h1, h2, h3, h4⟩ := hc n S hS
  unfold covarianceFactor
  rw [h1]
  exact chol_facts h2 h3 h4

theorem mvn_logpdf_eq (hc : IsChoFactor cho) {n : Nat} (X Mu : Fin n → ℝ)
    {S : Matrix (Fin n) (Fin n) ℝ} (hS : S.PosDef) :
    logpdf cho loser X Mu S = -(1 / 2) * ((X - Mu) ⬝ᵥ S⁻¹ *ᵥ (X - Mu))
      - (n : ℝ) / 2 * Real.log (2 * Real.pi) - 1 / 2 * Real.log S.det := by
  obtain ⟨h1, -, h3⟩ := mvn_covf (loser := loser) hc hS
  unfold logpdf
  dsimp only
  rw [h3, h1]
  congr 2
  rw [show (fun i => (S⁻¹ *ᵥ (X - Mu)) i / 2) = (1 / 2 : ℝ) • S⁻¹ *ᵥ (X - Mu) from by
    funext i; rw [Pi.smul_apply, smul_eq_mul]; ring, dotProduct_smul, smul_eq_mul]
  ring

/-- **C83.** For a positive definite covariance, `logpdf` is the logarithm of the multivariate normal
density: the Cholesky factor is solved with, and its diagonal multiplied, correctly. -/
theorem C83_logpdf (hc : IsChoFactor cho) {n : Nat} (X Mu : Fin n → ℝ)
    {S : Matrix (Fin n) (Fin n) ℝ} (hS : S.PosDef) :
    logpdf cho loser X Mu S = Real.log (gauss X Mu S) := by
  have h := Factor.mvnLogpdf_posDef (fun _ _ _ => .fin 0) X Mu hS
  unfold mvnLogpdf at h
  rw [if_pos hS, Fl.fin.injEq] at h
  rw [← h, mvn_logpdf_eq hc X Mu hS, dotProduct_smul, smul_eq_mul]
  ring

/-- **C83.** `dlogpdf` returns the partial derivatives of `logpdf`.  Let `X` be a function of the
parameters `t`, `Mu` of `p` and `Sigma` of `q`, differentiable, with the arrays `dX`, `dMu`, `dSigma`
of their partial derivatives.  If `Sigma` is positive definite near `q`, then `logpdf` is a
differentiable function of all the parameters together, and the three lists that `dlogpdf` returns are
its partial derivatives in the coordinates of `t`, of `p` and of `q`. -/
theorem C83_gradient (hc : IsChoFactor cho) {n a b c : Nat}
    {X : (Fin a → ℝ) → Fin n → ℝ} {Mu : (Fin b → ℝ) → Fin n → ℝ}
    {Sigma : (Fin c → ℝ) → Matrix (Fin n) (Fin n) ℝ} {t : Fin a → ℝ} {p : Fin b → ℝ} {q : Fin c → ℝ}
    {dX : Fin a → Fin n → ℝ} {dMu : Fin b → Fin n → ℝ} {dSigma : Fin c → Matrix (Fin n) (Fin n) ℝ}
    (hX : ∀ r, HasPartials (fun t => X t r) (List.ofFn fun i => dX i r) t)
    (hMu : ∀ r, HasPartials (fun p => Mu p r) (List.ofFn fun j => dMu j r) p)
    (hSigma : ∀ r s, HasPartials (fun q => Sigma q r s) (List.ofFn fun k => dSigma k r s) q)
    (hpd : ∀ᶠ q' in nhds q, (Sigma q').PosDef) :
    ∃ F : (Fin a → ℝ) × (Fin b → ℝ) × (Fin c → ℝ) →L[ℝ] ℝ,
      HasFDerivAt (fun z : (Fin a → ℝ) × (Fin b → ℝ) × (Fin c → ℝ) =>
        logpdf cho loser (X z.1) (Mu z.2.1) (Sigma z.2.2)) F (t, p, q) ∧
      dlogpdf cho loser (X t) (List.ofFn dX) (Mu p) (List.ofFn dMu) (Sigma q) (List.ofFn dSigma)
        = (List.ofFn fun i => F (Pi.single i 1, 0, 0), List.ofFn fun j => F (0, Pi.single j 1, 0),
          List.ofFn fun k => F (0, 0, Pi.single k 1)) := by
  choose X' hX1 hX2 using hX
  choose M' hM1 hM2 using hMu
  choose S' hS1 hS2 using hSigma
  replace hX2 : ∀ r i, dX i r = X' r (Pi.single i 1) := fun r i =>
    congrFun (List.ofFn_injective (hX2 r)) i
  replace hM2 : ∀ r i, dMu i r = M' r (Pi.single i 1) := fun r i =>
    congrFun (List.ofFn_injective (hM2 r)) i
  replace hS2 : ∀ r s i, dSigma i r s = S' r s (Pi.single i 1) := fun r s i =>
    congrFun (List.ofFn_injective (hS2 r s)) i
  let Z := (Fin a → ℝ) × (Fin b → ℝ) × (Fin c → ℝ)
  have hq : (Sigma q).PosDef := hpd.self_of_nhds
  have htend : Filter.Tendsto (fun z : Z => z.2.2) (nhds (t, p, q)) (nhds q) :=
    (continuous_snd.comp continuous_snd).continuousAt
  have hpdz : ∀ᶠ z : Z in nhds (t, p, q), (Sigma z.2.2).PosDef := htend.eventually hpd
  have hA : ∀ r, HasFDerivAt (fun z : Z => (X z.1 - Mu z.2.1) r)
      ((X' r).comp (ContinuousLinearMap.fst ℝ (Fin a → ℝ) ((Fin b → ℝ) × (Fin c → ℝ))) -
        (M' r).comp ((ContinuousLinearMap.fst ℝ (Fin b → ℝ) (Fin c → ℝ)).comp
          (ContinuousLinearMap.snd ℝ (Fin a → ℝ) ((Fin b → ℝ) × (Fin c → ℝ))))) (t, p, q) := by
    intro r
    refine HasFDerivAt.sub ?_ ?_
    · exact HasFDerivAt.comp (g := fun t => X t r) (f := fun z : Z => z.1) (t, p, q) (hX1 r) hasFDerivAt_fst
    · exact HasFDerivAt.comp (g := fun p => Mu p r) (f := fun z : Z => z.2.1) (t, p, q) (hM1 r)
        (HasFDerivAt.comp (g := Prod.fst) (f := fun z : Z => z.2) (t, p, q) hasFDerivAt_fst hasFDerivAt_snd)
  have hS : ∀ r s, HasFDerivAt (fun z : Z => Sigma z.2.2 r s)
      ((S' r s).comp ((ContinuousLinearMap.snd ℝ (Fin b → ℝ) (Fin c → ℝ)).comp
          (ContinuousLinearMap.snd ℝ (Fin a → ℝ) ((Fin b → ℝ) × (Fin c → ℝ))))) (t, p, q) := by
    intro r s
    exact HasFDerivAt.comp (g := fun q => Sigma q r s) (f := fun z : Z => z.2.2) (t, p, q) (hS1 r s)
      (HasFDerivAt.comp (g := Prod.snd) (f := fun z : Z => z.2) (t, p, q) hasFDerivAt_snd hasFDerivAt_snd)
  have hsym : (Sigma q)ᵀ = Sigma q := by
    have := hq.isHermitian
    rwa [Matrix.IsHermitian, conjTranspose_eq_transpose_of_trivial] at this
  obtain ⟨L1, hL1, hL1'⟩ := quad_hasFDerivAt (A := fun z : Z => X z.1 - Mu z.2.1)
    (S := fun z : Z => Sigma z.2.2) hA hS (hpdz.mono fun z h => h.det_pos.ne') hsym
  obtain ⟨L2, hL2, hL2'⟩ := logdet_hasFDerivAt (S := fun z : Z => Sigma z.2.2) hS hq.det_pos
  refine ⟨(-(1 / 2 : ℝ)) • L1 - (1 / 2 : ℝ) • L2, ?_, ?_⟩
  · have h := ((hL1.const_mul (-(1 / 2 : ℝ))).sub_const ((n : ℝ) / 2 * Real.log (2 * Real.pi))).sub
      (hL2.const_mul (1 / 2 : ℝ))
    refine h.congr_of_eventuallyEq ?_
    filter_upwards [hpdz] with z hz
    exact mvn_logpdf_eq hc _ _ hz
  · obtain ⟨h1, h2, -⟩ := mvn_covf (loser := loser) hc hq
    unfold dlogpdf
    dsimp only
    rw [h1, h2]
    have hF : ∀ v : Z, ((-(1 / 2 : ℝ)) • L1 - (1 / 2 : ℝ) • L2) v = -(1 / 2) * L1 v - 1 / 2 * L2 v :=
      fun v => rfl
    simp only [hF, hL1', hL2']
    set α := (Sigma q)⁻¹ *ᵥ (X t - Mu p)
    refine Prod.ext ?_ (Prod.ext ?_ ?_)
    · simp only [List.map_ofFn]
      congr 1
      funext i
      have e1 : (Matrix.of fun r s => ((S' r s).comp ((ContinuousLinearMap.snd ℝ (Fin b → ℝ) (Fin c → ℝ)).comp
          (ContinuousLinearMap.snd ℝ (Fin a → ℝ) ((Fin b → ℝ) × (Fin c → ℝ)))))
            ((Pi.single i 1, 0, 0) : Z)) = 0 := by
        ext r s; simp
      rw [e1]
      simp only [Function.comp_apply, Matrix.zero_mulVec, dotProduct_zero, Matrix.mul_zero,
        Matrix.trace_zero]
      have e2 : (fun r => ((X' r).comp (ContinuousLinearMap.fst ℝ (Fin a → ℝ) ((Fin b → ℝ) × (Fin c → ℝ))) -
        (M' r).comp ((ContinuousLinearMap.fst ℝ (Fin b → ℝ) (Fin c → ℝ)).comp
          (ContinuousLinearMap.snd ℝ (Fin a → ℝ) ((Fin b → ℝ) × (Fin c → ℝ)))))
          ((Pi.single i 1, 0, 0) : Z)) = dX i := by
        funext r; simp [hX2]
      rw [e2]
      ring
    · simp only [List.map_ofFn]
      congr 1
      funext i
      have e1 : (Matrix.of fun r s => ((S' r s).comp ((ContinuousLinearMap.snd ℝ (Fin b → ℝ) (Fin c → ℝ)).comp
          (ContinuousLinearMap.snd ℝ (Fin a → ℝ) ((Fin b → ℝ) × (Fin c → ℝ)))))
            ((0, Pi.single i 1, 0) : Z)) = 0 := by
        ext r s; simp
      rw [e1]
      simp only [Function.comp_apply, Matrix.zero_mulVec, dotProduct_zero, Matrix.mul_zero,
        Matrix.trace_zero]
      have e2 : (fun r => ((X' r).comp (ContinuousLinearMap.fst ℝ (Fin a → ℝ) ((Fin b → ℝ) × (Fin c → ℝ))) -
        (M' r).comp ((ContinuousLinearMap.fst ℝ (Fin b → ℝ) (Fin c → ℝ)).comp
          (ContinuousLinearMap.snd ℝ (Fin a → ℝ) ((Fin b → ℝ) × (Fin c → ℝ)))))
          ((0, Pi.single i 1, 0) : Z)) = -dMu i := by
        funext r; simp [hM2]
      rw [e2, dotProduct_neg]
      ring
    · simp only [List.map_ofFn]
      congr 1
      funext i
      have e1 : (Matrix.of fun r s => ((S' r s).comp ((ContinuousLinearMap.snd ℝ (Fin b → ℝ) (Fin c → ℝ)).comp
          (ContinuousLinearMap.snd ℝ (Fin a → ℝ) ((Fin b → ℝ) × (Fin c → ℝ)))))
            ((0, 0, Pi.single i 1) : Z)) = dSigma i := by
        ext r s; simp [hS2]
      rw [e1]
      have e2 : (fun r => ((X' r).comp (ContinuousLinearMap.fst ℝ (Fin a → ℝ) ((Fin b → ℝ) × (Fin c → ℝ))) -
        (M' r).comp ((ContinuousLinearMap.fst ℝ (Fin b → ℝ) (Fin c → ℝ)).comp
          (ContinuousLinearMap.snd ℝ (Fin a → ℝ) ((Fin b → ℝ) × (Fin c → ℝ)))))
          ((0, 0, Pi.single i 1) : Z)) = 0 := by
        funext r; simp
      rw [e2, dotProduct_zero, Function.comp_apply]
      have hN : ((Sigma q)⁻¹)ᵀ = (Sigma q)⁻¹ := by rw [Matrix.transpose_nonsing_inv, hsym]
      have e3 : ∑ r, ∑ s, (Matrix.of (fun i j => α i * α j) - (Sigma q)⁻¹) r s * dSigma i r s
          = α ⬝ᵥ (dSigma i *ᵥ α) - ((Sigma q)⁻¹ * dSigma i).trace := by
        have h4 : ((Sigma q)⁻¹ * dSigma i).trace = ∑ r, ∑ s, (Sigma q)⁻¹ r s * dSigma i r s := by
          rw [Matrix.trace, Finset.sum_comm]
          refine Finset.sum_congr rfl fun s _ => ?_
          rw [Matrix.diag_apply, Matrix.mul_apply]
          refine Finset.sum_congr rfl fun r _ => ?_
          rw [← Matrix.transpose_apply (Sigma q)⁻¹ r s, hN]
        rw [h4, dotProduct, ← Finset.sum_sub_distrib]
        refine Finset.sum_congr rfl fun r _ => ?_
        rw [Matrix.mulVec, dotProduct, Finset.mul_sum, ← Finset.sum_sub_distrib]
        refine Finset.sum_congr rfl fun s _ => ?_
        rw [Matrix.sub_apply, Matrix.of_apply]
        ring
      rw [e3]
      ring

/-! ### Cases -/

open Classical in
/-- A factorisation as assumed: every positive definite matrix has a Cholesky factor. -/
noncomputable def someCho : ChoFactor := fun _ S =>
  if h : S.PosDef then some (Classical.choose (cholesky_exists S h)) else none

theorem someCho_ok : IsChoFactor someCho := by
  intro n S hS
  refine ⟨_, dif_pos hS, Classical.choose_spec (cholesky_exists S hS)⟩

/-- The normal distribution of two variables, of mean `p`, with a common variance `q`, at `(t, 2 t)`. -/
example (t p q : ℝ) (hq : 0 < q) :
    ∃ F : (Fin 1 → ℝ) × (Fin 1 → ℝ) × (Fin 1 → ℝ) →L[ℝ] ℝ,
      HasFDerivAt (fun z : (Fin 1 → ℝ) × (Fin 1 → ℝ) × (Fin 1 → ℝ) =>
        logpdf someCho loser (fun r : Fin 2 => (r + 1) * z.1 0) (fun _ => z.2.1 0)
          (z.2.2 0 • (1 : Matrix (Fin 2) (Fin 2) ℝ))) F (fun _ => t, fun _ => p, fun _ => q) ∧
      dlogpdf someCho loser (fun r : Fin 2 => (r + 1) * t) (List.ofFn fun (_ : Fin 1) (r : Fin 2) => (r + 1 : ℝ))
        (fun _ => p) (List.ofFn fun (_ : Fin 1) (_ : Fin 2) => (1 : ℝ))
        (q • (1 : Matrix (Fin 2) (Fin 2) ℝ)) (List.ofFn fun (_ : Fin 1) => (1 : Matrix (Fin 2) (Fin 2) ℝ))
        = (List.ofFn fun i => F (Pi.single i 1, 0, 0), List.ofFn fun j => F (0, Pi.single j 1, 0),
          List.ofFn fun k => F (0, 0, Pi.single k 1)) := by
  refine C83_gradient (X := fun z (r : Fin 2) => ((r : ℝ) + 1) * z 0) (Mu := fun z _ => z 0)
    (Sigma := fun z => z 0 • (1 : Matrix (Fin 2) (Fin 2) ℝ)) (t := fun _ => t) (p := fun _ => p)
    (q := fun _ => q) someCho_ok (fun r => ?_) (fun r => ?_) (fun r s => ?_) ?_
  · refine ⟨((r : ℝ) + 1) • ContinuousLinearMap.proj 0,
      (ContinuousLinearMap.proj (R := ℝ) (φ := fun _ : Fin 1 => ℝ) 0).hasFDerivAt.const_mul _, ?_⟩
    simp
  · refine ⟨ContinuousLinearMap.proj 0,
      (ContinuousLinearMap.proj (R := ℝ) (φ := fun _ : Fin 1 => ℝ) 0).hasFDerivAt, ?_⟩
    simp
  · refine ⟨((1 : Matrix (Fin 2) (Fin 2) ℝ) r s) • ContinuousLinearMap.proj 0,
      (ContinuousLinearMap.proj (R := ℝ) (φ := fun _ : Fin 1 => ℝ) 0).hasFDerivAt.mul_const _, ?_⟩
    simp
  · have : ∀ᶠ z : Fin 1 → ℝ in nhds (fun _ => q), 0 < z 0 :=
      (continuous_apply (0 : Fin 1)).continuousAt.eventually (lt_mem_nhds hq)
    filter_upwards [this] with z hz
    exact Matrix.PosDef.one.smul hz

end Cgpm.Props
