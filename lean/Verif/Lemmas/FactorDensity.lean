import Verif.Lemmas.Factor

/-
Lemmas for C48: the covariance of distinct variables is positive definite, and the conditional
parameters give the ratio of the joint densities.
-/
namespace Cgpm.Factor
open Matrix Cgpm.Spec.Factor

variable {f : Factor}

/-- A block matrix is positive definite if its first block and the Schur complement are. -/
theorem posDef_of_schur {ι κ : Type} [Fintype ι] [Fintype κ] [DecidableEq ι] [DecidableEq κ]
    {A : Matrix ι ι ℝ} {B : Matrix ι κ ℝ} {D : Matrix κ κ ℝ} (hA : A.PosDef)
    (hS : (D - Bᵀ * A⁻¹ * B).PosDef) : (fromBlocks A B Bᵀ D).PosDef := by
  have := hA.isUnit.invertible
  have hs : (Bᵀ * A⁻¹ * B).IsHermitian := by
    have := isHermitian_conjTranspose_mul_mul B hA.1.inv
    rwa [conjTranspose_eq_transpose_of_trivial] at this
  have hD : D.IsHermitian := by
    have := hS.1.add hs
    rwa [sub_add_cancel] at this
  have hF : (fromBlocks A B Bᵀ D).IsHermitian := by
    have := IsHermitian.fromBlocks hA.1 (conjTranspose_eq_transpose_of_trivial B) hD
    exact this
  refine .of_dotProduct_mulVec_pos hF fun x hx => ?_
  have h2 := schur_complement_eq₁₁ B D (x ∘ Sum.inl) (x ∘ Sum.inr) hA.1
  rw [conjTranspose_eq_transpose_of_trivial, Sum.elim_comp_inl_inr] at h2
  rw [dotProduct_mulVec, h2]
  by_cases hy : x ∘ Sum.inr = 0
  · have hz : x ∘ Sum.inl ≠ 0 := by
      intro e
      apply hx
      funext i
      cases i with
      | inl i => exact congrFun e i
      | inr i => exact congrFun hy i
    have h3 := hA.dotProduct_mulVec_pos hz
    simp only [hy, mulVec_zero, add_zero, dotProduct_zero]
    rw [← dotProduct_mulVec]
    exact h3
  · have h3 := hS.dotProduct_mulVec_pos hy
    have h4 := hA.posSemidef.dotProduct_mulVec_nonneg (x ∘ Sum.inl + (A⁻¹ * B) *ᵥ (x ∘ Sum.inr))
    rw [dotProduct_mulVec] at h3 h4
    linarith

/-- The loadings, factors by observables. -/
def loadings (f : Factor) : Matrix (Fin f.L) (Fin (numObs f)) ℝ := fun k i => f.W i k

/-- The covariance of the observables. -/
noncomputable def obsCov (f : Factor) : Matrix (Fin (numObs f)) (Fin (numObs f)) ℝ :=
  fun i j => (∑ k ∈ Finset.range f.L, f.W i k * f.W j k) + f.Psi i j

/-- The covariance of the joint vector, the factors first. -/
noncomputable def joint (f : Factor) :
    Matrix (Fin f.L ⊕ Fin (numObs f)) (Fin f.L ⊕ Fin (numObs f)) ℝ :=
  fromBlocks 1 (loadings f) (loadings f)ᵀ (obsCov f)

theorem joint_schur (f : Factor) :
    obsCov f - (loadings f)ᵀ * (1 : Matrix (Fin f.L) (Fin f.L) ℝ)⁻¹ * loadings f
      = of fun i j : Fin (numObs f) => f.Psi i j := by
  funext i j
  simp only [inv_one, Matrix.mul_one, Matrix.sub_apply, Matrix.mul_apply, transpose_apply, obsCov,
    loadings, of_apply]
  rw [← Fin.sum_univ_eq_sum_range (fun k => f.W i k * f.W j k)]
  ring

theorem joint_posDef (h : Valid f) : (joint f).PosDef :=
  posDef_of_schur PosDef.one (by rw [joint_schur]; exact h.noise)

/-- The place of a variable in the joint vector. -/
def place (f : Factor) (h : f.L ≤ f.outputs.length) (q : Col) (hq : q ∈ f.outputs) :
    Fin f.L ⊕ Fin (numObs f) :=
  if ho : IsObs f q then .inr ⟨pos f q, ho⟩ else .inl ⟨coord f q, coord_lat_lt h hq ho⟩

theorem place_inj (h : f.L ≤ f.outputs.length) {q r : Col} (hq : q ∈ f.outputs)
    (hr : r ∈ f.outputs) (e : place f h q hq = place f h r hr) : q = r := by
  unfold place at e
  split at e <;> split at e
  · next h1 h2 =>
      exact pos_inj hq (congrArg Fin.val (Sum.inr.inj e))
  · simp at e
  · simp at e
  · next h1 h2 =>
      exact coord_inj h hq hr (congrArg Fin.val (Sum.inl.inj e))

theorem joint_place (h : f.L ≤ f.outputs.length) {q r : Col} (hq : q ∈ f.outputs)
    (hr : r ∈ f.outputs) : joint f (place f h q hq) (place f h r hr) = covar f q r := by
  unfold place covar Spec.Factor.noise
  split
  · next h1 =>
    split
    · next h2 =>
      rw [joint, fromBlocks_apply₂₂]
      simp only [obsCov, h1, h2, load, if_true, and_self]
    · next h2 =>
      rw [joint, fromBlocks_apply₂₁]
      simp only [transpose_apply, loadings, h1, h2, if_false, and_false, add_zero]
      rw [Finset.sum_congr rfl fun k _ => mul_comm _ _, sum_load_lat h hr h2]
      simp [load, h1]
  · next h1 =>
    rw [sum_load_lat h hq h1]
    split
    · next h2 =>
      rw [joint, fromBlocks_apply₁₂]
      simp [loadings, h1, h2, load]
    · next h2 =>
      have h4 := coord_lat_lt h hq h1
      have h5 := coord_lat_lt h hr h2
      have e5 : coord f r = pos f r - numObs f := coord_lat h2
      have h2' := h2
      unfold IsObs at h2'
      rw [joint, fromBlocks_apply₁₁]
      simp only [h1, h2, if_false, false_and, add_zero, load]
      by_cases e : coord f q = coord f r
      · rw [if_pos (by omega), Matrix.one_apply, if_pos (by simpa using e)]
      · rw [if_neg (by omega), Matrix.one_apply, if_neg (by simpa using e)]

/-- The covariance of distinct variables is positive definite. -/
theorem covar_posDef (h : Valid f) {ι : Type} [Fintype ι] (v : ι → Col)
    (hv : ∀ i, v i ∈ f.outputs) (hi : Function.Injective v) :
    (of fun i j => covar f (v i) (v j)).PosDef := by
  have h1 := (joint_posDef h).submatrix (e := fun i => place f h.le (v i) (hv i))
    (fun i j e => hi (place_inj h.le (hv i) (hv j) e))
  have h2 : (joint f).submatrix (fun i => place f h.le (v i) (hv i))
      (fun i => place f h.le (v i) (hv i)) = of fun i j => covar f (v i) (v j) := by
    funext i j
    exact joint_place h.le (hv i) (hv j)
  rwa [h2] at h1

theorem covar_symm (h : Valid f) {q r : Col} (hq : q ∈ f.outputs) (hr : r ∈ f.outputs) :
    covar f q r = covar f r q := by
  rw [← joint_place h.le hq hr, ← joint_place h.le hr hq]
  have := (joint_posDef h).1.apply (place f h.le q hq) (place f h.le r hr)
  simpa using this.symm

theorem assigns_getElem {d : Dict Col ℝ} (h : Assigns f d) (i : Fin d.length) :
    d[i].1 ∈ f.outputs :=
  h.known _ (List.mem_map.2 ⟨d[i], List.getElem_mem _, rfl⟩)

theorem assigns_inj {d : Dict Col ℝ} (h : Assigns f d) :
    Function.Injective fun i : Fin d.length => d[i].1 := by
  intro i j e
  have h1 := h.nodup
  have : d.keys[i.val]'(by simp [Dict.keys]) = d.keys[j.val]'(by simp [Dict.keys]) := by
    simpa [Dict.keys] using e
  exact Fin.ext ((List.Nodup.getElem_inj_iff h1).1 this)

theorem density_pos (h : Valid f) {d : Dict Col ℝ} (hd : Assigns f d) : 0 < density f d :=
  gauss_pos (covar_posDef h (fun i : Fin d.length => d[i].1) (assigns_getElem hd) (assigns_inj hd))

theorem density_nil (f : Factor) : density f [] = 1 := by
  unfold density gauss
  rw [Matrix.det_fin_zero]
  simp

/-- The density of two assignments as a density of pairs of coordinates. -/
theorem density_append (f : Factor) (T E : Dict Col ℝ) :
    density f (T ++ E) = gauss
      (Sum.elim (fun i : Fin T.length => T[i].2) (fun i : Fin E.length => E[i].2))
      (Sum.elim (fun i : Fin T.length => mean f T[i].1) (fun i : Fin E.length => mean f E[i].1))
      (fromBlocks (of fun i j : Fin T.length => covar f T[i].1 T[j].1)
        (of fun (i : Fin T.length) (j : Fin E.length) => covar f T[i].1 E[j].1)
        (of fun (i : Fin E.length) (j : Fin T.length) => covar f E[i].1 T[j].1)
        (of fun i j : Fin E.length => covar f E[i].1 E[j].1)) := by
  have hl : T.length + E.length = (T ++ E).length := by simp
  let e : Fin T.length ⊕ Fin E.length ≃ Fin (T ++ E).length := finSumFinEquiv.trans (finCongr hl)
  have el : ∀ i, (T ++ E)[e (Sum.inl i)] = T[i] := by
    intro i; simp [e]
  have er : ∀ i, (T ++ E)[e (Sum.inr i)] = E[i] := by
    intro i; simp [e, List.getElem_append]
  unfold density
  rw [← gauss_equiv e]
  congr 1
  · funext i; cases i with
    | inl i => simp only [Function.comp, el, Sum.elim_inl]
    | inr i => simp only [Function.comp, er, Sum.elim_inr]
  · funext i; cases i with
    | inl i => simp only [Function.comp, el, Sum.elim_inl]
    | inr i => simp only [Function.comp, er, Sum.elim_inr]
  · funext i j
    cases i <;> cases j <;> simp only [submatrix_apply, of_apply, el, er, fromBlocks_apply₁₁,
      fromBlocks_apply₁₂, fromBlocks_apply₂₁, fromBlocks_apply₂₂]

end Cgpm.Factor
