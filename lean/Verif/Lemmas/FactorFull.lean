import Verif.Lemmas.FactorRow

/-
Lemmas for C48: assignments to all the observables and to all the factors.
-/
namespace Cgpm.Factor
open Matrix Cgpm.Spec.Factor

variable {f : Factor}

theorem allObs_len (xs : Fin (numObs f) → ℝ) : numObs f = (allObs f xs).length := by
  simp [allObs]; unfold numObs; omega

theorem allLat_len (h : f.L ≤ f.outputs.length) (zs : Fin f.L → ℝ) :
    f.L = (allLat f zs).length := by
  simp [allLat, numObs]; omega

theorem allObs_keys (xs : Fin (numObs f) → ℝ) :
    (allObs f xs).keys = f.outputs.take (numObs f) := by
  unfold Dict.keys allObs
  rw [List.map_fst_zip]
  rw [List.length_ofFn, List.length_take]; omega

theorem allLat_keys (h : f.L ≤ f.outputs.length) (zs : Fin f.L → ℝ) :
    (allLat f zs).keys = f.outputs.drop (numObs f) := by
  unfold Dict.keys allLat
  rw [List.map_fst_zip]
  simp [numObs]; omega

theorem allObs_assigns (h : Valid f) (xs : Fin (numObs f) → ℝ) : Assigns f (allObs f xs) :=
  ⟨by rw [allObs_keys]; exact h.nodup.sublist (List.take_sublist _ _),
    by rw [allObs_keys]; exact fun q hq => List.mem_of_mem_take hq⟩

theorem allLat_assigns (h : Valid f) (zs : Fin f.L → ℝ) : Assigns f (allLat f zs) :=
  ⟨by rw [allLat_keys h.le]; exact h.nodup.sublist (List.drop_sublist _ _),
    by rw [allLat_keys h.le]; exact fun q hq => List.mem_of_mem_drop hq⟩

theorem all_disjoint (h : Valid f) (xs : Fin (numObs f) → ℝ) (zs : Fin f.L → ℝ) :
    ∀ q ∈ (allObs f xs).keys, q ∉ (allLat f zs).keys := by
  rw [allObs_keys, allLat_keys h.le]
  have h3 := h.nodup
  rw [← List.take_append_drop (numObs f) f.outputs, List.nodup_append] at h3
  intro q h1 h2
  exact h3.2.2 q h1 q h2 rfl

/-- The places of the observables. -/
def obsEquiv (f : Factor) (xs : Fin (numObs f) → ℝ) : Fin (numObs f) ≃ Fin (allObs f xs).length :=
  finCongr (allObs_len xs)

/-- The places of the factors. -/
def latEquiv (h : f.L ≤ f.outputs.length) (zs : Fin f.L → ℝ) : Fin f.L ≃ Fin (allLat f zs).length :=
  finCongr (allLat_len h zs)

theorem obs_lt (i : Fin (numObs f)) : i.val < f.outputs.length := by
  have := i.isLt
  unfold numObs at this; omega

theorem lat_lt (h : f.L ≤ f.outputs.length) (k : Fin f.L) :
    numObs f + k.val < f.outputs.length := by
  have := k.isLt
  unfold numObs; omega

theorem allObs_get (xs : Fin (numObs f) → ℝ) (i : Fin (numObs f)) :
    (allObs f xs)[obsEquiv f xs i] = (f.outputs[i.val]'(obs_lt i), xs i) := by
  simp [allObs]
  exact ⟨rfl, rfl⟩

theorem allLat_get (h : f.L ≤ f.outputs.length) (zs : Fin f.L → ℝ) (k : Fin f.L) :
    (allLat f zs)[latEquiv h zs k] = (f.outputs[numObs f + k.val]'(lat_lt h k), zs k) := by
  simp [allLat]
  exact ⟨rfl, rfl⟩

theorem pos_obs (h : f.outputs.Nodup) (i : Fin (numObs f)) :
    pos f (f.outputs[i.val]'(obs_lt i)) = i.val := h.idxOf_getElem _ _

theorem pos_lat (h : Valid f) (k : Fin f.L) :
    pos f (f.outputs[numObs f + k.val]'(lat_lt h.le k)) = numObs f + k.val :=
  h.nodup.idxOf_getElem _ _

theorem isObs_obs (h : f.outputs.Nodup) (i : Fin (numObs f)) :
    IsObs f (f.outputs[i.val]'(obs_lt i)) := by
  unfold IsObs; rw [pos_obs h]; exact i.isLt

theorem not_isObs_lat (h : Valid f) (k : Fin f.L) :
    ¬ IsObs f (f.outputs[numObs f + k.val]'(lat_lt h.le k)) := by
  unfold IsObs; rw [pos_lat h]; omega

theorem coord_lat_eq (h : Valid f) (k : Fin f.L) :
    coord f (f.outputs[numObs f + k.val]'(lat_lt h.le k)) = k.val := by
  rw [coord_lat (not_isObs_lat h k), pos_lat h]; omega

theorem covar_oo (h : Valid f) (i j : Fin (numObs f)) :
    covar f (f.outputs[i.val]'(obs_lt i)) (f.outputs[j.val]'(obs_lt j)) = obsCov f i j := by
  simp only [covar, Spec.Factor.noise, load, isObs_obs h.nodup, if_true, and_self,
    pos_obs h.nodup, obsCov]

theorem covar_lo (h : Valid f) (k : Fin f.L) (j : Fin (numObs f)) :
    covar f (f.outputs[numObs f + k.val]'(lat_lt h.le k)) (f.outputs[j.val]'(obs_lt j))
      = loadings f k j := by
  rw [covar, sum_load_lat h.le (List.getElem_mem _) (not_isObs_lat h k), coord_lat_eq h]
  simp [Spec.Factor.noise, not_isObs_lat h, load, isObs_obs h.nodup, pos_obs h.nodup, loadings]

theorem covar_ol (h : Valid f) (k : Fin f.L) (j : Fin (numObs f)) :
    covar f (f.outputs[j.val]'(obs_lt j)) (f.outputs[numObs f + k.val]'(lat_lt h.le k))
      = (loadings f)ᵀ j k := by
  rw [covar_symm h (List.getElem_mem _) (List.getElem_mem _), covar_lo h]
  rfl

theorem covar_ll (h : Valid f) (k l : Fin f.L) :
    covar f (f.outputs[numObs f + k.val]'(lat_lt h.le k))
      (f.outputs[numObs f + l.val]'(lat_lt h.le l)) = (1 : Matrix (Fin f.L) (Fin f.L) ℝ) k l := by
  rw [covar, sum_load_lat h.le (List.getElem_mem _) (not_isObs_lat h k), coord_lat_eq h]
  simp only [Spec.Factor.noise, not_isObs_lat h, false_and, if_false, add_zero, load, pos_lat h]
  rw [Matrix.one_apply]
  congr 1
  rw [Fin.ext_iff]
  simp only [Nat.add_left_cancel_iff]
  exact propext ⟨Eq.symm, Eq.symm⟩

theorem density_obs (h : Valid f) (xs : Fin (numObs f) → ℝ) :
    density f (allObs f xs) = gauss xs (fun i => f.mux i) (obsCov f) := by
  unfold density
  rw [← gauss_equiv (obsEquiv f xs)]
  congr 1
  · funext i
    simp only [Function.comp, allObs_get]
  · funext i
    simp only [Function.comp, allObs_get, mean, isObs_obs h.nodup, if_true, pos_obs h.nodup]
  · funext i j
    simp only [submatrix_apply, of_apply, allObs_get, covar_oo h]

theorem density_lat (h : Valid f) (zs : Fin f.L → ℝ) :
    density f (allLat f zs) = gauss zs 0 1 := by
  unfold density
  rw [← gauss_equiv (latEquiv h.le zs)]
  congr 1
  · funext i
    simp only [Function.comp, allLat_get]
  · funext i
    simp only [Function.comp, allLat_get, mean, not_isObs_lat h, if_false, Pi.zero_apply]
  · funext i j
    simp only [submatrix_apply, of_apply, allLat_get, covar_ll h]

theorem density_full (h : Valid f) (xs : Fin (numObs f) → ℝ) (zs : Fin f.L → ℝ) :
    density f (allObs f xs ++ allLat f zs)
      = gauss (Sum.elim xs zs) (Sum.elim (fun i => f.mux i) 0)
        (fromBlocks (obsCov f) (loadings f)ᵀ (loadings f)ᵀᵀ 1) := by
  rw [density_append, ← gauss_equiv (Equiv.sumCongr (obsEquiv f xs) (latEquiv h.le zs)),
    transpose_transpose]
  congr 1
  · funext i
    cases i <;> simp only [Function.comp, Equiv.sumCongr_apply, Sum.map_inl, Sum.map_inr,
      Sum.elim_inl, Sum.elim_inr, allObs_get, allLat_get]
  · funext i
    cases i <;> simp only [Function.comp, Equiv.sumCongr_apply, Sum.map_inl, Sum.map_inr,
      Sum.elim_inl, Sum.elim_inr, allObs_get, allLat_get, mean, isObs_obs h.nodup, pos_obs h.nodup,
      not_isObs_lat h, if_true, if_false, Pi.zero_apply]
  · funext i j
    cases i <;> cases j <;> simp only [submatrix_apply, Equiv.sumCongr_apply, Sum.map_inl,
      Sum.map_inr, fromBlocks_apply₁₁, fromBlocks_apply₁₂, fromBlocks_apply₂₁, fromBlocks_apply₂₂,
      of_apply, allObs_get, allLat_get, covar_oo h, covar_ol h, covar_lo h, covar_ll h]

/-- The noise covariance. -/
def noiseMat (f : Factor) : Matrix (Fin (numObs f)) (Fin (numObs f)) ℝ := of fun i j => f.Psi i j

theorem obsCov_eq (f : Factor) : obsCov f = (loadings f)ᵀ * loadings f + noiseMat f := by
  have := joint_schur f
  rw [inv_one, Matrix.mul_one] at this
  rw [noiseMat, ← this]; abel

theorem obsCov_posDef (h : Valid f) : (obsCov f).PosDef := by
  have := (joint_posDef h).submatrix (e := Sum.inr) Sum.inr_injective
  exact this

theorem full_posDef (h : Valid f) :
    (fromBlocks (obsCov f) (loadings f)ᵀ (loadings f)ᵀᵀ 1).PosDef := by
  have h1 := (joint_posDef h).submatrix (e := Sum.swap)
    (Equiv.sumComm (Fin (numObs f)) (Fin f.L)).injective
  have h2 : (joint f).submatrix Sum.swap Sum.swap
      = fromBlocks (obsCov f) (loadings f)ᵀ (loadings f)ᵀᵀ 1 := by
    unfold joint
    rw [fromBlocks_submatrix_sum_swap_sum_swap, transpose_transpose]
  rwa [h2] at h1

/-- The observables given the factors. -/
theorem density_generative (h : Valid f) (xs : Fin (numObs f) → ℝ) (zs : Fin f.L → ℝ) :
    density f (allObs f xs ++ allLat f zs)
      = gauss xs ((fun i : Fin (numObs f) => f.mux i) + (loadings f)ᵀ *ᵥ zs) (noiseMat f) * gauss zs 0 1 := by
  rw [density_full h, gauss_schur (full_posDef h), inv_one, Matrix.mul_one, sub_zero,
    transpose_transpose, obsCov_eq, add_sub_cancel_left]

/-- The precision of the factors given the observables. -/
noncomputable def precision (f : Factor) : Matrix (Fin f.L) (Fin f.L) ℝ :=
  1 + loadings f * (noiseMat f)⁻¹ * (loadings f)ᵀ

theorem precision_posDef (h : Valid f) : (precision f).PosDef := by
  have h1 : (noiseMat f).PosDef := h.noise
  have h2 := h1.inv.posSemidef.mul_mul_conjTranspose_same (loadings f)
  rw [conjTranspose_eq_transpose_of_trivial] at h2
  exact PosDef.one.add_posSemidef h2

theorem precision_mul (h : Valid f) :
    precision f * loadings f = loadings f * (noiseMat f)⁻¹ * obsCov f := by
  have h1 : IsUnit (noiseMat f).det := (Matrix.isUnit_iff_isUnit_det _).1 h.noise.isUnit
  rw [precision, obsCov_eq, Matrix.mul_add, Matrix.add_mul, Matrix.one_mul,
    Matrix.mul_assoc _ _ (noiseMat f), Matrix.nonsing_inv_mul _ h1, Matrix.mul_one, add_comm,
    ← Matrix.mul_assoc]

theorem gain_eq (h : Valid f) :
    loadings f * (obsCov f)⁻¹ = (precision f)⁻¹ * loadings f * (noiseMat f)⁻¹ := by
  have h1 : IsUnit (precision f).det :=
    (Matrix.isUnit_iff_isUnit_det _).1 (precision_posDef h).isUnit
  have h2 : IsUnit (obsCov f).det := (Matrix.isUnit_iff_isUnit_det _).1 (obsCov_posDef h).isUnit
  have h3 := congrArg (fun M => (precision f)⁻¹ * M * (obsCov f)⁻¹) (precision_mul h)
  rw [← Matrix.mul_assoc, Matrix.nonsing_inv_mul _ h1, Matrix.one_mul] at h3
  rw [h3, ← Matrix.mul_assoc, ← Matrix.mul_assoc, Matrix.mul_assoc _ (obsCov f),
    Matrix.mul_nonsing_inv _ h2, Matrix.mul_one]

theorem posterior_cov (h : Valid f) :
    1 - loadings f * (obsCov f)⁻¹ * (loadings f)ᵀ = (precision f)⁻¹ := by
  have h1 : IsUnit (precision f).det :=
    (Matrix.isUnit_iff_isUnit_det _).1 (precision_posDef h).isUnit
  rw [gain_eq h]
  have e : (precision f)⁻¹ * loadings f * (noiseMat f)⁻¹ * (loadings f)ᵀ
      = (precision f)⁻¹ * (precision f - 1) := by
    rw [precision, add_sub_cancel_left]
    simp only [Matrix.mul_assoc]
  rw [e, Matrix.mul_sub, Matrix.nonsing_inv_mul _ h1, Matrix.mul_one, sub_sub_cancel]

/-- The factors given the observables. -/
theorem density_posterior (h : Valid f) (xs : Fin (numObs f) → ℝ) (zs : Fin f.L → ℝ) :
    density f (allLat f zs ++ allObs f xs)
      = gauss zs ((precision f)⁻¹ *ᵥ (loadings f *ᵥ ((noiseMat f)⁻¹ *ᵥ (xs - fun i : Fin (numObs f) => f.mux i))))
          (precision f)⁻¹ * density f (allObs f xs) := by
  have hp : density f (allLat f zs ++ allObs f xs) = density f (allObs f xs ++ allLat f zs) := by
    refine density_perm ?_ List.perm_append_comm
    have := (assigns_append (allObs_assigns h xs) (allLat_assigns h zs) (all_disjoint h xs zs)).nodup
    have hq : (allObs f xs ++ allLat f zs).keys.Perm (allLat f zs ++ allObs f xs).keys :=
      (List.perm_append_comm).map _
    exact hq.nodup_iff.1 this
  have hj : (fromBlocks 1 (loadings f) (loadings f)ᵀ (obsCov f)).PosDef := joint_posDef h
  rw [hp, density_full h, ← gauss_equiv (Equiv.sumComm (Fin f.L) (Fin (numObs f)))]
  have e1 : (fromBlocks (obsCov f) (loadings f)ᵀ (loadings f)ᵀᵀ 1).submatrix
      (Equiv.sumComm (Fin f.L) (Fin (numObs f))) (Equiv.sumComm (Fin f.L) (Fin (numObs f)))
      = fromBlocks 1 (loadings f) (loadings f)ᵀ (obsCov f) := by
    rw [transpose_transpose]
    exact fromBlocks_submatrix_sum_swap_sum_swap _ _ _ _
  have e2 : Sum.elim xs zs ∘ (Equiv.sumComm (Fin f.L) (Fin (numObs f))) = Sum.elim zs xs := by
    funext i; cases i <;> rfl
  have e3 : Sum.elim (fun i : Fin (numObs f) => f.mux i) (0 : Fin f.L → ℝ)
      ∘ (Equiv.sumComm (Fin f.L) (Fin (numObs f))) = Sum.elim (0 : Fin f.L → ℝ) (fun i : Fin (numObs f) => f.mux i) := by
    funext i; cases i <;> rfl
  rw [e1, e2, e3, gauss_schur hj, posterior_cov h, gain_eq h, zero_add, density_obs h]
  simp only [mulVec_mulVec, Matrix.mul_assoc]

end Cgpm.Factor
