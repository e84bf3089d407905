import Verif.Lemmas.FactorDensity

/-
Lemmas for C48: what `logpdf` computes.
-/
namespace Cgpm.Factor
open Matrix Cgpm.Spec.Factor

variable {f : Factor}

/-- The multivariate normal log density of a positive definite covariance. -/
theorem mvnLogpdf_posDef (loser : (n : Nat) → (Fin n → ℝ) → Matrix (Fin n) (Fin n) ℝ → Fl)
    {n : Nat} (X Mu : Fin n → ℝ) {S : Matrix (Fin n) (Fin n) ℝ} (hS : S.PosDef) :
    mvnLogpdf loser X Mu S = .fin (Real.log (gauss X Mu S)) := by
  have hd := hS.det_pos
  unfold mvnLogpdf gauss
  rw [if_pos hS, Real.log_div (Real.exp_ne_zero _) (by positivity), Real.log_exp,
    Real.log_sqrt (by positivity), Real.log_mul (by positivity) hd.ne', Real.log_pow,
    dotProduct_smul, Fintype.card_fin]
  congr 1
  simp only [smul_eq_mul]
  ring

theorem reindex_ok (hn : f.outputs.Nodup) {l : List Col} (h : ∀ q ∈ l, q ∈ f.outputs) :
    f.reindex l = .ok (l.map (coord f)) :=
  Net.collect_ok _ _ _ fun q hq => convert_ok hn (h q hq)

/-- A dictionary with the coordinates for the variables. -/
def recoord (f : Factor) (d : Dict Col ℝ) : Dict Nat ℝ := d.map fun p => (coord f p.1, p.2)

theorem recoord_keys (d : Dict Col ℝ) : (recoord f d).keys = d.keys.map (coord f) := by
  simp [recoord, Dict.keys, Function.comp_def]

theorem reindexDict_ok (h : Valid f) {d : Dict Col ℝ} (hd : Assigns f d) :
    f.reindexDict d = .ok (recoord f d) := by
  unfold reindexDict
  rw [reindex_ok h.nodup hd.known]
  simp only
  have e : (d.keys.map (coord f)).zip (d.map Prod.snd) = recoord f d := by
    unfold Dict.keys recoord
    rw [List.map_map, List.zip_map']
    rfl
  rw [e, Dict.update_nil_eq]
  unfold Dict.WF
  rw [recoord_keys]
  exact hd.nodup.map_on fun q hq r hr e => coord_inj h.le (hd.known q hq) (hd.known r hr) e

theorem len_recoord (d : Dict Col ℝ) : d.length = (recoord f d).keys.length := by
  simp [recoord, Dict.keys]

/-- The coordinates of the reindexed dictionary. -/
def idx (f : Factor) (d : Dict Col ℝ) : Fin d.length ≃ Fin (recoord f d).keys.length :=
  finCongr (len_recoord d)

theorem key_idx (d : Dict Col ℝ) (i : Fin d.length) :
    (recoord f d).keys[idx f d i] = coord f d[i].1 := by
  simp [recoord, Dict.keys, idx]
  rfl

theorem vals_idx (d : Dict Col ℝ) : vals (recoord f d) ∘ idx f d = fun i => d[i].2 := by
  funext i
  simp [vals, recoord, idx]
  rfl

theorem at1_idx (h : Valid f) {d : Dict Col ℝ} (hd : Assigns f d) :
    at1 f.mu (recoord f d).keys ∘ idx f d = fun i => mean f d[i].1 := by
  funext i
  show f.mu (recoord f d).keys[idx f d i] = _
  rw [key_idx, mu_coord h.le (assigns_getElem hd i)]

/-- The block of covariances. -/
noncomputable def block (f : Factor) (T E : Dict Col ℝ) :
    Matrix (Fin T.length) (Fin E.length) ℝ :=
  of fun i j => covar f T[i].1 E[j].1

theorem at2_idx (h : Valid f) {T E : Dict Col ℝ} (hT : Assigns f T) (hE : Assigns f E) :
    (at2 f.cov (recoord f T).keys (recoord f E).keys).submatrix (idx f T) (idx f E)
      = block f T E := by
  funext i j
  show f.cov (recoord f T).keys[idx f T i] (recoord f E).keys[idx f E j] = covar f T[i].1 E[j].1
  rw [key_idx, key_idx, cov_coord h.le (assigns_getElem hT i) (assigns_getElem hE j)]

theorem block_transpose (h : Valid f) {T E : Dict Col ℝ} (hT : Assigns f T) (hE : Assigns f E) :
    (block f T E)ᵀ = block f E T := by
  funext i j
  exact covar_symm h (assigns_getElem hT j) (assigns_getElem hE i)

theorem block_posDef (h : Valid f) {d : Dict Col ℝ} (hd : Assigns f d) :
    (block f d d).PosDef :=
  covar_posDef h (fun i : Fin d.length => d[i].1) (assigns_getElem hd) (assigns_inj hd)

/-- The conditional mean, by variables. -/
theorem given_mean (h : Valid f) {T E : Dict Col ℝ} (hT : Assigns f T) (hE : Assigns f E) :
    (given f.mu f.cov (recoord f T).keys (recoord f E)).1 ∘ idx f T
      = (fun i => mean f T[i].1)
        + (block f T E * (block f E E)⁻¹) *ᵥ ((fun i => E[i].2) - fun i => mean f E[i].1) := by
  have e1 := at1_idx h hT
  have e2 := at1_idx h hE
  have e3 := vals_idx (f := f) E
  unfold given
  rw [← e1, ← e2, ← e3, ← at2_idx h hT hE, ← at2_idx h hE hE, inv_submatrix_equiv,
    submatrix_mul_equiv]
  funext i
  simp only [Function.comp_apply, Pi.add_apply]
  congr 1
  simp only [mulVec, dotProduct]
  exact (Fintype.sum_equiv (idx f E) _ _ fun j => rfl).symm

/-- The conditional covariance, by variables. -/
theorem given_cov (h : Valid f) {T E : Dict Col ℝ} (hT : Assigns f T) (hE : Assigns f E) :
    (given f.mu f.cov (recoord f T).keys (recoord f E)).2.submatrix (idx f T) (idx f T)
      = block f T T - block f T E * (block f E E)⁻¹ * (block f T E)ᵀ := by
  unfold given
  rw [← at2_idx h hT hT, ← at2_idx h hT hE, ← at2_idx h hE hE, inv_submatrix_equiv,
    submatrix_mul_equiv, transpose_submatrix, submatrix_mul_equiv]
  rfl

theorem assigns_append {T E : Dict Col ℝ} (hT : Assigns f T) (hE : Assigns f E)
    (hd : ∀ q ∈ T.keys, q ∉ E.keys) : Assigns f (T ++ E) := by
  have e : (T ++ E).keys = T.keys ++ E.keys := by simp [Dict.keys]
  constructor
  · rw [e, List.nodup_append]
    exact ⟨hT.nodup, hE.nodup, fun a ha b hb e => hd a ha (e ▸ hb)⟩
  · intro q hq
    rw [e, List.mem_append] at hq
    exact hq.elim (hT.known q) (hE.known q)

/-- The covariance of two assignments, in blocks. -/
theorem blocks_posDef (h : Valid f) {T E : Dict Col ℝ} (hT : Assigns f T) (hE : Assigns f E)
    (hd : ∀ q ∈ T.keys, q ∉ E.keys) :
    (fromBlocks (block f T T) (block f T E) (block f T E)ᵀ (block f E E)).PosDef := by
  have h1 := covar_posDef h (ι := Fin T.length ⊕ Fin E.length)
    (Sum.elim (fun i => T[i].1) (fun i => E[i].1))
    (by
      intro i
      cases i with
      | inl i => exact assigns_getElem hT i
      | inr i => exact assigns_getElem hE i)
    (by
      have hk : ∀ (d : Dict Col ℝ) (i : Fin d.length), d[i].1 ∈ d.keys := fun d i =>
        List.mem_map.2 ⟨d[i], List.getElem_mem _, rfl⟩
      intro i j e
      cases i with
      | inl i =>
        cases j with
        | inl j => exact congrArg _ (assigns_inj hT e)
        | inr j =>
          simp only [Sum.elim_inl, Sum.elim_inr] at e
          exact absurd (e ▸ hk E j) (hd _ (hk T i))
      | inr i =>
        cases j with
        | inr j => exact congrArg _ (assigns_inj hE e)
        | inl j =>
          simp only [Sum.elim_inl, Sum.elim_inr] at e
          exact absurd (e.symm ▸ hk E i) (hd _ (hk T j)))
  have h2 : (of fun i j => covar f
      ((Sum.elim (fun i : Fin T.length => T[i].1) (fun i : Fin E.length => E[i].1)) i)
      ((Sum.elim (fun i : Fin T.length => T[i].1) (fun i : Fin E.length => E[i].1)) j))
      = fromBlocks (block f T T) (block f T E) (block f T E)ᵀ (block f E E) := by
    rw [block_transpose h hT hE]
    funext i j
    cases i <;> cases j <;> rfl
  rw [← h2]
  exact h1

/-- The density of the targets with the conditional parameters is the ratio of the joint densities. -/
theorem given_density (h : Valid f) {T E : Dict Col ℝ} (hT : Assigns f T) (hE : Assigns f E)
    (hd : ∀ q ∈ T.keys, q ∉ E.keys) :
    let g := given f.mu f.cov (recoord f T).keys (recoord f E)
    g.2.PosDef ∧ gauss (vals (recoord f T)) g.1 g.2 * density f E = density f (T ++ E) := by
  intro g
  have hB := blocks_posDef h hT hE hd
  obtain ⟨_, hS⟩ := schur_posDef hB
  constructor
  · have h1 := hS.submatrix (e := (idx f T).symm) (idx f T).symm.injective
    rw [← given_cov h hT hE, submatrix_submatrix] at h1
    simpa using h1
  · rw [← gauss_equiv (idx f T), given_mean h hT hE, given_cov h hT hE, vals_idx, density_append]
    have e := gauss_schur hB (fun i => T[i].2) (fun i => mean f T[i].1) (fun i => E[i].2)
      (fun i => mean f E[i].1)
    rw [block_transpose h hT hE] at e ⊢
    exact e.symm

theorem symmetric_ok (h : Valid f) {T E : Dict Col ℝ} (hT : Assigns f T) (hE : Assigns f E) :
    Symmetric f.cov (recoord f T).keys (recoord f E).keys := by
  have : ∀ d, Assigns f d → ∀ i ∈ (recoord f d).keys, ∀ j ∈ (recoord f d).keys,
      f.cov i j = f.cov j i := by
    intro d hd i hi j hj
    rw [recoord_keys] at hi hj
    obtain ⟨q, hq, rfl⟩ := List.mem_map.1 hi
    obtain ⟨r, hr, rfl⟩ := List.mem_map.1 hj
    have hq := hd.known q hq
    have hr := hd.known r hr
    rw [cov_coord h.le hq hr, cov_coord h.le hr hq, covar_symm h hq hr]
  exact ⟨this T hT, this E hE⟩

theorem size_ok (h : Valid f) {d : Dict Col ℝ} (hd : Assigns f d) : d.length ≤ f.L + f.D := by
  rw [L_add_D h.le]
  have := (List.subperm_of_subset hd.nodup fun q hq => hd.known q hq).length_le
  simpa [Dict.keys] using this

theorem mvnCondition_ok (h : Valid f) {T E : Dict Col ℝ} (hT : Assigns f T) (hE : Assigns f E)
    (hd : ∀ q ∈ T.keys, q ∉ E.keys) :
    mvnCondition (f.L + f.D) f.mu f.cov (recoord f T).keys (recoord f E)
      = .ok (given f.mu f.cov (recoord f T).keys (recoord f E)) := by
  unfold mvnCondition
  have h1 := size_ok h (assigns_append hT hE hd)
  have h2 : ¬ f.L + f.D < (recoord f T).keys.length + (recoord f E).length := by
    have e1 : (recoord f T).keys.length = T.length := (len_recoord T).symm
    have e2 : (recoord f E).length = E.length := by simp [recoord]
    rw [List.length_append] at h1
    omega
  have h3 : ¬ (at2 f.cov (recoord f E).keys (recoord f E).keys).det = 0 := by
    have := (block_posDef h hE).det_pos
    rw [← at2_idx h hE hE, det_submatrix_equiv_self] at this
    exact this.ne'
  rw [if_neg h2, if_neg (not_not.2 (symmetric_ok h hT hE)), if_neg h3]

end Cgpm.Factor
