import Verif.Lemmas.LinRegEvidence
import Verif.Props.Standalone

/-! The queries of a linear regression in terms of the evidence. -/
namespace Cgpm.Spec.LinReg
open Cgpm Cgpm.LinReg Matrix MeasureTheory

/-! ### The rows -/

theorem aligned_run {X O : Type} (prep : O → Except Exn (X × List (Option ℝ)))
    (ops : List (RowOp O)) :
    (runRows (fun (s : RegRows X) r o => s.incorporate r (prep o)) RegRows.unincorporate
      .empty ops).x.keys = (runRows (fun (s : RegRows X) r o => s.incorporate r (prep o))
        RegRows.unincorporate .empty ops).Y.keys := by
  induction ops using List.reverseRecOn with
  | nil => rfl
  | append_singleton ops op ih =>
    rw [Props.runRows_snoc]
    generalize runRows _ _ _ ops = s at *
    cases op with
    | inc r o =>
      simp only [RegRows.incorporate]
      split
      · exact ih
      · split
        · exact ih
        · split
          · exact ih
          · simp only [Out.state, Dict.keys_set, ih]
    | unc r =>
      simp only [RegRows.unincorporate]
      split
      · split
        · simp only [Out.state, Dict.keys_erase, ih]
        · rename_i h1 h2
          exfalso
          apply h2
          rw [Dict.has_iff, ← ih, ← Dict.has_iff]
          exact h1
      · exact ih

theorem isVec_inj {p : Nat} {l : List (Option ℝ)} {v v' : Fin p → ℝ} (h : IsVec l v)
    (h' : IsVec l v') : v = v' := by
  unfold IsVec at h h'
  rw [h] at h'
  have := List.ofFn_injective h'
  funext j
  have := congrFun this j
  exact Option.some.inj this

theorem vals_eq_map {K V : Type} [DecidableEq K] {d : Dict K V} (hd : d.WF) (f : K → V)
    (h : ∀ k ∈ d.keys, d.get? k = some (f k)) : d.vals = d.keys.map f := by
  unfold Dict.vals Dict.keys
  rw [List.map_map]
  refine List.map_congr_left fun q hq => ?_
  have h1 := Dict.get?_of_mem hd hq
  have h2 := h q.1 (List.mem_map_of_mem hq)
  rw [h1] at h2
  exact Option.some.inj h2

open Classical in
/-- The rows of the object are the rows of the table, in some order. -/
theorem rows_of_table {p : Nat} {s : RegRows ℝ} {m : Row → Option (ℝ × List (Option ℝ))}
    {R : List (ℝ × (Fin p → ℝ))} (hs : Props.RegInv s m) (ha : s.x.keys = s.Y.keys)
    (hR : Lists m R) :
    ∃ R' : List (ℝ × (Fin p → ℝ)), R'.Perm R ∧ s.x.vals = R'.map Prod.fst ∧
      s.Y.vals = R'.map (fun q => List.ofFn fun j => some (q.2 j)) ∧ s.N = (R'.length : ℤ) := by
  obtain ⟨rs, h1, h2, h3⟩ := hR
  have hex : ∀ r, ∃ q : ℝ × (Fin p → ℝ), (∃ q' : ℝ × (Fin p → ℝ), ∃ l, m r = some (q'.1, l) ∧
      IsVec l q'.2) → ∃ l, m r = some (q.1, l) ∧ IsVec l q.2 := by
    intro r
    by_cases h : ∃ q' : ℝ × (Fin p → ℝ), ∃ l, m r = some (q'.1, l) ∧ IsVec l q'.2
    · obtain ⟨q, hq⟩ := h
      exact ⟨q, fun _ => hq⟩
    · exact ⟨(0, 0), fun h' => absurd h' h⟩
  choose F hF using hex
  have hFq : ∀ r (q : ℝ × (Fin p → ℝ)), (∃ l, m r = some (q.1, l) ∧ IsVec l q.2) → F r = q := by
    intro r q hq
    obtain ⟨l, hl, hv⟩ := hq
    obtain ⟨l', hl', hv'⟩ := hF r ⟨q, l, hl, hv⟩
    rw [hl] at hl'
    simp only [Option.some.injEq, Prod.mk.injEq] at hl'
    obtain ⟨e1, e2⟩ := hl'
    subst e2
    exact Prod.ext e1.symm (isVec_inj hv' hv)
  have hR' : R = rs.map F := by
    clear h1 h2
    induction h3 with
    | nil => rfl
    | cons hq _ ih => rw [List.map_cons, hFq _ _ hq, ← ih]
  have hperm : s.x.keys.Perm rs := by
    refine (List.perm_ext_iff_of_nodup hs.wx h1).mpr fun r => ?_
    rw [h2, ← Dict.has_iff, (Props.reg_has hs r).1]
  have hFm : ∀ r ∈ s.x.keys, ∃ l, m r = some ((F r).1, l) ∧ IsVec l (F r).2 := by
    intro r hr
    have hr' : r ∈ rs := hperm.mem_iff.mp hr
    obtain ⟨q, hq, hl⟩ : ∃ q ∈ R, ∃ l, m r = some (q.1, l) ∧ IsVec l q.2 := by
      clear hR' hperm h1 h2 hr
      induction h3 with
      | nil => simp at hr'
      | cons hq _ ih =>
        rcases List.mem_cons.mp hr' with rfl | h
        · exact ⟨_, List.mem_cons_self, hq⟩
        · obtain ⟨q, hq, hl⟩ := ih h
          exact ⟨q, List.mem_cons_of_mem _ hq, hl⟩
    exact hF r ⟨q, hl⟩
  refine ⟨s.x.keys.map F, hR' ▸ hperm.map F, ?_, ?_, ?_⟩
  · rw [List.map_map]
    refine vals_eq_map hs.wx _ fun r hr => ?_
    obtain ⟨l, hl, -⟩ := hFm r hr
    rw [(hs.holds r).1, hl]; rfl
  · rw [ha, List.map_map]
    refine vals_eq_map hs.wy _ fun r hr => ?_
    obtain ⟨l, hl, hv⟩ := hFm r (ha ▸ hr)
    rw [(hs.holds r).2, hl]
    simp only [Option.map_some, Function.comp_apply]
    rw [hv]
  · rw [hs.size, List.length_map]
    simp [Dict.keys]

/-! ### The posterior parameters -/

variable {p : Nat} {h : Hyp p}

/-- A list of rows as the lists that `np.asarray` is applied to. -/
noncomputable def covLists (R : List (ℝ × (Fin p → ℝ))) : List (List (Option ℝ)) :=
  R.map fun q => List.ofFn fun j => some (q.2 j)

theorem covLists_length (R : List (ℝ × (Fin p → ℝ))) : (covLists R).length = R.length := by
  simp [covLists]

theorem asMatrix_eq (R : List (ℝ × (Fin p → ℝ))) :
    asMatrix p (covLists R)
      = (covs R).submatrix (finCongr (covLists_length R)) (Equiv.refl _) := by
  ext i j
  have hi : i.val < R.length := lt_of_lt_of_eq i.isLt (covLists_length R)
  show (((covLists R)[i.val]).getD j none).getD 0 = (R[i.val]'hi).2 j
  simp [covLists]

theorem asVector_eq (R : List (ℝ × (Fin p → ℝ))) :
    asVector (covLists R).length (R.map Prod.fst) = ys R ∘ finCongr (covLists_length R) := by
  funext i
  have hi : i.val < R.length := lt_of_lt_of_eq i.isLt (covLists_length R)
  simp [asVector, ys, hi]

theorem gram_eq (R : List (ℝ × (Fin p → ℝ))) :
    (asMatrix p (covLists R))ᵀ * asMatrix p (covLists R) = (covs R)ᵀ * covs R := by
  rw [asMatrix_eq, Matrix.transpose_submatrix, Matrix.submatrix_mul_equiv]
  rfl

theorem cross_eq (R : List (ℝ × (Fin p → ℝ))) :
    (asMatrix p (covLists R))ᵀ *ᵥ asVector (covLists R).length (R.map Prod.fst)
      = (covs R)ᵀ *ᵥ ys R := by
  rw [asMatrix_eq, asVector_eq, Matrix.transpose_submatrix, Matrix.submatrix_mulVec_equiv]
  rw [Function.comp_assoc, Equiv.self_comp_symm]
  rfl

theorem square_eq (R : List (ℝ × (Fin p → ℝ))) :
    asVector (covLists R).length (R.map Prod.fst) ⬝ᵥ asVector (covLists R).length (R.map Prod.fst)
      = ys R ⬝ᵥ ys R := by
  rw [asVector_eq]
  exact Equiv.sum_comp (finCongr (covLists_length R)) fun i => ys R i * ys R i

theorem inv_posDef {A : Matrix (Fin p) (Fin p) ℝ} (hA : A.PosDef) : LinReg.inv A = .ok A⁻¹ := by
  unfold LinReg.inv
  rw [if_neg hA.det_pos.ne']

theorem postPrec_nil : postPrec h [] = h.V⁻¹ := by
  unfold postPrec
  have : (covs ([] : List (ℝ × (Fin p → ℝ))))ᵀ * covs ([] : List (ℝ × (Fin p → ℝ))) = 0 := by
    ext i j
    rw [Matrix.mul_apply]
    exact Finset.sum_of_isEmpty (ι := Fin 0) _
  rw [this, add_zero]

theorem postMean_nil (hv : ValidHyp h) : postMean h [] = h.mu := by
  unfold postMean
  rw [postPrec_nil]
  have : (covs ([] : List (ℝ × (Fin p → ℝ))))ᵀ *ᵥ ys [] = 0 := by
    ext i
    show (∑ k : Fin 0, (covs ([] : List (ℝ × (Fin p → ℝ))))ᵀ i k * ys (p := p) [] k) = 0
    exact Finset.sum_of_isEmpty _
  rw [this, add_zero, Matrix.mulVec_mulVec, Matrix.nonsing_inv_mul, Matrix.one_mulVec]
  exact isUnit_iff_ne_zero.mpr hv.V.inv.det_pos.ne'

theorem postRate_nil (hv : ValidHyp h) : postRate h [] = h.b := by
  unfold postRate
  rw [postPrec_nil, postMean_nil hv]
  have : ys ([] : List (ℝ × (Fin p → ℝ))) ⬝ᵥ ys [] = 0 :=
    Finset.sum_of_isEmpty (ι := Fin 0) _
  rw [this]
  ring

/-- `posterior_hypers` on rows without missing covariates. -/
theorem posteriorHypers_rows (hv : ValidHyp h) (R : List (ℝ × (Fin p → ℝ))) :
    posteriorHypers (R.length : ℤ) (covLists R) (R.map Prod.fst) h
      = .ok (some ⟨h.a + R.length / 2, postRate h R, postMean h R, postPrec h R⟩) := by
  unfold posteriorHypers
  by_cases h0 : R = []
  · subst h0
    simp [covLists, inv_posDef hv.V, postPrec_nil, postMean_nil hv, postRate_nil hv]
  · have hl : (R.length : ℤ) ≠ 0 := by
      simpa using h0
    rw [if_neg hl, if_neg (by
      rw [not_not]
      refine ⟨by rw [covLists_length], fun y hy => ?_⟩
      unfold covLists at hy
      obtain ⟨q, -, rfl⟩ := List.mem_map.mp hy
      simp), if_neg (by simp), inv_posDef hv.V]
    have hn : ((covLists R).any fun y => y.any Option.isNone) = false := by
      simp [covLists, List.any_eq_false]
    have hd : LinReg.inv (h.V⁻¹ + (covs R)ᵀ * covs R) = .ok (postPrec h R)⁻¹ :=
      inv_posDef (postPrec_posDef hv R)
    simp only [hn, Bool.false_eq_true, if_false, gram_eq, cross_eq, square_eq, hd]
    rfl

theorem predictive_rows (hv : ValidHyp h) (R : List (ℝ × (Fin p → ℝ))) (x : ℝ) (v : Fin p → ℝ) :
    calcPredictiveLogp (some x) (List.ofFn fun j => some (v j)) (R.length : ℤ) (covLists R)
      (R.map Prod.fst) h = .ok (some (logEv h (R ++ [(x, v)]) - logEv h R)) := by
  unfold calcPredictiveLogp
  rw [posteriorHypers_rows hv R]
  have e1 : covLists R ++ [List.ofFn fun j => some (v j)] = covLists (R ++ [(x, v)]) := by
    simp [covLists]
  have e2 : R.map Prod.fst ++ [x] = (R ++ [(x, v)]).map Prod.fst := by simp
  have e3 : (R.length : ℤ) + 1 = ((R ++ [(x, v)]).length : ℤ) := by simp
  simp only [e1, e2, e3, posteriorHypers_rows hv]
  simp only [logEv]
  congr 2
  simp only [List.length_append, List.length_cons, List.length_nil, Nat.cast_add, Nat.cast_one]
  ring

theorem marginal_rows (hv : ValidHyp h) (R : List (ℝ × (Fin p → ℝ))) :
    calcLogpdfMarginal (R.length : ℤ) (covLists R) (R.map Prod.fst) h
      = .ok (some (logEv h R)) := by
  unfold calcLogpdfMarginal
  rw [posteriorHypers_rows hv R, inv_posDef hv.V]
  simp only [logEv]
  congr 2

end Cgpm.Spec.LinReg
