import Verif.Lemmas.Saved

/-! Linear regressions that hold the same rows in another order answer alike. -/
namespace Cgpm.SavedRows
open Cgpm Cgpm.Spec Matrix

theorem sum_rows {A B : Type} (d : A) (g : B → A → ℝ) (l : List (A × B)) :
    ∑ i : Fin (l.map Prod.snd).length, g (l.map Prod.snd)[i] ((l.map Prod.fst).getD i d)
      = (l.map fun e => g e.2 e.1).sum := by
  induction l with
  | nil => exact Fin.sum_univ_zero _
  | cons e l ih =>
    have := Fin.sum_univ_succ (n := (l.map Prod.snd).length)
      fun i => g ((e :: l).map Prod.snd)[i.val] (((e :: l).map Prod.fst).getD i d)
    refine Eq.trans this ?_
    have h2 : ((e :: l).map fun e => g e.2 e.1).sum = g e.2 e.1 + (l.map fun e => g e.2 e.1).sum :=
      List.sum_cons
    rw [h2, ← ih]
    rfl

variable {p : Nat}

theorem gram_perm {l l' : List (ℝ × List (Option ℝ))} (h : l.Perm l') :
    (LinReg.asMatrix p (l.map Prod.snd))ᵀ * LinReg.asMatrix p (l.map Prod.snd)
      = (LinReg.asMatrix p (l'.map Prod.snd))ᵀ * LinReg.asMatrix p (l'.map Prod.snd) := by
  ext i j
  rw [Matrix.mul_apply, Matrix.mul_apply]
  have := fun m : List (ℝ × List (Option ℝ)) => sum_rows (0 : ℝ)
    (fun (y : List (Option ℝ)) _ => (y.getD i none).getD 0 * (y.getD j none).getD 0) m
  exact (this l).trans (((h.map _).sum_eq).trans (this l').symm)

theorem cross_perm {l l' : List (ℝ × List (Option ℝ))} (h : l.Perm l') :
    (LinReg.asMatrix p (l.map Prod.snd))ᵀ *ᵥ LinReg.asVector (l.map Prod.snd).length (l.map Prod.fst)
      = (LinReg.asMatrix p (l'.map Prod.snd))ᵀ *ᵥ
          LinReg.asVector (l'.map Prod.snd).length (l'.map Prod.fst) := by
  ext i
  have := fun m : List (ℝ × List (Option ℝ)) => sum_rows (0 : ℝ)
    (fun (y : List (Option ℝ)) x => (y.getD i none).getD 0 * x) m
  exact (this l).trans (((h.map _).sum_eq).trans (this l').symm)

theorem square_perm {l l' : List (ℝ × List (Option ℝ))} (h : l.Perm l') :
    LinReg.asVector (l.map Prod.snd).length (l.map Prod.fst) ⬝ᵥ
        LinReg.asVector (l.map Prod.snd).length (l.map Prod.fst)
      = LinReg.asVector (l'.map Prod.snd).length (l'.map Prod.fst) ⬝ᵥ
        LinReg.asVector (l'.map Prod.snd).length (l'.map Prod.fst) := by
  have := fun m : List (ℝ × List (Option ℝ)) => sum_rows (0 : ℝ)
    (fun (_ : List (Option ℝ)) x => x * x) m
  exact (this l).trans (((h.map _).sum_eq).trans (this l').symm)

theorem posteriorHypers_perm {l l' : List (ℝ × List (Option ℝ))} (h : l.Perm l') (N : ℤ)
    (hyp : LinReg.Hyp p) :
    LinReg.posteriorHypers N (l.map Prod.snd) (l.map Prod.fst) hyp
      = LinReg.posteriorHypers N (l'.map Prod.snd) (l'.map Prod.fst) hyp := by
  have hl : l.length = l'.length := h.length_eq
  have hmem : (∀ y ∈ l.map Prod.snd, y.length = p) ↔ ∀ y ∈ l'.map Prod.snd, y.length = p := by
    refine forall_congr' fun y => ?_
    rw [(h.map Prod.snd).mem_iff]
  have hany : ((l.map Prod.snd).any fun y => y.any Option.isNone)
      = (l'.map Prod.snd).any fun y => y.any Option.isNone := by
    rw [Bool.eq_iff_iff, List.any_eq_true, List.any_eq_true]
    refine exists_congr fun y => ?_
    rw [(h.map Prod.snd).mem_iff]
  unfold LinReg.posteriorHypers
  simp only [gram_perm h, cross_perm h, square_perm h, hany, hmem, List.length_map, hl]

theorem predictive_perm {l l' : List (ℝ × List (Option ℝ))} (h : l.Perm l') (xs : Option ℝ)
    (ys : List (Option ℝ)) (N : ℤ) (hyp : LinReg.Hyp p) :
    LinReg.calcPredictiveLogp xs ys N (l.map Prod.snd) (l.map Prod.fst) hyp
      = LinReg.calcPredictiveLogp xs ys N (l'.map Prod.snd) (l'.map Prod.fst) hyp := by
  unfold LinReg.calcPredictiveLogp
  rw [posteriorHypers_perm h]
  cases xs with
  | none => rfl
  | some x =>
    have := posteriorHypers_perm (h.append_right [(x, ys)]) (N + 1) hyp
    rw [List.map_append, List.map_append, List.map_append, List.map_append] at this
    simp only [List.map_cons, List.map_nil] at this
    simp only [this]

theorem marginal_perm {l l' : List (ℝ × List (Option ℝ))} (h : l.Perm l') (N : ℤ) (hyp : LinReg.Hyp p) :
    LinReg.calcLogpdfMarginal N (l.map Prod.snd) (l.map Prod.fst) hyp
      = LinReg.calcLogpdfMarginal N (l'.map Prod.snd) (l'.map Prod.fst) hyp := by
  unfold LinReg.calcLogpdfMarginal
  rw [posteriorHypers_perm h]

/-- The values and the covariates of objects with the same rows. -/
theorem same_vals {X : Type} {s t : RegRows X} (h : SameRows s t) :
    ∃ l l' : List (X × List (Option ℝ)), l.Perm l' ∧ s.x.vals = l.map Prod.fst ∧
      s.Y.vals = l.map Prod.snd ∧ t.x.vals = l'.map Prod.fst ∧ t.Y.vals = l'.map Prod.snd := by
  obtain ⟨-, l, l', hp, e1, e2, e3, e4⟩ := h
  refine ⟨l.map Prod.snd, l'.map Prod.snd, hp.map _, ?_⟩
  unfold Dict.vals
  simp [e1, e2, e3, e4, List.map_map, Function.comp_def]

variable {o : LinReg.Obj} {t : RegRows ℝ}

theorem linreg_logpdf_same (h : SameRows o.rows t) (rowid : Option Row) (targets constraints : Vals)
    (inputs : Option Vals) :
    LinReg.Obj.logpdf { o with rows := t } rowid targets constraints inputs
      = o.logpdf rowid targets constraints inputs := by
  have hh : rowid.any t.x.has = rowid.any o.rows.x.has := by
    cases rowid with
    | none => rfl
    | some r => exact (perm_has (same_x h) r).symm
  obtain ⟨l, l', hp, e1, e2, e3, e4⟩ := same_vals h
  unfold LinReg.Obj.logpdf
  simp only [hh, e1, e2, e3, e4, ← h.1]
  cases LinReg.preprocess o.g targets inputs with
  | error e => rfl
  | ok q => simp only [predictive_perm hp]

theorem linreg_score_same (h : SameRows o.rows t) :
    LinReg.Obj.logpdfScore { o with rows := t } = o.logpdfScore := by
  obtain ⟨l, l', hp, e1, e2, e3, e4⟩ := same_vals h
  unfold LinReg.Obj.logpdfScore
  simp only [e1, e2, e3, e4, ← h.1, marginal_perm hp]

theorem linreg_params_same (h : SameRows o.rows t) (rng : LinReg.Obj.Rng) :
    LinReg.Obj.simulateParams { o with rows := t } rng = o.simulateParams rng := by
  obtain ⟨l, l', hp, e1, e2, e3, e4⟩ := same_vals h
  unfold LinReg.Obj.simulateParams
  simp only [e1, e2, e3, e4, ← h.1, posteriorHypers_perm hp]
  rcases LinReg.posteriorHypers o.rows.N (l'.map Prod.snd) (l'.map Prod.fst) o.hyp with e | (_ | n)
  · rfl
  · rfl
  · dsimp only
    cases LinReg.inv n.Vinv <;> rfl

theorem linreg_simulate_same (h : SameRows o.rows t) (ha : Aligned o.rows) (rng : LinReg.Obj.Rng)
    (rowid : Option Row) (targets : List Col) (constraints : Vals) (inputs : Option Vals) :
    LinReg.Obj.simulate { o with rows := t } rng rowid targets constraints inputs
      = o.simulate rng rowid targets constraints inputs := by
  have hg : rowid.bind t.x.get? = rowid.bind o.rows.x.get? := by
    cases rowid with
    | none => rfl
    | some r => exact (same_get h ha r).symm
  unfold LinReg.Obj.simulate
  rw [linreg_params_same h]
  simp only [hg]
  split_ifs
  · rfl
  · rfl
  · cases rowid.bind o.rows.x.get? with
    | some x => rfl
    | none =>
      rcases LinReg.preprocess o.g [] inputs with e | ⟨x, y⟩
      · rfl
      · rcases o.simulateParams rng with e | (_ | ⟨a, b⟩) <;> rfl

/-! ### Histories -/

theorem linreg_apply_same (h : SameRows o.rows t) (ha : Aligned o.rows) (op : LinReg.Obj.Op) :
    ∃ t', (LinReg.Obj.apply { o with rows := t } op).state = { (o.apply op).state with rows := t' } ∧
      SameRows (o.apply op).state.rows t' ∧ Aligned (o.apply op).state.rows ∧
      (LinReg.Obj.apply { o with rows := t } op).exn = (o.apply op).exn := by
  cases op with
  | inc r obs ins =>
    obtain ⟨h1, h2⟩ := same_inc h r (LinReg.prep o.g obs ins)
    have hs : ∀ o : LinReg.Obj, (o.apply (.inc r obs ins)).state
        = { o with rows := (o.rows.incorporate r (LinReg.prep o.g obs ins)).state } :=
      fun o => out_map_state _ _
    have he : ∀ o : LinReg.Obj, (o.apply (.inc r obs ins)).exn
        = (o.rows.incorporate r (LinReg.prep o.g obs ins)).exn := fun o => out_map_exn _ _
    rw [hs, hs, he, he]
    exact ⟨_, rfl, h1, aligned_inc ha _ _, h2.symm⟩
  | unc r =>
    obtain ⟨h1, h2⟩ := same_unc h ha r
    have hs : ∀ o : LinReg.Obj, (o.apply (.unc r)).state
        = { o with rows := (o.rows.unincorporate r).state } := fun o => out_map_state _ _
    have he : ∀ o : LinReg.Obj, (o.apply (.unc r)).exn = (o.rows.unincorporate r).exn :=
      fun o => out_map_exn _ _
    rw [hs, hs, he, he]
    exact ⟨_, rfl, h1, aligned_unc ha _, h2.symm⟩
  | hyp a b =>
    have hs : ∀ o : LinReg.Obj, o.apply (.hyp a b) = if ¬ 0 < a then .err .assertion o
        else if ¬ 0 < b then .err .assertion o else .ok { o with hyp := { o.hyp with a, b } } :=
      fun _ => rfl
    rw [hs, hs]
    by_cases h1 : 0 < a
    · by_cases h2 : 0 < b
      · rw [if_neg (not_not.mpr h1), if_neg (not_not.mpr h2), if_neg (not_not.mpr h1),
          if_neg (not_not.mpr h2)]
        exact ⟨t, rfl, h, ha, rfl⟩
      · rw [if_neg (not_not.mpr h1), if_pos h2, if_neg (not_not.mpr h1), if_pos h2]
        exact ⟨t, rfl, h, ha, rfl⟩
    · rw [if_pos h1, if_pos h1]
      exact ⟨t, rfl, h, ha, rfl⟩

theorem linreg_run_same (h : SameRows o.rows t) (ha : Aligned o.rows) (ops : List LinReg.Obj.Op) :
    ∃ t', LinReg.Obj.run { o with rows := t } ops = { o.run ops with rows := t' } ∧
      SameRows (o.run ops).rows t' ∧ Aligned (o.run ops).rows := by
  induction ops generalizing o t with
  | nil => exact ⟨t, rfl, h, ha⟩
  | cons op ops ih =>
    obtain ⟨t', h1, h2, h3, -⟩ := linreg_apply_same h ha op
    obtain ⟨t'', h4, h5, h6⟩ := ih h2 h3
    refine ⟨t'', ?_, h5, h6⟩
    show LinReg.Obj.run (LinReg.Obj.apply { o with rows := t } op).state ops = _
    rw [h1]
    exact h4

/-- What a history keeps: the schema, and the prior mean and scale. -/
theorem linreg_run_frame (ops : List LinReg.Obj.Op) (ha : Aligned o.rows) :
    ∃ rows a b, o.run ops = ⟨o.g, rows, { o.hyp with a, b }⟩ ∧ Aligned rows := by
  induction ops using List.reverseRecOn with
  | nil => exact ⟨_, _, _, rfl, ha⟩
  | append_singleton ops op ih =>
    obtain ⟨rows, a, b, h1, h2⟩ := ih
    have hr : o.run (ops ++ [op]) = ((o.run ops).apply op).state := by
      unfold LinReg.Obj.run
      rw [List.foldl_append]
      rfl
    rw [hr, h1]
    cases op with
    | inc r obs ins =>
      simp only [LinReg.Obj.apply, LinReg.Obj.incorporate, out_map_state]
      exact ⟨_, a, b, rfl, aligned_inc h2 _ _⟩
    | unc r =>
      simp only [LinReg.Obj.apply, LinReg.Obj.unincorporate, out_map_state]
      exact ⟨_, a, b, rfl, aligned_unc h2 _⟩
    | hyp a' b' =>
      simp only [LinReg.Obj.apply, LinReg.Obj.setHypers]
      split
      · exact ⟨_, a, b, rfl, h2⟩
      · split
        · exact ⟨_, a, b, rfl, h2⟩
        · exact ⟨_, a', b', rfl, h2⟩

end Cgpm.SavedRows
