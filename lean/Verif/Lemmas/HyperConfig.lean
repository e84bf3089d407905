import Verif.Lemmas.HyperGrid

/-!
The distribution of `transition_hypers` on the choices from the grids, for one column and for several.
-/
namespace Cgpm.Spec.Hyper
open Cgpm Cgpm.Hyper Cgpm.Props MeasureTheory

/-- The names of the hyperparameters at the positions `js` of the grids. -/
def nameList (grids : Grids) (js : List (Fin grids.length)) : List String :=
  js.map fun j => grids[j].1

/-- The hyperparameters at the positions `js` are redrawn in turn, with weights `Φ`: the expected
value of `f` afterwards. -/
noncomputable def cfgPass {grids : Grids} (Φ : Config grids → ℝ) :
    List (Fin grids.length) → (Config grids → ℝ) → Config grids → ℝ
  | [], f => f
  | j :: js, f => fun κ => ∑ i, (Φ (Function.update κ j i) / ∑ k, Φ (Function.update κ j k))
      * cfgPass Φ js f (Function.update κ j i)

section
variable {K : Type} {A : Api K} {grids : Grids} {Adm : Hypers → Prop} {Same : K → K → Prop}
  {Told : K → Hypers → Prop} {lik : Hypers → K → ℝ} {cl0 : Dict Tab K}

theorem nameList_mem (js : List (Fin grids.length)) : ∀ n ∈ nameList grids js, n ∈ grids.keys := by
  intro n hn
  obtain ⟨j, -, rfl⟩ := List.mem_map.mp hn
  exact List.mem_map_of_mem (f := Prod.fst) (List.getElem_mem j.2)

/-- The law of a pass, on the choices. -/
theorem Good.average_config (G : Good A grids Adm Same Told lik cl0)
    (hc : ∀ c : Config grids, Adm c.hypers) (js : List (Fin grids.length)) (f : Hypers → ℝ)
    {cl : Dict Tab K} (aux : K) (hs : SameAll Same cl cl0) (κ : Config grids) :
    average js.length (fun us => f (Hyper.transitionHypers A ((nameList grids js).zip us)
        ⟨κ.hypers, grids, cl, aux⟩).state.hypers)
      = cfgPass (fun κ => Real.exp (likAll lik cl0 κ.hypers)) js (fun κ => f κ.hypers) κ := by
  induction js generalizing κ with
  | nil =>
    obtain ⟨cl', e1, -, -⟩ := G.setClusters (hc κ) hs
    obtain ⟨k, e2⟩ := G.fresh _ (hc κ)
    simp [average, nameList, Hyper.transitionHypers, Hyper.finish, e1, e2, cfgPass]
  | cons j js ih =>
    have hm : (grids[j].1, grids[j].2) ∈ grids := List.getElem_mem _
    have h := G.conditional (hc κ) hm (nameList grids js) (nameList_mem js) aux hs f
    have hset : ∀ k : Fin grids[j].2.length, κ.hypers.set grids[j].1 grids[j].2[k]
        = Config.hypers (Function.update κ j k) := fun k => Config.set_hypers G.wf κ j k
    have hl : (nameList grids js).length = js.length := List.length_map _
    rw [hl] at h
    refine h.trans ?_
    show _ = ∑ i, _
    refine Finset.sum_congr rfl fun i _ => ?_
    rw [hset, ih]
    congr 2
    exact Finset.sum_congr rfl fun k _ => by rw [hset]

/-- The outcome of a pass is a choice from the grids. -/
theorem Good.outcome (G : Good A grids Adm Same Told lik cl0)
    (hc : ∀ c : Config grids, Adm c.hypers) (js : List (Fin grids.length))
    {cl : Dict Tab K} (aux : K) (hs : SameAll Same cl cl0) (κ : Config grids) {us : List ℝ}
    (hu : ∀ u ∈ us, 0 ≤ u ∧ u < 1) (hl : us.length = js.length) :
    ∃ (κ' : Config grids) (cl' : Dict Tab K) (aux' : K),
      Hyper.transitionHypers A ((nameList grids js).zip us) ⟨κ.hypers, grids, cl, aux⟩
        = .ok ⟨κ'.hypers, grids, cl', aux'⟩ ∧ SameAll Same cl' cl0 ∧
      (∀ kc ∈ cl', Told kc.2 κ'.hypers) ∧ A.fresh κ'.hypers = .ok aux' := by
  induction js generalizing κ us cl with
  | nil =>
    obtain ⟨cl', e1, e2, e3⟩ := G.setClusters (hc κ) hs
    obtain ⟨k, e4⟩ := G.fresh _ (hc κ)
    refine ⟨κ, cl', k, ?_, e2, e3, e4⟩
    simp [nameList, Hyper.transitionHypers, Hyper.finish, e1, e4]
  | cons j js ih =>
    obtain ⟨u, us, rfl⟩ := List.exists_cons_of_length_eq_add_one hl
    have hm : (grids[j].1, grids[j].2) ∈ grids := List.getElem_mem _
    obtain ⟨p, hp, -, -, -, cl1, hcl, hd⟩ :=
      G.transitionHyper hm ⟨κ.hypers, grids, cl, aux⟩ rfl (hc κ) hs
    obtain ⟨hlt, e⟩ := hd u (hu u (by simp)).1 (hu u (by simp)).2
    have hset := Config.set_hypers G.wf κ j ⟨choiceIdx p u, hlt⟩
    obtain ⟨κ', cl', aux', f1, f2, f3, f4⟩ := ih hcl (Function.update κ j ⟨choiceIdx p u, hlt⟩)
      (us := us) (fun v hv => hu v (by simp [hv])) (by simpa using hl)
    refine ⟨κ', cl', aux', ?_, f2, f3, f4⟩
    rw [← f1, ← hset]
    simp only [nameList, List.map_cons, List.zip_cons_cons, Hyper.transitionHypers, e, Out.bind_ok]
    rfl

end

/-! ### several columns -/

section
variable {ι : Type} [DecidableEq ι] [Fintype ι] {g : ι → Grids}

/-- A choice from the grids of each of several columns. -/
abbrev Configs (g : ι → Grids) := (a : ι) → Config (g a)

/-- Another choice for one hyperparameter of column `a`. -/
def Configs.setAt (κ : Configs g) (a : ι) (j : Fin (g a).length) (i : Fin (g a)[j].2.length) :
    Configs g := Function.update κ a (Function.update (κ a) j i)

theorem Configs.setAt_setAt (κ : Configs g) (a : ι) (j : Fin (g a).length)
    (i k : Fin (g a)[j].2.length) : Configs.setAt (Configs.setAt κ a j i) a j k
      = Configs.setAt κ a j k := by
  simp [Configs.setAt]

theorem Configs.setAt_self (κ : Configs g) (a : ι) (j : Fin (g a).length) :
    Configs.setAt κ a j (κ a j) = κ := by
  simp [Configs.setAt]

theorem Configs.setAt_get (κ : Configs g) (a : ι) (j : Fin (g a).length)
    (i : Fin (g a)[j].2.length) : Configs.setAt κ a j i a j = i := by
  simp [Configs.setAt]

/-- The hyperparameters of column `a` at the positions `js` are redrawn in turn with weights `Φ`. -/
noncomputable def hyperOp (Φ : Configs g → ℝ) (a : ι) :
    List (Fin (g a).length) → (Configs g → ℝ) → Configs g → ℝ
  | [], f => f
  | j :: js, f => fun κ =>
    ∑ i, (Φ (Configs.setAt κ a j i) / ∑ k, Φ (Configs.setAt κ a j k))
      * hyperOp Φ a js f (Configs.setAt κ a j i)

theorem cfgPass_hyperOp {Φ : Configs g → ℝ} {a : ι} (κ : Configs g) {φ : Config (g a) → ℝ} {R : ℝ}
    (hR : R ≠ 0) (h : ∀ k, Φ (Function.update κ a k) = R * φ k) (js : List (Fin (g a).length))
    (f : Configs g → ℝ) (k : Config (g a)) :
    cfgPass φ js (fun k => f (Function.update κ a k)) k
      = hyperOp Φ a js f (Function.update κ a k) := by
  induction js generalizing k with
  | nil => rfl
  | cons j js ih =>
    have hs : ∀ i, Configs.setAt (Function.update κ a k) a j i
        = Function.update κ a (Function.update k j i) := fun i => by simp [Configs.setAt]
    simp only [cfgPass, hyperOp, ih, hs, h]
    refine Finset.sum_congr rfl fun i _ => ?_
    rw [← Finset.mul_sum, mul_div_mul_left _ _ hR]

theorem hyperOp_lin (Φ : Configs g → ℝ) (a : ι) (js : List (Fin (g a).length)) (f f' : Configs g → ℝ)
    (x y : ℝ) (κ : Configs g) : hyperOp Φ a js (fun κ => x * f κ + y * f' κ) κ
      = x * hyperOp Φ a js f κ + y * hyperOp Φ a js f' κ := by
  induction js generalizing κ with
  | nil => rfl
  | cons j js ih =>
    simp only [hyperOp, ih]
    rw [Finset.mul_sum, Finset.mul_sum, ← Finset.sum_add_distrib]
    exact Finset.sum_congr rfl fun i _ => by ring

variable {Φ : Configs g → ℝ} (hΦ : ∀ κ, 0 < Φ κ)

include hΦ in
theorem setAt_sum_pos (κ : Configs g) (a : ι) (j : Fin (g a).length) :
    0 < ∑ k, Φ (Configs.setAt κ a j k) :=
  Finset.sum_pos (fun _ _ => hΦ _) ⟨κ a j, Finset.mem_univ _⟩

include hΦ in
theorem hyperOp_const (a : ι) (js : List (Fin (g a).length)) (c : ℝ) (κ : Configs g) :
    hyperOp Φ a js (fun _ => c) κ = c := by
  induction js generalizing κ with
  | nil => rfl
  | cons j js ih =>
    simp only [hyperOp, ih]
    rw [← Finset.sum_mul, ← Finset.sum_div, div_self (setAt_sum_pos hΦ κ a j).ne', one_mul]

include hΦ in
theorem hyperOp_nonneg (a : ι) (js : List (Fin (g a).length)) {f : Configs g → ℝ} (hf : ∀ κ, 0 ≤ f κ)
    (κ : Configs g) : 0 ≤ hyperOp Φ a js f κ := by
  induction js generalizing κ with
  | nil => exact hf κ
  | cons j js ih =>
    exact Finset.sum_nonneg fun i _ => mul_nonneg
      (div_nonneg (hΦ _).le (setAt_sum_pos hΦ κ a j).le) (ih _)

include hΦ in
theorem hyperOp_inv (a : ι) (js : List (Fin (g a).length)) (f : Configs g → ℝ) :
    ∑ κ, Φ κ * hyperOp Φ a js f κ = ∑ κ, Φ κ * f κ := by
  induction js with
  | nil => rfl
  | cons j js ih =>
    rw [← ih]
    set F := hyperOp Φ a js f with hF
    set Z : Configs g → ℝ := fun κ => ∑ k, Φ (Configs.setAt κ a j k) with hZ
    have hZu : ∀ κ i, Z (Configs.setAt κ a j i) = Z κ := fun κ i => by
      simp only [hZ, Configs.setAt_setAt]
    have swap : ∀ T : Configs g → Configs g → ℝ,
        ∑ κ, ∑ i, T κ (Configs.setAt κ a j i) = ∑ κ, ∑ i, T (Configs.setAt κ a j i) κ := by
      intro T
      rw [← Fintype.sum_prod_type', ← Fintype.sum_prod_type']
      let e : (Configs g × Fin (g a)[j].2.length) ≃ (Configs g × Fin (g a)[j].2.length) :=
        { toFun := fun p => (Configs.setAt p.1 a j p.2, p.1 a j)
          invFun := fun p => (Configs.setAt p.1 a j p.2, p.1 a j)
          left_inv := fun p => by
            simp only [Configs.setAt_setAt, Configs.setAt_self, Configs.setAt_get]
          right_inv := fun p => by
            simp only [Configs.setAt_setAt, Configs.setAt_self, Configs.setAt_get] }
      rw [← Equiv.sum_comp e]
      refine Finset.sum_congr rfl fun p _ => ?_
      show T (Configs.setAt p.1 a j p.2) (Configs.setAt (Configs.setAt p.1 a j p.2) a j (p.1 a j))
        = T (Configs.setAt p.1 a j p.2) p.1
      rw [Configs.setAt_setAt, Configs.setAt_self]
    have h1 : ∀ κ, Φ κ * hyperOp Φ a (j :: js) f κ
        = ∑ i, (fun x y => Φ x * Φ y / Z y * F y) κ (Configs.setAt κ a j i) := by
      intro κ
      simp only [hyperOp]
      rw [Finset.mul_sum]
      refine Finset.sum_congr rfl fun i _ => ?_
      simp only [hZu]
      ring
    rw [Finset.sum_congr rfl fun κ _ => h1 κ]
    refine (swap fun x y => Φ x * Φ y / Z y * F y).trans ?_
    refine Finset.sum_congr rfl fun κ _ => ?_
    rw [← Finset.sum_mul, ← Finset.sum_div, ← Finset.sum_mul]
    change Z κ * Φ κ / Z κ * F κ = Φ κ * F κ
    rw [mul_div_assoc, mul_div_cancel₀ _ (setAt_sum_pos hΦ κ a j).ne']

include hΦ in
/-- A single step reaches every value. -/
theorem exists_setAt_lower : ∃ ε : ℝ, 0 < ε ∧ ε ≤ 1 ∧ ∀ (κ : Configs g) (a : ι)
    (j : Fin (g a).length) (i : Fin (g a)[j].2.length),
      ε ≤ Φ (Configs.setAt κ a j i) / ∑ k, Φ (Configs.setAt κ a j k) := by
  classical
  by_cases hne : Nonempty (Configs g)
  · obtain ⟨κ0⟩ := hne
    obtain ⟨m, -, hm⟩ := Finset.exists_min_image Finset.univ Φ ⟨κ0, Finset.mem_univ _⟩
    have hTot : 0 < ∑ κ, Φ κ := Finset.sum_pos (fun _ _ => hΦ _) ⟨κ0, Finset.mem_univ _⟩
    refine ⟨Φ m / ∑ κ, Φ κ, div_pos (hΦ m) hTot, ?_, fun κ a j i => ?_⟩
    · rw [div_le_one hTot]
      exact Finset.single_le_sum (fun κ _ => (hΦ κ).le) (Finset.mem_univ m)
    · refine div_le_div₀ (hΦ _).le (hm _ (Finset.mem_univ _)) (setAt_sum_pos hΦ κ a j) ?_
      have hinj : Function.Injective fun i => Configs.setAt κ a j i := fun i k h => by
        have := congrArg (fun κ : Configs g => κ a j) h
        simpa only [Configs.setAt_get] using this
      rw [← Finset.sum_image (f := Φ) (g := fun k => Configs.setAt κ a j k)
        (s := Finset.univ) (fun x _ y _ h => hinj h)]
      exact Finset.sum_le_sum_of_subset_of_nonneg (Finset.subset_univ _) fun κ _ _ => (hΦ κ).le
  · exact ⟨1, one_pos, le_rfl, fun κ => absurd ⟨κ⟩ hne⟩

/-- The choice `κ` with the hyperparameters of column `a` at the positions `js` taken from `τ`. -/
def Configs.mix (κ τ : Configs g) (a : ι) (js : List (Fin (g a).length)) : Configs g :=
  Function.update κ a fun j => if j ∈ js then τ a j else κ a j

include hΦ in
theorem hyperOp_reaches {ε : ℝ} (h0 : 0 < ε) (hε : ∀ (κ : Configs g) (a : ι)
    (j : Fin (g a).length) (i : Fin (g a)[j].2.length),
      ε ≤ Φ (Configs.setAt κ a j i) / ∑ k, Φ (Configs.setAt κ a j k)) (a : ι)
    (js : List (Fin (g a).length)) (κ τ : Configs g) {f : Configs g → ℝ} (hf : ∀ κ, 0 ≤ f κ) :
    ε ^ js.length * f (κ.mix τ a js) ≤ hyperOp Φ a js f κ := by
  induction js generalizing κ with
  | nil =>
    have : κ.mix τ a [] = κ := by
      unfold Configs.mix
      simp
    rw [this]; simp [hyperOp]
  | cons j js ih =>
    have hmix : (Configs.setAt κ a j (τ a j)).mix τ a js = κ.mix τ a (j :: js) := by
      unfold Configs.mix Configs.setAt
      rw [Function.update_idem]
      congr 1
      funext k
      by_cases hk : k ∈ js
      · simp [hk]
      · by_cases hkj : k = j
        · subst hkj; simp [hk]
        · simp [hk, hkj]
    have h1 := ih (Configs.setAt κ a j (τ a j))
    rw [hmix] at h1
    have h2 : (Φ (Configs.setAt κ a j (τ a j)) / ∑ k, Φ (Configs.setAt κ a j k))
        * hyperOp Φ a js f (Configs.setAt κ a j (τ a j)) ≤ hyperOp Φ a (j :: js) f κ :=
      Finset.single_le_sum (f := fun i => (Φ (Configs.setAt κ a j i) / ∑ k, Φ (Configs.setAt κ a j k))
        * hyperOp Φ a js f (Configs.setAt κ a j i)) (fun i _ => mul_nonneg
        (div_nonneg (hΦ _).le (setAt_sum_pos hΦ κ a j).le) (hyperOp_nonneg hΦ a js hf _))
        (Finset.mem_univ _)
    refine le_trans ?_ h2
    rw [List.length_cons, pow_succ', mul_assoc]
    refine mul_le_mul (hε κ a j (τ a j)) h1 ?_ ((h0.le).trans (hε κ a j (τ a j)))
    exact mul_nonneg (pow_pos h0 _).le (hf _)

end

end Cgpm.Spec.Hyper
