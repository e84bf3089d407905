import Verif.Lemmas.HyperGibbs
import Verif.Lemmas.Dict

/-!
The loops of `transition_hypers`, for any kind of component.
-/
namespace Cgpm.Spec.Hyper
open Cgpm Cgpm.Hyper Cgpm.Props MeasureTheory

variable {K : Type}

/-- What the loops need from the components: `Adm h` says that the hyperparameters `h` are
admissible, `Same c c0` that two components hold the same data, `Told c h` that `c` uses `h`, and
`lik h c0` is the score of the data of `c0` under `h`. -/
structure Good (A : Api K) (grids : Grids) (Adm : Hypers → Prop) (Same : K → K → Prop)
    (Told : K → Hypers → Prop) (lik : Hypers → K → ℝ) (cl0 : Dict Tab K) : Prop where
  wf : grids.WF
  refl : ∀ kc ∈ cl0, Same kc.2 kc.2
  set : ∀ h, Adm h → ∀ kc ∈ cl0, ∀ c, Same c kc.2 → ∃ c', A.setHypers c h = .ok c' ∧
    Same c' kc.2 ∧ Told c' h ∧ A.score c' = .ok (.fin (lik h kc.2))
  closed : ∀ h, Adm h → ∀ name grid, (name, grid) ∈ grids → ∀ v ∈ grid, Adm (h.set name v)
  nonempty : ∀ name grid, (name, grid) ∈ grids → grid ≠ []
  fresh : ∀ h, Adm h → ∃ c, A.fresh h = .ok c

/-- The clusters hold the same data as `cl0`. -/
def SameAll (Same : K → K → Prop) (cl cl0 : Dict Tab K) : Prop :=
  List.Forall₂ (fun a b => a.1 = b.1 ∧ Same a.2 b.2) cl cl0

/-- The log likelihood of all the clusters. -/
noncomputable def likAll (lik : Hypers → K → ℝ) (cl0 : Dict Tab K) (h : Hypers) : ℝ :=
  (cl0.map fun kc => lik h kc.2).sum

section
variable {A : Api K} {grids : Grids} {Adm : Hypers → Prop} {Same : K → K → Prop}
  {Told : K → Hypers → Prop} {lik : Hypers → K → ℝ} {cl0 : Dict Tab K}

theorem Good.evalClusters (G : Good A grids Adm Same Told lik cl0) {h : Hypers} (hh : Adm h)
    {cl : Dict Tab K} (hs : SameAll Same cl cl0) :
    ∃ cl', Hyper.evalClusters A h (.fin 0) cl = (cl', .ok (.fin (likAll lik cl0 h))) ∧
      SameAll Same cl' cl0 := by
  have key : ∀ (l l0 : Dict Tab K), List.Forall₂ (fun a b => a.1 = b.1 ∧ Same a.2 b.2) l l0 →
      (∀ kc ∈ l0, kc ∈ cl0) → ∀ x : ℝ,
      ∃ l', Hyper.evalClusters A h (.fin x) l =
          (l', .ok (.fin (x + (l0.map fun kc => lik h kc.2).sum))) ∧
        List.Forall₂ (fun a b => a.1 = b.1 ∧ Same a.2 b.2) l' l0 := by
    intro l l0 hl
    induction hl with
    | nil => intro _ x; exact ⟨[], by simp [Hyper.evalClusters], .nil⟩
    | @cons a b t t0 hab ht ih =>
      intro hsub x
      obtain ⟨k, c⟩ := a
      obtain ⟨c', e1, e2, -, e4⟩ := G.set h hh b (hsub b (by simp)) c hab.2
      obtain ⟨t', f1, f2⟩ := ih (fun kc hk => hsub kc (by simp [hk])) (x + lik h b.2)
      refine ⟨(k, c') :: t', ?_, .cons ⟨hab.1, e2⟩ f2⟩
      simp only [Hyper.evalClusters, e1, e4, Fl.add, f1, List.map_cons, List.sum_cons]
      rw [add_assoc]
  obtain ⟨cl', e, f⟩ := key cl cl0 hs (fun _ h => h) 0
  exact ⟨cl', by rw [e, zero_add]; rfl, f⟩

theorem Good.setClusters (G : Good A grids Adm Same Told lik cl0) {h : Hypers} (hh : Adm h)
    {cl : Dict Tab K} (hs : SameAll Same cl cl0) :
    ∃ cl', Hyper.setClusters A h cl = .ok cl' ∧ SameAll Same cl' cl0 ∧
      ∀ kc ∈ cl', Told kc.2 h := by
  have key : ∀ (l l0 : Dict Tab K), List.Forall₂ (fun a b => a.1 = b.1 ∧ Same a.2 b.2) l l0 →
      (∀ kc ∈ l0, kc ∈ cl0) →
      ∃ l', Hyper.setClusters A h l = .ok l' ∧
        List.Forall₂ (fun a b => a.1 = b.1 ∧ Same a.2 b.2) l' l0 ∧ ∀ kc ∈ l', Told kc.2 h := by
    intro l l0 hl
    induction hl with
    | nil => intro _; exact ⟨[], rfl, .nil, by simp⟩
    | @cons a b t t0 hab ht ih =>
      intro hsub
      obtain ⟨k, c⟩ := a
      obtain ⟨c', e1, e2, e3, -⟩ := G.set h hh b (hsub b (by simp)) c hab.2
      obtain ⟨t', f1, f2, f3⟩ := ih (fun kc hk => hsub kc (by simp [hk]))
      refine ⟨(k, c') :: t', ?_, .cons ⟨hab.1, e2⟩ f2, ?_⟩
      · simp only [Hyper.setClusters, e1, f1, Out.map_ok]
      · intro kc hk
        rcases List.mem_cons.mp hk with rfl | hk
        · exact e3
        · exact f3 kc hk
  exact key cl cl0 hs (fun _ h => h)

theorem Good.gridLogps (G : Good A grids Adm Same Told lik cl0) (name : String) (vs : List ℝ)
    (g : GDim K) (hadm : ∀ v ∈ vs, Adm (g.hypers.set name v)) (hs : SameAll Same g.clusters cl0) :
    ∃ g', Hyper.gridLogps A name vs g
        = .ok (vs.map fun v => Fl.fin (likAll lik cl0 (g.hypers.set name v))) g' ∧
      SameAll Same g'.clusters cl0 ∧ g'.grids = g.grids ∧ g'.aux = g.aux ∧
      ∀ v, g'.hypers.set name v = g.hypers.set name v := by
  induction vs generalizing g with
  | nil => exact ⟨g, rfl, hs, rfl, rfl, fun _ => rfl⟩
  | cons v vs ih =>
    obtain ⟨cl', e, f⟩ := G.evalClusters (hadm v (by simp)) hs
    obtain ⟨g', e', f1, f2, f3, f4⟩ := ih { g with hypers := g.hypers.set name v, clusters := cl' }
      (by
        intro w hw
        simp only [Dict.set_set]
        exact hadm w (by simp [hw]))
      f
    refine ⟨g', ?_, f1, f2, f3, ?_⟩
    · simp only [Hyper.gridLogps, e, e', Dict.set_set, List.map_cons]
    · intro w
      rw [f4 w]
      simp only [Dict.set_set]

/-- One hyperparameter is drawn. -/
theorem Good.transitionHyper (G : Good A grids Adm Same Told lik cl0) {name : String}
    {grid : List ℝ} (hm : (name, grid) ∈ grids) (g : GDim K) (hg : g.grids = grids)
    (hh : Adm g.hypers) (hs : SameAll Same g.clusters cl0) :
    ∃ p : List ℝ, ∃ hp : p.length = grid.length, (∀ x ∈ p, 0 ≤ x) ∧ p.sum = 1 ∧
      (∀ i : Fin grid.length, p[i] = Real.exp (likAll lik cl0 (g.hypers.set name grid[i])) /
        ∑ k : Fin grid.length, Real.exp (likAll lik cl0 (g.hypers.set name grid[k]))) ∧
      ∃ cl', SameAll Same cl' cl0 ∧ ∀ u, 0 ≤ u → u < 1 → ∃ hlt : choiceIdx p u < grid.length,
        Hyper.transitionHyper A name u g = .ok
          { g with hypers := g.hypers.set name grid[choiceIdx p u], clusters := cl' } := by
  obtain ⟨g', e, f1, f2, f3, f4⟩ := G.gridLogps name grid g
    (fun v hv => G.closed _ hh name grid hm v hv) hs
  obtain ⟨p, hl, h0, h1, hp, hd⟩ := logPflip_fin
    (grid.map fun v => likAll lik cl0 (g.hypers.set name v)) (by simpa using G.nonempty _ _ hm)
  have hl' : p.length = grid.length := by simpa using hl
  refine ⟨p, hl', h0, h1, ?_, g'.clusters, f1, ?_⟩
  · intro i
    rw [Fin.getElem_fin, hp i.1 (by omega) (by simp), List.getElem_map, List.map_map]
    congr 1
    rw [← List.sum_ofFn]
    congr 1
    apply List.ext_getElem <;> simp
  · intro u hu hu1
    obtain ⟨hlt, ed⟩ := hd u hu hu1
    have hlt' : choiceIdx p u < grid.length := by simpa using hlt
    refine ⟨hlt', ?_⟩
    have hget : g.grids.get? name = some grid := by
      rw [hg]; exact Dict.get?_of_mem G.wf hm
    simp only [List.length_map, List.map_map] at ed
    have ed' : logPflip (grid.map fun v => Fl.fin (likAll lik cl0 (g.hypers.set name v)))
        (List.range grid.length) u = .ok (choiceIdx p u) := ed
    simp only [Hyper.transitionHyper, hget, e, List.length_map, ed',
      List.getElem?_eq_getElem hlt', f4]
    congr 1
    cases g'; cases g
    simp_all

/-- A whole transition returns normally. -/
theorem Good.transition (G : Good A grids Adm Same Told lik cl0) (draws : List (String × ℝ))
    (hdr : ∀ d ∈ draws, d.1 ∈ grids.keys ∧ 0 ≤ d.2 ∧ d.2 < 1) (g : GDim K) (hg : g.grids = grids)
    (hh : Adm g.hypers) (hs : SameAll Same g.clusters cl0) :
    ∃ g', Hyper.transitionHypers A draws g = .ok g' ∧ g'.grids = grids ∧ Adm g'.hypers ∧
      SameAll Same g'.clusters cl0 ∧ (∀ kc ∈ g'.clusters, Told kc.2 g'.hypers) ∧
      A.fresh g'.hypers = .ok g'.aux ∧
      (∀ name, name ∉ draws.map Prod.fst → g'.hypers.get? name = g.hypers.get? name) ∧
      (∀ name grid, (name, grid) ∈ grids → name ∈ draws.map Prod.fst →
        ∃ v ∈ grid, g'.hypers.get? name = some v) ∧
      ((∀ name ∈ draws.map Prod.fst, name ∈ g.hypers.keys) → g'.hypers.keys = g.hypers.keys) := by
  induction draws generalizing g with
  | nil =>
    obtain ⟨cl', e, f1, f2⟩ := G.setClusters hh hs
    obtain ⟨c, ec⟩ := G.fresh _ hh
    refine ⟨{ g with clusters := cl', aux := c }, ?_, hg, hh, f1, f2, ec, fun _ _ => rfl,
      by simp, fun _ => rfl⟩
    simp only [Hyper.transitionHypers, Hyper.finish, e, ec]
  | cons d t ih =>
    obtain ⟨name, u⟩ := d
    obtain ⟨hk, hu, hu1⟩ := hdr (name, u) (by simp)
    obtain ⟨grid, hget⟩ := Dict.exists_of_mem_keys hk
    have hm := Dict.mem_of_get? hget
    obtain ⟨p, hp, h0, h1, -, cl', hcl, hd⟩ := G.transitionHyper hm g hg hh hs
    obtain ⟨hlt, e⟩ := hd u hu hu1
    have hmem : grid[choiceIdx p u] ∈ grid := List.getElem_mem _
    obtain ⟨g', e', q1, q2, q3, q4, q5, q6, q7, q8⟩ := ih
      (fun d hd => hdr d (by simp [hd]))
      { g with hypers := g.hypers.set name grid[choiceIdx p u], clusters := cl' } hg
      (G.closed _ hh _ _ hm _ hmem) hcl
    refine ⟨g', ?_, q1, q2, q3, q4, q5, ?_, ?_, ?_⟩
    · simp only [Hyper.transitionHypers, e, Out.bind_ok, e']
    · intro n hn
      simp only [List.map_cons, List.mem_cons, not_or] at hn
      rw [q6 n hn.2]
      exact Dict.get?_set_ne _ _ hn.1
    · intro n gr hng hn
      by_cases hnt : n ∈ t.map Prod.fst
      · exact q7 n gr hng hnt
      · have hnn : n = name := by
          simp only [List.map_cons, List.mem_cons] at hn
          exact hn.resolve_right hnt
        subst hnn
        have : gr = grid := by
          have := Dict.get?_of_mem G.wf hng
          rw [hget] at this
          exact (Option.some.inj this).symm
        subst this
        refine ⟨_, hmem, ?_⟩
        rw [q6 n hnt]
        exact Dict.get?_set_self _ _ _
    · intro hall
      have hin : name ∈ g.hypers.keys := hall name (by simp)
      have hk : (g.hypers.set name grid[choiceIdx p u]).keys = g.hypers.keys := by
        rw [Dict.keys_set, if_pos hin]
      rw [q8 ?_, hk]
      intro n hn
      rw [hk]
      exact hall n (by simp [hn])

end

/-! ### choices from the grids -/

theorem Config.get?_hypers {grids : Grids} (hw : grids.WF) (c : Config grids)
    (j : Fin grids.length) : c.hypers.get? grids[j].1 = some grids[j].2[c j] := by
  have hwf : Dict.WF c.hypers := by
    unfold Dict.WF Dict.keys Config.hypers at *
    have : (List.ofFn fun j : Fin grids.length => (grids[j].1, grids[j].2[c j])).map Prod.fst
        = grids.map Prod.fst := by
      apply List.ext_getElem <;> simp
    rw [this]; exact hw
  apply Dict.get?_of_mem hwf
  unfold Config.hypers
  rw [List.mem_ofFn]
  exact ⟨j, rfl⟩

theorem Config.keys_hypers {grids : Grids} (c : Config grids) : c.hypers.keys = grids.keys := by
  unfold Dict.keys Config.hypers
  apply List.ext_getElem <;> simp

theorem set_ofFn {V : Type} : ∀ {n : ℕ} (name : Fin n → String) (_ : Function.Injective name)
    (f : Fin n → V) (j : Fin n) (v : V),
    Dict.set (List.ofFn fun j => (name j, f j)) (name j) v
      = List.ofFn fun k => (name k, if k = j then v else f k) := by
  intro n
  induction n with
  | zero => intro _ _ _ j; exact j.elim0
  | succ n ih =>
    intro name hinj f j v
    rw [List.ofFn_succ, List.ofFn_succ]
    refine Fin.cases ?_ (fun j => ?_) j
    · simp only [Dict.set, if_true]
      congr 1
    · have hne : name 0 ≠ name j.succ := fun h => (Fin.succ_ne_zero j) (hinj h).symm
      have hz : (0 : Fin (n + 1)) ≠ j.succ := (Fin.succ_ne_zero j).symm
      simp only [Dict.set, if_neg hne, if_neg hz]
      congr 1
      rw [ih (fun k => name k.succ) (fun a b h => Fin.succ_injective _ (hinj h))
        (fun k => f k.succ) j v]
      congr 1
      funext k
      simp [Fin.succ_inj]

theorem Config.set_hypers {grids : Grids} (hw : grids.WF) (c : Config grids)
    (j : Fin grids.length) (i : Fin grids[j].2.length) :
    c.hypers.set grids[j].1 grids[j].2[i] = Config.hypers (Function.update c j i) := by
  have hinj : Function.Injective fun j : Fin grids.length => grids[j].1 := by
    intro a b hab
    have := (List.Nodup.getElem_inj_iff hw (i := a.1) (j := b.1) (hi := by simp [Dict.keys])
      (hj := by simp [Dict.keys])).mp (by simpa [Dict.keys] using hab)
    exact Fin.ext this
  unfold Config.hypers
  rw [set_ofFn (fun j => grids[j].1) hinj]
  congr 1
  funext k
  by_cases hk : k = j
  · subst hk; simp
  · simp [hk]

/-! ### the posterior on the grids is invariant -/

section
variable {A : Api K} {grids : Grids} {Adm : Hypers → Prop} {Same : K → K → Prop}
  {Told : K → Hypers → Prop} {lik : Hypers → K → ℝ} {cl0 : Dict Tab K}

/-- The average after one draw. -/
theorem Good.average_cons (G : Good A grids Adm Same Told lik cl0) {h : Hypers} (hh : Adm h)
    {name : String} {grid : List ℝ} (hm : (name, grid) ∈ grids) (order : List String)
    {cl : Dict Tab K} (aux : K) (hs : SameAll Same cl cl0) (f : Hypers → ℝ) (F : Hypers → ℝ)
    (hF : ∀ h, Adm h → ∀ (cl : Dict Tab K) (aux : K), SameAll Same cl cl0 →
      average order.length (fun us =>
        f (Hyper.transitionHypers A (order.zip us) ⟨h, grids, cl, aux⟩).state.hypers) = F h) :
    average (order.length + 1) (fun us =>
        f (Hyper.transitionHypers A ((name :: order).zip us) ⟨h, grids, cl, aux⟩).state.hypers)
      = ∑ i : Fin grid.length, (Real.exp (likAll lik cl0 (h.set name grid[i]))
          / ∑ k : Fin grid.length, Real.exp (likAll lik cl0 (h.set name grid[k])))
          * F (h.set name grid[i]) := by
  obtain ⟨p, hp, h0, h1, hpi, cl', hcl, hd⟩ := G.transitionHyper hm ⟨h, grids, cl, aux⟩ rfl hh hs
  let F' : ℕ → ℝ := fun i => if h' : i < grid.length then F (h.set name grid[i]) else 0
  have hint : ∫ u in (0 : ℝ)..1, average order.length (fun us =>
        f (Hyper.transitionHypers A ((name :: order).zip (u :: us))
          ⟨h, grids, cl, aux⟩).state.hypers)
      = ∫ u in (0 : ℝ)..1, F' (choiceIdx p u) := by
    rw [intervalIntegral.integral_of_le zero_le_one, intervalIntegral.integral_of_le zero_le_one,
      integral_Ioc_eq_integral_Ioo, integral_Ioc_eq_integral_Ioo]
    refine setIntegral_congr_fun measurableSet_Ioo fun u hu => ?_
    obtain ⟨hlt, e⟩ := hd u hu.1.le hu.2
    simp only [List.zip_cons_cons, Hyper.transitionHypers, e, Out.bind_ok]
    rw [hF _ (G.closed _ hh _ _ hm _ (List.getElem_mem _)) _ _ hcl]
    simp only [F', dif_pos hlt]
  change ∫ u in (0 : ℝ)..1, _ = _
  rw [hint, integral_choice h0 h1 F', ← Equiv.sum_comp (finCongr hp.symm)]
  refine Finset.sum_congr rfl fun i _ => ?_
  have hpi' := hpi i
  simp only [Fin.getElem_fin, finCongr_apply, Fin.val_cast] at hpi' ⊢
  rw [hpi']
  simp only [F', dif_pos i.2]

/-- The average does not depend on the hyperparameters the clusters happen to have. -/
theorem Good.average_eq (G : Good A grids Adm Same Told lik cl0) (order : List String)
    (ho : ∀ name ∈ order, name ∈ grids.keys) (f : Hypers → ℝ) :
    ∃ F : Hypers → ℝ, ∀ h, Adm h → ∀ (cl : Dict Tab K) (aux : K), SameAll Same cl cl0 →
      average order.length (fun us =>
        f (Hyper.transitionHypers A (order.zip us) ⟨h, grids, cl, aux⟩).state.hypers) = F h := by
  induction order with
  | nil =>
    refine ⟨f, fun h hh cl aux hs => ?_⟩
    obtain ⟨cl', e1, -, -⟩ := G.setClusters hh hs
    obtain ⟨k, e2⟩ := G.fresh _ hh
    simp [average, Hyper.transitionHypers, Hyper.finish, e1, e2]
  | cons name order ih =>
    obtain ⟨F, hF⟩ := ih fun n hn => ho n (by simp [hn])
    obtain ⟨grid, hget⟩ := Dict.exists_of_mem_keys (ho name (by simp))
    exact ⟨_, fun h hh cl aux hs =>
      G.average_cons hh (Dict.mem_of_get? hget) order aux hs f F hF⟩

/-- The distribution of a transition: the first hyperparameter is drawn from its conditional, then
the others are drawn in the same way. -/
theorem Good.conditional (G : Good A grids Adm Same Told lik cl0) {h : Hypers} (hh : Adm h)
    {name : String} {grid : List ℝ} (hm : (name, grid) ∈ grids) (order : List String)
    (ho : ∀ name ∈ order, name ∈ grids.keys) {cl : Dict Tab K} (aux : K)
    (hs : SameAll Same cl cl0) (f : Hypers → ℝ) :
    average (order.length + 1) (fun us =>
        f (Hyper.transitionHypers A ((name :: order).zip us) ⟨h, grids, cl, aux⟩).state.hypers)
      = ∑ i : Fin grid.length, (Real.exp (likAll lik cl0 (h.set name grid[i]))
          / ∑ k : Fin grid.length, Real.exp (likAll lik cl0 (h.set name grid[k])))
          * average order.length (fun us => f (Hyper.transitionHypers A (order.zip us)
              ⟨h.set name grid[i], grids, cl, aux⟩).state.hypers) := by
  obtain ⟨F, hF⟩ := G.average_eq order ho f
  rw [G.average_cons hh hm order aux hs f F hF]
  refine Finset.sum_congr rfl fun i _ => ?_
  rw [hF _ (G.closed _ hh _ _ hm grid[i] (List.getElem_mem _)) cl aux hs]

/-- Whatever the order in which they are visited, redrawing hyperparameters leaves the posterior
on the grids unchanged. -/
theorem Good.invariant (G : Good A grids Adm Same Told lik cl0)
    (hc : ∀ c : Config grids, Adm c.hypers) (order : List String)
    (ho : ∀ name ∈ order, name ∈ grids.keys) (f : Hypers → ℝ) {cl : Dict Tab K} (aux : K)
    (hs : SameAll Same cl cl0) :
    ∑ c : Config grids, Real.exp (likAll lik cl0 c.hypers) * average order.length (fun us =>
        f (Hyper.transitionHypers A (order.zip us) ⟨c.hypers, grids, cl, aux⟩).state.hypers)
      = ∑ c : Config grids, Real.exp (likAll lik cl0 c.hypers) * f c.hypers := by
  induction order with
  | nil =>
    refine Finset.sum_congr rfl fun c _ => ?_
    obtain ⟨cl', e1, -, -⟩ := G.setClusters (hc c) hs
    obtain ⟨k, e2⟩ := G.fresh _ (hc c)
    simp [average, Hyper.transitionHypers, Hyper.finish, e1, e2]
  | cons name order ih =>
    have ho' : ∀ n ∈ order, n ∈ grids.keys := fun n hn => ho n (by simp [hn])
    have hk := ho name (by simp)
    obtain ⟨i, hi, rfl⟩ : ∃ (i : ℕ) (hi : i < grids.length), grids[i].1 = name := by
      obtain ⟨x, hx, rfl⟩ := List.mem_map.mp hk
      obtain ⟨i, hi, rfl⟩ := List.mem_iff_getElem.mp hx
      exact ⟨i, hi, rfl⟩
    let j : Fin grids.length := ⟨i, hi⟩
    rw [← ih ho']
    have key := gibbs_invariant (fun c : Config grids => Real.exp (likAll lik cl0 c.hypers))
      (fun _ => Real.exp_pos _) j (fun c => average order.length (fun us =>
        f (Hyper.transitionHypers A (order.zip us) ⟨Config.hypers c, grids, cl, aux⟩).state.hypers))
    rw [← key]
    refine Finset.sum_congr rfl fun c _ => ?_
    congr 1
    have hm : (grids[j].1, grids[j].2) ∈ grids := List.getElem_mem _
    refine (G.conditional (hc c) hm order ho' aux hs f).trans ?_
    have hset : ∀ k : Fin grids[j].2.length, c.hypers.set grids[j].1 grids[j].2[k]
        = Config.hypers (Function.update c j k) := fun k => Config.set_hypers G.wf c j k
    refine Finset.sum_congr rfl fun i _ => ?_
    rw [hset]
    congr 1
    congr 1
    exact Finset.sum_congr rfl fun k _ => by rw [hset]

end

end Cgpm.Spec.Hyper
