import Verif.Lemmas.HyperOther

/-!
C56. Hyperparameter grids built from the data of a column hold only admissible values.

C57. Hyperparameter inference is exact Gibbs sampling on the grids: each hyperparameter is redrawn
from its conditional distribution given the others and the data, so that a pass leaves the posterior
distribution on the grids invariant, and it changes nothing but the hyperparameters.
-/
namespace Cgpm.Props
open Cgpm Cgpm.Hyper Cgpm.Spec.Hyper

/-! ### C56: grids -/

/-- **C56** `log_linspace(a, b, n)` has `n` positive points: the first is `a`, the last is `b`, and
the ratio of neighbours is constant. -/
theorem C56_log_linspace {a b : ℝ} (ha : 0 < a) (hb : 0 < b) {n : ℕ} (hn : 2 ≤ n) :
    ∃ (l : List ℝ) (ρ : ℝ), logLinspace a b n = .ok l ∧ 0 < ρ ∧ ∃ hl : l.length = n,
      l[0]'(by omega) = a ∧ l[n - 1]'(by omega) = b ∧
      ∀ i (h : i + 1 < n), l[i + 1]'(by omega) = l[i]'(by omega) * ρ := by
  have hn1 : ((n : ℝ) - 1) ≠ 0 := by
    have : (2 : ℝ) ≤ n := by exact_mod_cast hn
    linarith
  refine ⟨(linspace (Real.log a) (Real.log b) n).map Real.exp,
    Real.exp ((Real.log b - Real.log a) / ((n : ℝ) - 1)), by rw [logLinspace, if_pos ⟨ha, hb⟩],
    Real.exp_pos _, by simp [linspace], ?_, ?_, ?_⟩
  · simp [linspace, Real.exp_log ha]
  · simp only [linspace, List.getElem_map, List.getElem_range]
    have : ((n - 1 : ℕ) : ℝ) = (n : ℝ) - 1 := by
      rw [Nat.cast_sub (by omega)]; simp
    rw [this, mul_div_cancel₀ _ hn1, add_sub_cancel, Real.exp_log hb]
  · intro i h
    simp only [linspace, List.getElem_map, List.getElem_range]
    rw [← Real.exp_add]
    congr 1
    push_cast
    ring

example : (0 : ℝ) < 1 ∧ (0 : ℝ) < 100 ∧ 2 ≤ 30 := by norm_num

/-- **C56** For a column of any type with at least one value, all in the type's support,
`construct_hyper_grids` answers a non-empty grid for each hyperparameter of the type and for nothing
else; and whatever entries are chosen, `set_hypers` and the constructor accept them. -/
theorem C56_admissible (p : Prim) (kappa : Option ℝ) {X : List ℝ} (hX : X ≠ [])
    (hsup : ∀ x ∈ X, ∃ y, p.fam.prep x = .ok y) {n : ℕ} (hn : 0 < n)
    (hk : ∀ f, p = .vonmises f → kappa ≠ some 0) :
    ∃ grids, constructHyperGrids p kappa X n = .ok grids ∧ grids.keys.Nodup ∧
      grids.keys.Perm (names p) ∧ (∀ name grid, (name, grid) ∈ grids → grid ≠ []) ∧
      ∀ c : Config grids, Admissible p c.hypers ∧ c.hypers.keys = grids.keys ∧
        (∀ (params : p.H) (o : Comp ℝ p.S p.H),
          (primApi p params).setHypers o c.hypers = .ok (o.withHyp (assign c.hypers p o.hyp)) ∧
          (primApi p params).fresh c.hypers = .ok (Comp.init p.fam (assign c.hypers p params))) := by
  obtain ⟨grids, e, hw, hp, hne, hpos, hvm⟩ := grids_ok p kappa hX hsup hn hk
  refine ⟨grids, e, hw, hp, hne, fun c => ?_⟩
  have hadm := config_admissible hw hp hpos hvm c
  refine ⟨hadm, Config.keys_hypers c, fun params o => ⟨?_, ?_⟩⟩
  · simp only [primApi, readHypers_ok hadm]
  · simp only [primApi, newHypers_ok hadm]
    rfl

/-- The hypotheses hold of a Poisson column with two values, and of a normal one. -/
example : ∃ grids, constructHyperGrids .poisson none [3, 0] 30 = .ok grids ∧
    grids.keys.Perm ["a", "b"] := by
  obtain ⟨g, e, -, hp, -⟩ := C56_admissible .poisson none (X := [3, 0]) (by simp)
    (by
      intro x hx
      simp only [List.mem_cons, List.not_mem_nil, or_false] at hx
      rcases hx with rfl | rfl
      · exact ⟨3, if_pos ⟨⟨3, by norm_num⟩, by norm_num⟩⟩
      · exact ⟨0, if_pos ⟨⟨0, by norm_num⟩, le_refl _⟩⟩)
    (n := 30) (by norm_num) (by intro f h; cases h)
  exact ⟨g, e, hp⟩

example : ∃ grids, constructHyperGrids .normal none [1.5, -2] 30 = .ok grids ∧
    grids.keys.Perm ["m", "r", "s", "nu"] := by
  obtain ⟨g, e, -, hp, -⟩ := C56_admissible .normal none (X := [1.5, -2]) (by simp)
    (fun x _ => ⟨_, rfl⟩) (n := 30) (by norm_num) (by intro f h; cases h)
  exact ⟨g, e, hp⟩

/-- **C56** Without a single value no grid can be built: the calls raise (only the types without
hyperparameters, beta and normal_trunc, answer). -/
theorem C56_no_data (p : Prim) (kappa : Option ℝ) (n : ℕ) :
    ((∃ e, constructHyperGrids p kappa [] n = .error e) ↔ names p ≠ []) ∧
    (∃ e, crpGrids [] n = .error e) ∧ ∃ e, linregGrids [] n = .error e := by
  refine ⟨?_, ⟨.zeroDivision, ?_⟩, ⟨.assertion, ?_⟩⟩
  · cases p <;> simp [constructHyperGrids, logLinspace, names, minimum, maximum, bind, Except.bind]
  · simp [crpGrids, bind, Except.bind]
  · simp [linregGrids, bind, Except.bind]

/-- **C56** The grid of the concentration of a partition: positive, between `1/n` and `n` for `n`
rows, so that `set_hypers` accepts its values. -/
theorem C56_crp {X : List ℝ} (hX : X ≠ []) {n : ℕ} (hn : 0 < n) :
    ∃ l, crpGrids X n = .ok [("alpha", l)] ∧ l.length = n ∧
      ∀ v ∈ l, 1 / (X.length : ℝ) ≤ v ∧ v ≤ X.length ∧
        ∀ c : Crp, crpApi.setHypers c [("alpha", v)] = .ok { c with alpha := v } := by
  obtain ⟨l, e, hl, -, hpos⟩ := crpGrids_ok hX hn
  refine ⟨l, e, hl, fun v hv => ?_⟩
  have hlenN : X.length ≠ 0 := by
    have := List.length_pos_iff.mpr hX; omega
  have hlen0 : (1 : ℝ) ≤ X.length := by
    exact_mod_cast List.length_pos_iff.mpr hX
  obtain ⟨l', e', -, -, hb⟩ :=
    logLinspace_ok (one_div_pos.mpr (by linarith)) (show (0 : ℝ) < X.length by linarith) hn
  have hll : l' = l := by
    simp only [crpGrids, e', if_neg hlenN, okBind, Except.ok.injEq, List.cons.injEq,
      Prod.mk.injEq, true_and, and_true] at e
    exact e
  subst hll
  have h1 : 1 / (X.length : ℝ) ≤ X.length :=
    le_trans (by rw [div_le_one (by linarith)]; exact hlen0) hlen0
  obtain ⟨hlo, hhi⟩ := hb v hv
  rw [min_eq_left h1] at hlo
  rw [max_eq_right h1] at hhi
  refine ⟨hlo, hhi, fun c => ?_⟩
  have hg : Dict.get? [("alpha", v)] "alpha" = some v := by simp [Dict.get?]
  simp only [crpApi, hg, Crp.setHypers, if_pos (hpos v hv)]

/-- **C56** The grids of a linear regression with at least one row hold positive values. -/
theorem C56_linreg {X : List ℝ} (hX : X ≠ []) {n : ℕ} (hn : 0 < n) :
    ∃ la lb, linregGrids X n = .ok [("a", la), ("b", lb)] ∧ la.length = n ∧ lb.length = n ∧
      ∀ a ∈ la, ∀ b ∈ lb, 0 < a ∧ 0 < b ∧
        ∀ o : LinReg.Obj, (linregApi o.g).setHypers o [("a", a), ("b", b)] = .ok (withAB o a b) := by
  obtain ⟨la, lb, e, h1, h2, -, -, pa, pb⟩ := linregGrids_ok hX hn
  refine ⟨la, lb, e, h1, h2, fun a ha b hb => ⟨pa a ha, pb b hb, fun o => ?_⟩⟩
  have ga : Dict.get? [("a", a), ("b", b)] "a" = some a := by simp [Dict.get?]
  have gb : Dict.get? [("a", a), ("b", b)] "b" = some b := by simp [Dict.get?]
  simp only [linregApi, ga, gb, LinReg.Obj.setHypers, pa a ha, pb b hb, not_true,
    if_false]
  rfl

/-! ### C57: transitions of a column -/

section column
variable {p : Prim} {kappa : Option ℝ} {X : List ℝ} {n : ℕ} {grids : Grids}

theorem hyper_prim_good (params : p.H) (hX : X ≠ [])
    (hsup : ∀ x ∈ X, ∃ y, p.fam.prep x = .ok y) (hn : 0 < n)
    (hk : ∀ f, p = .vonmises f → kappa ≠ some 0)
    (hg : constructHyperGrids p kappa X n = .ok grids) (cl0 : Dict Tab (Comp ℝ p.S p.H)) :
    Good (primApi p params) grids (Admissible p) (primSame p)
      (fun c h => c.hyp = assign h p c.hyp)
      (fun h c => p.fam.score (assign h p c.hyp) c.stat) cl0 ∧
    grids.keys.Perm (names p) ∧ ∀ c : Config grids, Admissible p c.hypers := by
  obtain ⟨grids', e, hw, hp, hne, hpos, hvm⟩ := grids_ok p kappa hX hsup hn hk
  rw [hg] at e
  simp only [Except.ok.injEq] at e
  subst e
  exact ⟨prim_good p params hw hne hpos hvm cl0, hp, config_admissible hw hp hpos hvm⟩

theorem primSame_withHyp {c c0 : Comp ℝ p.S p.H} {h : Hypers} (hs : primSame p c c0)
    (ht : c.hyp = assign h p c.hyp) : c = c0.withHyp (assign h p c0.hyp) := by
  obtain ⟨h1, h2, h3⟩ := hs
  obtain ⟨d, s, k⟩ := c
  simp only at h1 h2 h3 ht
  rw [h3] at ht
  subst h1 h2 ht
  rfl

theorem forall₂_clusters {K : Type} {R : K → K → Prop} {f : K → K} {cl cl0 : Dict Tab K}
    (hs : SameAll R cl cl0) (hf : ∀ kc ∈ cl, ∀ c0, R kc.2 c0 → kc.2 = f c0) :
    cl = cl0.map fun kc => (kc.1, f kc.2) := by
  unfold SameAll at hs
  induction hs with
  | nil => rfl
  | @cons a b l l0 hab _ ih =>
    rw [List.map_cons, ← ih fun kc hk => hf kc (List.mem_cons_of_mem _ hk)]
    obtain ⟨h1, h2⟩ := hab
    have := hf a (by simp) _ h2
    obtain ⟨a1, a2⟩ := a
    simp only at h1 this
    subst h1 this
    rfl

theorem sameAll_refl {K : Type} {R : K → K → Prop} {cl : Dict Tab K}
    (h : ∀ kc ∈ cl, R kc.2 kc.2) : SameAll R cl cl :=
  List.forall₂_same.mpr fun kc hk => ⟨rfl, h kc hk⟩

/-- **C57** A transition of the hyperparameters of a column never raises.  Afterwards every
hyperparameter is a value of its grid, every cluster uses the new hyperparameters and holds the same
rows and statistics as before, and the component for new clusters has the new hyperparameters and no
rows.  `draws` is any order of the hyperparameters, with any uniform draws. -/
theorem C57_transition (params : p.H) (hX : X ≠ [])
    (hsup : ∀ x ∈ X, ∃ y, p.fam.prep x = .ok y) (hn : 0 < n)
    (hk : ∀ f, p = .vonmises f → kappa ≠ some 0)
    (hg : constructHyperGrids p kappa X n = .ok grids) {h : Hypers} (hh : Admissible p h)
    (hkeys : h.keys.Perm (names p)) (clusters : Dict Tab (Comp ℝ p.S p.H))
    (aux : Comp ℝ p.S p.H) {draws : List (String × ℝ)} (hd : (draws.map Prod.fst).Perm h.keys)
    (hu : ∀ d ∈ draws, 0 ≤ d.2 ∧ d.2 < 1) :
    ∃ g', transitionHypers (primApi p params) draws ⟨h, grids, clusters, aux⟩ = .ok g' ∧
      g'.grids = grids ∧ g'.hypers.keys = h.keys ∧ Admissible p g'.hypers ∧
      (∀ name grid, (name, grid) ∈ grids → ∃ v ∈ grid, g'.hypers.get? name = some v) ∧
      g'.clusters = clusters.map (fun kc => (kc.1, kc.2.withHyp (assign g'.hypers p kc.2.hyp))) ∧
      g'.aux = Comp.init p.fam (assign g'.hypers p params) := by
  obtain ⟨G, hp, -⟩ := hyper_prim_good params hX hsup hn hk hg clusters
  have hmem : ∀ name, name ∈ draws.map Prod.fst ↔ name ∈ grids.keys := fun name => by
    rw [hd.mem_iff, hkeys.mem_iff, hp.mem_iff]
  obtain ⟨g', e, h1, h2, h3, h4, h5, -, h7, h8⟩ := G.transition draws
    (fun d hdd => ⟨(hmem _).mp (List.mem_map_of_mem hdd), hu d hdd⟩) ⟨h, grids, clusters, aux⟩ rfl
    hh (sameAll_refl G.refl)
  refine ⟨g', e, h1, h8 fun name hm => hd.mem_iff.mp hm, h2, fun name grid hm =>
    h7 name grid hm ((hmem _).mpr (List.mem_map_of_mem (f := Prod.fst) hm)), ?_, ?_⟩
  · exact forall₂_clusters h3 fun kc hm c0 hs => primSame_withHyp hs (h4 kc hm)
  · simp only [primApi, newHypers_ok h2] at h5
    simpa [Except.map] using h5.symm

/-- **C57** The first hyperparameter of the pass is drawn from its conditional distribution: each
value of its grid has probability proportional to the marginal likelihood of the column's data under
that value and the current values of the other hyperparameters; the rest of the pass starts from the
value drawn.  (Applied again to the rest, this gives the distribution of the whole pass.) -/
theorem C57_conditional (params : p.H) (hX : X ≠ [])
    (hsup : ∀ x ∈ X, ∃ y, p.fam.prep x = .ok y) (hn : 0 < n)
    (hk : ∀ f, p = .vonmises f → kappa ≠ some 0)
    (hg : constructHyperGrids p kappa X n = .ok grids) {h : Hypers} (hh : Admissible p h)
    {name : String} {grid : List ℝ} (hm : (name, grid) ∈ grids) {order : List String}
    (ho : ∀ name ∈ order, name ∈ names p) (clusters : Dict Tab (Comp ℝ p.S p.H))
    (aux : Comp ℝ p.S p.H) (f : Hypers → ℝ) :
    average (order.length + 1) (fun us =>
        f (transitionHypers (primApi p params) ((name :: order).zip us)
          ⟨h, grids, clusters, aux⟩).state.hypers)
      = ∑ i : Fin grid.length, (Real.exp (columnScore p (h.set name grid[i]) clusters)
          / ∑ k : Fin grid.length, Real.exp (columnScore p (h.set name grid[k]) clusters))
          * average order.length (fun us => f (transitionHypers (primApi p params) (order.zip us)
              ⟨h.set name grid[i], grids, clusters, aux⟩).state.hypers) := by
  obtain ⟨G, hp, -⟩ := hyper_prim_good params hX hsup hn hk hg clusters
  exact G.conditional hh hm order (fun name hm => hp.mem_iff.mpr (ho name hm)) aux
    (sameAll_refl G.refl) f

/-- **C57** The posterior distribution on the grids is invariant: if the hyperparameters have
probability proportional to the marginal likelihood of the column's data, they still have it after
the pass, in whatever order it visits them. -/
theorem C57_invariant (params : p.H) (hX : X ≠ [])
    (hsup : ∀ x ∈ X, ∃ y, p.fam.prep x = .ok y) (hn : 0 < n)
    (hk : ∀ f, p = .vonmises f → kappa ≠ some 0)
    (hg : constructHyperGrids p kappa X n = .ok grids) {order : List String}
    (ho : ∀ name ∈ order, name ∈ names p) (clusters : Dict Tab (Comp ℝ p.S p.H))
    (aux : Comp ℝ p.S p.H) (f : Hypers → ℝ) :
    ∑ c : Config grids, Real.exp (columnScore p c.hypers clusters) * average order.length (fun us =>
        f (transitionHypers (primApi p params) (order.zip us)
          ⟨c.hypers, grids, clusters, aux⟩).state.hypers)
      = ∑ c : Config grids, Real.exp (columnScore p c.hypers clusters) * f c.hypers := by
  obtain ⟨G, hp, hc⟩ := hyper_prim_good params hX hsup hn hk hg clusters
  exact G.invariant hc order (fun name hm => hp.mem_iff.mpr (ho name hm)) f aux
    (sameAll_refl G.refl)

/-- The hypotheses hold of a normal column with two clusters. -/
example : ∃ grids, constructHyperGrids .normal none [1, 2, 5] 30 = .ok grids ∧
    ∃ g', transitionHypers (primApi .normal (⟨0, 1, 1, 1⟩ : NormalH))
      [("s", 1 / 2), ("m", 0), ("nu", 1 / 3), ("r", 9 / 10)]
      ⟨[("m", 0), ("r", 1), ("s", 1), ("nu", 1)], grids,
        [(0, (⟨[(0, 1), (1, 2)], ⟨2, 3, 5⟩, ⟨0, 1, 1, 1⟩⟩ : Comp ℝ NormalS NormalH)),
         (1, ⟨[(2, 5)], ⟨1, 5, 25⟩, ⟨0, 1, 1, 1⟩⟩)],
        Comp.init (Prim.normal).fam (⟨0, 1, 1, 1⟩ : NormalH)⟩ = .ok g' := by
  obtain ⟨grids, e, -⟩ := C56_admissible .normal none (X := [1, 2, 5]) (by simp)
    (fun x _ => ⟨_, rfl⟩) (n := 30) (by norm_num) (by intro f h; cases h)
  obtain ⟨g', e', -⟩ := C57_transition (p := .normal) (⟨0, 1, 1, 1⟩ : NormalH) (by simp)
    (fun x _ => ⟨_, rfl⟩) (by norm_num) (by intro f h; cases h) e
    (h := [("m", 0), ("r", 1), ("s", 1), ("nu", 1)])
    (by
      refine ⟨?_, ?_, fun f h => by cases h⟩
      · simp [names, Dict.get?]
      · simp [positive, names, Dict.get?])
    (by simp [names, Dict.keys])
    [(0, (⟨[(0, 1), (1, 2)], ⟨2, 3, 5⟩, ⟨0, 1, 1, 1⟩⟩ : Comp ℝ NormalS NormalH)),
     (1, ⟨[(2, 5)], ⟨1, 5, 25⟩, ⟨0, 1, 1, 1⟩⟩)]
    (Comp.init (Prim.normal).fam (⟨0, 1, 1, 1⟩ : NormalH))
    (draws := [("s", 1 / 2), ("m", 0), ("nu", 1 / 3), ("r", 9 / 10)])
    (by simp only [List.map, Dict.keys]; decide)
    (by
      intro d hd
      simp only [List.mem_cons, List.not_mem_nil, or_false] at hd
      rcases hd with rfl | rfl | rfl | rfl <;> norm_num)
  exact ⟨grids, e, g', e'⟩

/-- **C57** The first grids of a column without hyperparameters: each hyperparameter is an entry of
its grid, the one drawn; nothing else changes but the component for new clusters.  NaN cells do not
count as data. -/
theorem C57_first (params : p.H) (cells : List (Option ℝ)) (hX : cells.filterMap id = X)
    (hX0 : X ≠ []) (hsup : ∀ x ∈ X, ∃ y, p.fam.prep x = .ok y) (hn : 0 < n)
    (hk : ∀ f, p = .vonmises f → kappa ≠ some 0)
    (hg : constructHyperGrids p kappa X n = .ok grids) {pick : String → ℕ}
    (hpick : ∀ name grid, (name, grid) ∈ grids → pick name < grid.length) (old : Grids)
    (clusters : Dict Tab (Comp ℝ p.S p.H)) (aux : Comp ℝ p.S p.H) :
    ∃ g', transitionHyperGrids (primApi p params) (constructHyperGrids p kappa) pick cells n
        ⟨[], old, clusters, aux⟩ = .ok g' ∧
      g'.grids = grids ∧ g'.clusters = clusters ∧ Admissible p g'.hypers ∧
      g'.hypers.keys.Perm (names p) ∧
      (∀ name grid, (name, grid) ∈ grids → g'.hypers.get? name = grid[pick name]?) ∧
      g'.aux = Comp.init p.fam (assign g'.hypers p params) := by
  obtain ⟨G, hp, hc⟩ := hyper_prim_good params hX0 hsup hn hk hg clusters
  let c : Config grids := fun j => ⟨pick grids[j].1, hpick _ _ (by simp)⟩
  have hfirst : firstHypers pick grids = .ok c.hypers := by
    have key : ∀ (gs : Grids) (h : ∀ j : Fin gs.length, pick gs[j].1 < gs[j].2.length),
        firstHypers pick gs
          = .ok (List.ofFn fun j : Fin gs.length => (gs[j].1, gs[j].2[pick gs[j].1]'(h j))) := by
      intro gs
      induction gs with
      | nil => intro _; rfl
      | cons a t ih =>
        intro h
        have h0 := h ⟨0, by simp⟩
        simp only [Fin.getElem_fin, List.getElem_cons_zero] at h0
        rw [firstHypers, ih fun j => by simpa using h j.succ, choice,
          List.getElem?_eq_getElem h0, List.ofFn_succ]
        rfl
    exact key grids fun j => hpick _ _ (by simp)
  refine ⟨⟨c.hypers, grids, clusters, Comp.init p.fam (assign c.hypers p params)⟩, ?_, rfl, rfl,
    hc c, by rw [Config.keys_hypers]; exact hp, ?_, rfl⟩
  · simp only [transitionHyperGrids, hX, hg, List.isEmpty_nil, if_true, hfirst, primApi,
      newHypers_ok (hc c)]
    rfl
  · intro name grid hm
    obtain ⟨j, hj, e⟩ := List.getElem_of_mem hm
    have := Config.get?_hypers G.wf c ⟨j, hj⟩
    simp only [Fin.getElem_fin, e] at this
    rw [this, List.getElem?_eq_getElem (hpick _ _ hm)]
    simp [c, e]

/-- **C57** Hyperparameters that were given are kept when the grids are built. -/
theorem C57_kept (params : p.H) (cells : List (Option ℝ))
    (hg : constructHyperGrids p kappa (cells.filterMap id) n = .ok grids) (pick : String → ℕ)
    {h : Hypers} (hne : h ≠ []) (hh : Admissible p h) (old : Grids)
    (clusters : Dict Tab (Comp ℝ p.S p.H)) (aux : Comp ℝ p.S p.H) :
    transitionHyperGrids (primApi p params) (constructHyperGrids p kappa) pick cells n
        ⟨h, old, clusters, aux⟩
      = .ok ⟨h, grids, clusters, Comp.init p.fam (assign h p params)⟩ := by
  have : h.isEmpty = false := by cases h with
    | nil => exact absurd rfl hne
    | cons => rfl
  simp only [transitionHyperGrids, hg, this, Bool.false_eq_true, if_false, primApi,
    newHypers_ok hh]
  rfl

theorem readHypers_missing {h : Hypers} {name : String} (hm : name ∈ names p)
    (hn : h.get? name = none) (old : p.H) : ∃ e, readHypers h p old = .error e := by
  cases hr : readHypers h p old with
  | error e => exact ⟨e, rfl⟩
  | ok k =>
    exfalso
    cases p <;> simp only [names, List.mem_cons, List.not_mem_nil, or_false] at hm <;>
      simp only [readHypers, need, require, bind, Except.bind] at hr
    all_goals
      repeat' (split at hr)
    all_goals first
      | cases hr; done
      | (rcases hm with rfl | rfl | rfl | rfl <;> simp_all)
      | (rcases hm with rfl | rfl | rfl <;> simp_all)
      | (rcases hm with rfl | rfl <;> simp_all)
      | (subst hm; simp_all)

/-- **C57** (a finding) Hyperparameters with a name missing are accepted by the constructor, which
uses its default, but a column that has a cluster can then never infer its hyperparameters: the
transition raises, whatever the order and the draws. -/
theorem C57_missing_hyper (params : p.H) (hne : ∀ name grid, (name, grid) ∈ grids → grid ≠ [])
    {h : Hypers} {name : String} (hm : name ∈ names p) (hn : h.get? name = none)
    {clusters : Dict Tab (Comp ℝ p.S p.H)} (hc : clusters ≠ []) (aux : Comp ℝ p.S p.H)
    {draws : List (String × ℝ)} (hd : (draws.map Prod.fst).Perm h.keys) :
    (transitionHypers (primApi p params) draws ⟨h, grids, clusters, aux⟩).isOk = false := by
  obtain ⟨kc, t, rfl⟩ := List.exists_cons_of_ne_nil hc
  have hset : ∀ h' : Hypers, h'.get? name = none →
      ∃ e, (primApi p params).setHypers kc.2 h' = .err e kc.2 := fun h' hh' => by
    obtain ⟨e, he⟩ := readHypers_missing hm hh' kc.2.hyp
    exact ⟨e, by simp only [primApi, he]⟩
  cases draws with
  | nil =>
    obtain ⟨e, he⟩ := hset h hn
    obtain ⟨k, c⟩ := kc
    simp only [transitionHypers, finish, setClusters, he, Out.isOk]
  | cons d ds =>
    obtain ⟨d, u⟩ := d
    have hdn : d ≠ name := by
      rintro rfl
      have : d ∈ h.keys := hd.mem_iff.mp (by simp)
      exact (Dict.get?_eq_none_iff _ _).mp hn this
    rw [transitionHypers, transitionHyper]
    cases hgr : Dict.get? grids d with
    | none => rfl
    | some grid =>
      obtain ⟨v, vs, rfl⟩ := List.exists_cons_of_ne_nil (hne d grid (Dict.mem_of_get? hgr))
      obtain ⟨e, he⟩ := hset (h.set d v) (by rw [Dict.get?_set_ne _ _ (Ne.symm hdn), hn])
      obtain ⟨k, c⟩ := kc
      simp only [gridLogps, evalClusters, he]
      rfl

/-- **C57** (a finding) A name that the type does not have makes the transition raise KeyError when
its turn comes. -/
theorem C57_unknown_hyper {K : Type} (A : Api K) (g : GDim K) {name : String}
    (hn : g.grids.get? name = none) (u : ℝ) (ds : List (String × ℝ)) :
    transitionHypers A ((name, u) :: ds) g = .err .keyError g := by
  simp only [transitionHypers, transitionHyper, hn]
  rfl

/-- The hypotheses of `C57_missing_hyper` hold of a Bernoulli column constructed with `alpha` only,
which is what the constructor accepts. -/
example : newHypers [("alpha", 2)] .bernoulli (⟨1, 1⟩ : BernoulliH) = .ok (⟨2, 1⟩ : BernoulliH) ∧
    (transitionHypers (primApi .bernoulli (⟨1, 1⟩ : BernoulliH)) [("alpha", 1 / 2)]
      ⟨[("alpha", 2)], [("alpha", [1, 2]), ("beta", [1, 2])],
        [(0, (⟨[(0, 1)], ⟨1, 1⟩, ⟨2, 1⟩⟩ : Comp ℝ BernoulliS BernoulliH))],
        Comp.init (Prim.bernoulli).fam (⟨2, 1⟩ : BernoulliH)⟩).isOk = false := by
  constructor
  · simp [newHypers, require, Dict.get?, bind, Except.bind]
  · exact C57_missing_hyper (p := .bernoulli) (⟨1, 1⟩ : BernoulliH)
      (by simp only [List.mem_cons, Prod.mk.injEq, List.not_mem_nil, or_false]; rintro _ _ (⟨-, rfl⟩ | ⟨-, rfl⟩) <;> simp)
      (name := "beta")
      (by simp [names]) (by simp [Dict.get?]) (by simp) _ (by simp [Dict.keys])

end column

/-! ### C57: the concentration of a partition -/

/-- **C57** The transition of the concentration of a partition never raises and changes nothing but
the concentration, which becomes a value of its grid. -/
theorem C57_crp_transition {X : List ℝ} {n : ℕ} {l : List ℝ} (hX : X ≠ []) (hn : 0 < n)
    (hg : crpGrids X n = .ok [("alpha", l)]) {a : ℝ} (ha : 0 < a) (clusters : Dict Tab Crp)
    (aux : Crp) {u : ℝ} (hu : 0 ≤ u ∧ u < 1) :
    ∃ v ∈ l, transitionHypers crpApi [("alpha", u)] ⟨[("alpha", a)], [("alpha", l)], clusters, aux⟩
      = .ok ⟨[("alpha", v)], [("alpha", l)],
          clusters.map fun kc => (kc.1, { kc.2 with alpha := v }), Crp.init v⟩ := by
  obtain ⟨l', e, -, hne, hpos⟩ := crpGrids_ok hX hn
  rw [hg] at e
  simp only [Except.ok.injEq, List.cons.injEq, Prod.mk.injEq, true_and, and_true] at e
  subst e
  have G := crp_good hne hpos clusters
  obtain ⟨g', e, h1, h2, h3, h4, h5, -, h7, h8⟩ := G.transition [("alpha", u)]
    (by simpa [Dict.keys] using hu) ⟨[("alpha", a)], [("alpha", l)], clusters, aux⟩ rfl
    ⟨a, by simp [Dict.get?], ha⟩ (sameAll_refl G.refl)
  obtain ⟨v, hv, hval⟩ := h7 "alpha" l (by simp) (by simp)
  have hk := h8 (by simp [Dict.keys])
  obtain ⟨hyp, gr, cl, ax⟩ := g'
  simp only [Dict.keys, List.map_cons, List.map_nil] at hk
  have hhyp : hyp = [("alpha", v)] := by
    obtain ⟨⟨k1, v1⟩, rfl, rfl⟩ := List.map_eq_singleton_iff.mp hk
    simp only [Dict.get?] at hval
    simpa using hval
  simp only at h1 h3 h4 h5
  subst h1 hhyp
  refine ⟨v, hv, ?_⟩
  rw [e, forall₂_clusters (f := fun c => { c with alpha := v }) h3]
  · congr 2
    simp only [crpApi, Dict.get?, Except.ok.injEq] at h5
    simpa using h5.symm
  · rintro kc hk c0 ⟨e1, e2, e3⟩
    have := h4 kc hk
    rw [hval] at this
    obtain ⟨k, c⟩ := kc
    cases c
    cases c0
    simp only at e1 e2 e3
    simp only [Option.some.injEq] at this
    subst e1 e2 e3 this
    rfl

/-- **C57** The concentration is drawn from its conditional distribution: each value of the grid
has probability proportional to that of the partition under it. -/
theorem C57_crp_conditional {X : List ℝ} {n : ℕ} {l : List ℝ} (hX : X ≠ []) (hn : 0 < n)
    (hg : crpGrids X n = .ok [("alpha", l)]) {a : ℝ} (ha : 0 < a) (clusters : Dict Tab Crp)
    (aux : Crp) (f : Hypers → ℝ) :
    ∫ u in (0 : ℝ)..1, f (transitionHypers crpApi [("alpha", u)]
        ⟨[("alpha", a)], [("alpha", l)], clusters, aux⟩).state.hypers
      = ∑ i : Fin l.length, (Real.exp (crpScore [("alpha", l[i])] clusters)
          / ∑ k : Fin l.length, Real.exp (crpScore [("alpha", l[k])] clusters))
          * f [("alpha", l[i])] := by
  obtain ⟨l', e, -, hne, hpos⟩ := crpGrids_ok hX hn
  rw [hg] at e
  simp only [Except.ok.injEq, List.cons.injEq, Prod.mk.injEq, true_and, and_true] at e
  subst e
  have G := crp_good hne hpos clusters
  have hadm : ∀ v, 0 < v → crpAdm [("alpha", v)] := fun v hv => ⟨v, by simp [Dict.get?], hv⟩
  have hset : ∀ v, Dict.set ([("alpha", a)] : Hypers) "alpha" v = [("alpha", v)] := fun v => by
    simp [Dict.set]
  have := G.conditional (hadm a ha) (name := "alpha") (grid := l) (by simp) [] (by simp) aux
    (sameAll_refl G.refl) f
  simp only [List.length_nil, average, List.zip_nil_right, List.zip_cons_cons, hset] at this
  rw [this]
  refine Finset.sum_congr rfl fun i _ => ?_
  congr 2
  simp only [transitionHypers, finish]
  obtain ⟨cl', e1, -⟩ := G.setClusters (hadm l[i] (hpos _ (List.getElem_mem _)))
    (sameAll_refl G.refl)
  rw [e1]
  rfl

/-- The hypotheses hold of a partition of three rows into two blocks. -/
example : ∃ l, crpGrids [0, 0, 1] 30 = .ok [("alpha", l)] ∧ ∃ v ∈ l,
    transitionHypers crpApi [("alpha", 1 / 2)] ⟨[("alpha", 1)], [("alpha", l)],
        [(0, ⟨1, 3, [(0, 0), (1, 0), (2, 1)], [(0, 2), (1, 1)]⟩)], Crp.init 1⟩
      = .ok ⟨[("alpha", v)], [("alpha", l)],
          [(0, ⟨v, 3, [(0, 0), (1, 0), (2, 1)], [(0, 2), (1, 1)]⟩)], Crp.init v⟩ := by
  obtain ⟨l, e, -⟩ := C56_crp (X := [0, 0, 1]) (by simp) (n := 30) (by norm_num)
  obtain ⟨v, hv, h⟩ := C57_crp_transition (by simp) (by norm_num) e one_pos
    [(0, ⟨1, 3, [(0, 0), (1, 0), (2, 1)], [(0, 2), (1, 1)]⟩)] (Crp.init 1) (u := 1 / 2)
    (by norm_num)
  exact ⟨l, e, v, hv, h⟩

/-! ### C57: linear regressions -/

section linreg
open Cgpm.LinReg Cgpm.Spec.LinReg
variable {out : Col} {inputs : List Col} {types : List InputType}
  {ops : List (RowOp (Vals × Option Vals))} {o : Obj} {n : ℕ}

/-- The Dim that `transition` builds around the regression. -/
noncomputable def linregDim (o : Obj) (grids : Grids) : GDim Obj :=
  ⟨[("a", o.hyp.a), ("b", o.hyp.b)], grids, [(0, o)],
    ⟨o.g, .empty, { LinReg.Hyp.default o.g.p with a := o.hyp.a, b := o.hyp.b }⟩⟩

theorem linregTransition_eq {grids : Grids} (hg : linregGrids o.rows.x.vals n = .ok grids)
    (sweeps : List (List (String × ℝ))) :
    linregTransition n sweeps o
      = (sweeps.foldl (fun r draws => r.bind (transitionHypers (linregApi o.g) draws))
          (Out.ok (linregDim o grids))).map fun g => (g.clusters.get? 0).getD o := by
  have hf : (o.rows.x.vals.map some).filterMap id = o.rows.x.vals := by simp
  simp only [linregTransition, transitionHyperGrids, hf, hg, linregApi, List.isEmpty_cons,
    Bool.false_eq_true, if_false]
  rfl

theorem linreg_withAB_reached (H : Reached out inputs types ops o) {a b : ℝ} (ha : 0 < a)
    (hb : 0 < b) : Reached out inputs types ops (withAB o a b) :=
  ⟨H.schema, H.rows, ⟨ha, hb, H.hyp.V⟩⟩

/-- The log marginal density of the rows as a function of `a` and `b`. -/
noncomputable def linregL (o : Obj) (R : List (ℝ × (Fin o.g.p → ℝ))) (a b : ℝ) : ℝ :=
  Real.log (evidence (⟨a, b, o.hyp.mu, o.hyp.V⟩ : Hyp o.g.p) R)

theorem linreg_withAB_score (H : Reached out inputs types ops o)
    {R : List (ℝ × (Fin o.g.p → ℝ))} (hR : Lists (table out inputs types ops) R) {a b : ℝ}
    (ha : 0 < a) (hb : 0 < b) :
    (withAB o a b).logpdfScore = .ok (some (linregL o R a b)) ∧
      Real.exp (linregL o R a b) = evidence (⟨a, b, o.hyp.mu, o.hyp.V⟩ : Hyp o.g.p) R := by
  obtain ⟨s, e, hs⟩ := C55_score (linreg_withAB_reached H ha hb) (R := R) hR
  have hs' : Real.exp s = evidence (⟨a, b, o.hyp.mu, o.hyp.V⟩ : Hyp o.g.p) R := hs
  have : linregL o R a b = s := by rw [linregL, ← hs', Real.log_exp]
  rw [this]
  exact ⟨e, hs'⟩

theorem linreg_goodAt (H : Reached out inputs types ops o)
    {R : List (ℝ × (Fin o.g.p → ℝ))} (hR : Lists (table out inputs types ops) R)
    {la lb : List ℝ} (hX : o.rows.x.vals ≠ []) (hn : 0 < n)
    (hg : linregGrids o.rows.x.vals n = .ok [("a", la), ("b", lb)]) :
    Good (linregApi o.g) [("a", la), ("b", lb)] linregAdm
      (fun c c0 => ∃ a b, c = withAB o a b ∧ c0 = o)
      (fun c h => h.get? "a" = some c.hyp.a ∧ h.get? "b" = some c.hyp.b)
      (fun h _ => linregL o R ((h.get? "a").getD 0) ((h.get? "b").getD 0)) [(0, o)] ∧
    (∀ v ∈ la, 0 < v) ∧ ∀ v ∈ lb, 0 < v := by
  obtain ⟨la', lb', e, -, -, hla, hlb, pa, pb⟩ := linregGrids_ok hX hn
  rw [hg] at e
  simp only [Except.ok.injEq, List.cons.injEq, Prod.mk.injEq, true_and, and_true] at e
  obtain ⟨rfl, rfl⟩ := e
  exact ⟨linreg_good hla hlb pa pb o _ fun a b ha hb => (linreg_withAB_score H hR ha hb).1, pa, pb⟩

theorem linreg_two {h : Hypers} {a b : ℝ} (hk : h.keys = ["a", "b"]) (ha : h.get? "a" = some a)
    (hb : h.get? "b" = some b) : h = [("a", a), ("b", b)] := by
  match h, hk with
  | [(k1, v1), (k2, v2)], hk =>
    simp only [Dict.keys, List.map_cons, List.map_nil, List.cons.injEq, and_true] at hk
    obtain ⟨rfl, rfl⟩ := hk
    simp [Dict.get?] at ha hb
    rw [ha, hb]

/-- One sweep of the Dim around the regression. -/
theorem linreg_sweep (H : Reached out inputs types ops o)
    {R : List (ℝ × (Fin o.g.p → ℝ))} (hR : Lists (table out inputs types ops) R)
    {la lb : List ℝ} (hX : o.rows.x.vals ≠ []) (hn : 0 < n)
    (hg : linregGrids o.rows.x.vals n = .ok [("a", la), ("b", lb)]) {draws : List (String × ℝ)}
    (hd : (draws.map Prod.fst).Perm ["a", "b"]) (hu : ∀ d ∈ draws, 0 ≤ d.2 ∧ d.2 < 1) :
    ∃ a ∈ la, ∃ b ∈ lb, transitionHypers (linregApi o.g) draws (linregDim o [("a", la), ("b", lb)])
      = .ok (linregDim (withAB o a b) [("a", la), ("b", lb)]) := by
  obtain ⟨G, pa, pb⟩ := linreg_goodAt H hR hX hn hg
  obtain ⟨g', e, h1, h2, h3, h4, h5, -, h7, h8⟩ := G.transition draws
    (fun d hdd => ⟨by
      have : d.1 ∈ ["a", "b"] := hd.mem_iff.mp (List.mem_map_of_mem hdd)
      simpa [Dict.keys] using this, hu d hdd⟩) (linregDim o [("a", la), ("b", lb)]) rfl
    ⟨_, _, by simp [linregDim, Dict.get?], by simp [linregDim, Dict.get?], H.hyp.a, H.hyp.b⟩
    (sameAll_refl G.refl)
  obtain ⟨a, ha, ea⟩ := h7 "a" la (by simp) (hd.mem_iff.mpr (by simp))
  obtain ⟨b, hb, eb⟩ := h7 "b" lb (by simp) (hd.mem_iff.mpr (by simp))
  refine ⟨a, ha, b, hb, ?_⟩
  rw [e]
  have hk := h8 fun name hm => by
    have := hd.mem_iff.mp hm
    simpa [linregDim, Dict.keys] using this
  have hhyp := linreg_two (by rw [hk]; simp [linregDim, Dict.keys]) ea eb
  have hcl := forall₂_clusters (f := fun _ => withAB o a b) h3 (by
    rintro kc hkc c0 ⟨a', b', ec, -⟩
    have := h4 kc hkc
    rw [ea, eb, ec] at this
    simp only [withAB, Option.some.injEq] at this
    rw [ec, this.1, this.2])
  obtain ⟨hyp, gr, cl, ax⟩ := g'
  simp only at h1 hhyp hcl h5
  subst h1 hhyp hcl
  simp [linregApi, Dict.get?] at h5
  rw [← h5]
  rfl

section keys
variable {K : Type} (A : Api K)

theorem evalClusters_keys (h : Hypers) (cl : Dict Tab K) (w : Fl) :
    (evalClusters A h w cl).1.keys = cl.keys := by
  induction cl generalizing w with
  | nil => rfl
  | cons kc t ih =>
    obtain ⟨k, c⟩ := kc
    simp only [evalClusters]
    split
    · rfl
    · split
      · rfl
      · simp only [Dict.keys, List.map_cons, List.cons.injEq, true_and]
        exact ih _

theorem setClusters_keys (h : Hypers) (cl : Dict Tab K) :
    (setClusters A h cl).state.keys = cl.keys := by
  induction cl with
  | nil => rfl
  | cons kc t ih =>
    obtain ⟨k, c⟩ := kc
    simp only [setClusters]
    split
    · rfl
    · cases hs : setClusters A h t <;> rw [hs] at ih <;>
        simpa [Out.map, Out.state, Dict.keys] using ih

theorem gridLogps_keys (name : String) (vs : List ℝ) (g : GDim K) :
    (gridLogps A name vs g).state.clusters.keys = g.clusters.keys := by
  induction vs generalizing g with
  | nil => rfl
  | cons v vs ih =>
    have hk := evalClusters_keys A (g.hypers.set name v) g.clusters (.fin 0)
    simp only [gridLogps]
    split
    · rename_i cl e he
      rw [he] at hk
      exact hk
    · rename_i cl w he
      rw [he] at hk
      have := ih { g with hypers := g.hypers.set name v, clusters := cl }
      split <;> rename_i he2 <;> rw [he2] at this <;> exact this.trans hk

theorem transitionHyper_keys (name : String) (u : ℝ) (g : GDim K) :
    (transitionHyper A name u g).state.clusters.keys = g.clusters.keys := by
  simp only [transitionHyper]
  split
  · rfl
  · rename_i grid _
    have := gridLogps_keys A name grid g
    split
    · rename_i he
      rw [he] at this
      exact this
    · rename_i he
      rw [he] at this
      split
      · exact this
      · split <;> exact this

theorem transitionHypers_keys (draws : List (String × ℝ)) (g : GDim K) :
    (transitionHypers A draws g).state.clusters.keys = g.clusters.keys := by
  induction draws generalizing g with
  | nil =>
    have := setClusters_keys A g.hypers g.clusters
    simp only [transitionHypers, finish]
    split
    · rename_i he
      rw [he] at this
      exact this
    · rename_i he
      rw [he] at this
      split <;> exact this
  | cons d t ih =>
    obtain ⟨name, u⟩ := d
    have := transitionHyper_keys A name u g
    simp only [transitionHypers]
    cases he : transitionHyper A name u g with
    | err e g' =>
      rw [he] at this
      exact this
    | ok g' =>
      rw [he] at this
      exact (ih g').trans this

end keys

theorem linreg_vals (H : Reached out inputs types ops o) {R : List (ℝ × (Fin o.g.p → ℝ))}
    (hR : Lists (table out inputs types ops) R) (hne : R ≠ []) : o.rows.x.vals ≠ [] := by
  obtain ⟨R', hp, hx, -, -⟩ := linreg_rows H hR
  rw [hx]
  intro h
  rw [List.map_eq_nil_iff] at h
  subst h
  exact hne (List.nil_perm.mp hp)

/-- **C57** The transition of a linear regression that has a row, none with a missing covariate:
each sweep changes nothing but `a` and `b`, which become values of the grids, and a transition of
several sweeps is the sequence of its sweeps.  It never raises. -/
theorem C57_linreg_transition (H : Reached out inputs types ops o)
    {R : List (ℝ × (Fin o.g.p → ℝ))} (hR : Lists (table out inputs types ops) R) (hne : R ≠ [])
    (hn : 0 < n) :
    ∃ la lb, linregGrids o.rows.x.vals n = .ok [("a", la), ("b", lb)] ∧
      linregTransition n [] o = .ok o ∧
      ∀ draws : List (String × ℝ), (draws.map Prod.fst).Perm ["a", "b"] →
        (∀ d ∈ draws, 0 ≤ d.2 ∧ d.2 < 1) → ∃ a ∈ la, ∃ b ∈ lb,
          linregTransition n [draws] o = .ok (withAB o a b) ∧
          ∀ sweeps, linregTransition n (draws :: sweeps) o
            = linregTransition n sweeps (withAB o a b) := by
  have hX := linreg_vals H hR hne
  obtain ⟨la, lb, hg, -⟩ := linregGrids_ok hX hn
  refine ⟨la, lb, hg, ?_, fun draws hd hu => ?_⟩
  · rw [linregTransition_eq hg]
    simp [linregDim, Out.map, Dict.get?]
  · obtain ⟨a, ha, b, hb, e⟩ := linreg_sweep H hR hX hn hg hd hu
    refine ⟨a, ha, b, hb, ?_, fun sweeps => ?_⟩
    · rw [linregTransition_eq hg]
      simp only [List.foldl_cons, List.foldl_nil, Out.bind, e]
      simp [linregDim, Out.map, Dict.get?]
    · rw [linregTransition_eq hg, linregTransition_eq (o := withAB o a b) hg]
      have e' : Out.bind (.ok (linregDim o [("a", la), ("b", lb)]))
          (transitionHypers (linregApi o.g) draws)
            = .ok (linregDim (withAB o a b) [("a", la), ("b", lb)]) := e
      rw [List.foldl_cons, e']
      have key : ∀ (sweeps : List (List (String × ℝ))) (r : Out (GDim Obj)),
          r.state.clusters.keys = [0] →
          (sweeps.foldl (fun r draws => r.bind (transitionHypers (linregApi o.g) draws))
            r).state.clusters.keys = [0] := by
        intro sweeps
        induction sweeps with
        | nil => exact fun r h => h
        | cons s t ih =>
          refine fun r h => ih _ ?_
          cases r with
          | err e g => exact h
          | ok g => exact (transitionHypers_keys _ s g).trans h
      have hk := key sweeps (.ok (linregDim (withAB o a b) [("a", la), ("b", lb)]))
        (by simp [linregDim, Out.state, Dict.keys])
      have hd : ∀ g : GDim Obj, g.clusters.keys = [0] →
          (g.clusters.get? 0).getD o = (g.clusters.get? 0).getD (withAB o a b) := fun g hg => by
        obtain ⟨v, hv⟩ := Dict.exists_of_mem_keys (d := g.clusters) (k := 0) (by rw [hg]; simp)
        rw [hv]
        rfl
      cases hr : sweeps.foldl (fun r draws => r.bind (transitionHypers (linregApi o.g) draws))
          (Out.ok (linregDim (withAB o a b) [("a", la), ("b", lb)])) with
      | ok g =>
        rw [hr] at hk
        have := hd g hk
        rw [show (linregApi (withAB o a b).g) = linregApi o.g from rfl, hr]
        simp only [Out.map, this]
      | err e g =>
        rw [hr] at hk
        have := hd g hk
        rw [show (linregApi (withAB o a b).g) = linregApi o.g from rfl, hr]
        simp only [Out.map, this]

theorem average_congr {m : ℕ} {F F' : List ℝ → ℝ}
    (h : ∀ us : List ℝ, us.length = m → (∀ u ∈ us, 0 ≤ u ∧ u < 1) → F us = F' us) :
    average m F = average m F' := by
  induction m generalizing F F' with
  | zero => exact h [] rfl (by simp)
  | succ m ih =>
    simp only [average]
    rw [intervalIntegral.integral_of_le zero_le_one, intervalIntegral.integral_of_le zero_le_one,
      MeasureTheory.integral_Ioc_eq_integral_Ioo, MeasureTheory.integral_Ioc_eq_integral_Ioo]
    refine MeasureTheory.setIntegral_congr_fun measurableSet_Ioo fun u hu => ?_
    exact ih fun us hl hus => h (u :: us) (by simp [hl]) fun v hv => by
      rcases List.mem_cons.mp hv with rfl | hv
      · exact ⟨hu.1.le, hu.2⟩
      · exact hus v hv

theorem linreg_average (H : Reached out inputs types ops o)
    {R : List (ℝ × (Fin o.g.p → ℝ))} (hR : Lists (table out inputs types ops) R) (hne : R ≠ [])
    (hn : 0 < n) {la lb : List ℝ}
    (hg : linregGrids o.rows.x.vals n = .ok [("a", la), ("b", lb)]) {n1 n2 : String}
    (ho : [n1, n2].Perm ["a", "b"]) (f : Obj → ℝ) :
    ∫ u in (0 : ℝ)..1, ∫ v in (0 : ℝ)..1, f (linregTransition n [[(n1, u), (n2, v)]] o).state
      = average 2 fun us =>
        (fun h : Hypers => f (withAB o ((h.get? "a").getD 0) ((h.get? "b").getD 0)))
          (transitionHypers (linregApi o.g) ([n1, n2].zip us)
            (linregDim o [("a", la), ("b", lb)])).state.hypers := by
  show average 2 (fun us => f (linregTransition n [[n1, n2].zip us] o).state) = _
  refine average_congr fun us hl hus => ?_
  obtain ⟨u, v, rfl⟩ := List.length_eq_two.mp hl
  simp only [List.mem_cons, List.not_mem_nil, or_false, forall_eq_or_imp, forall_eq] at hus
  obtain ⟨a, ha, b, hb, e⟩ := linreg_sweep H hR (linreg_vals H hR hne) hn hg
    (draws := [(n1, u), (n2, v)]) (by simpa using ho) (by simpa using hus)
  rw [linregTransition_eq hg]
  simp only [List.zip_cons_cons, List.zip_nil_right, List.foldl_cons, List.foldl_nil, Out.bind, e]
  simp [linregDim, Out.map, Out.state, Dict.get?, withAB]

theorem linreg_two_steps (H : Reached out inputs types ops o)
    {R : List (ℝ × (Fin o.g.p → ℝ))} (hR : Lists (table out inputs types ops) R) (hne : R ≠ [])
    (hn : 0 < n) {la lb : List ℝ}
    (hg : linregGrids o.rows.x.vals n = .ok [("a", la), ("b", lb)]) {n1 n2 : String}
    {l1 l2 : List ℝ} (h1 : (n1, l1) ∈ [("a", la), ("b", lb)])
    (h2 : (n2, l2) ∈ [("a", la), ("b", lb)]) (F : Hypers → ℝ) :
    average 2 (fun us => F (transitionHypers (linregApi o.g) ([n1, n2].zip us)
        (linregDim o [("a", la), ("b", lb)])).state.hypers)
      = let L := fun h : Hypers => linregL o R ((h.get? "a").getD 0) ((h.get? "b").getD 0)
        let h0 : Hypers := [("a", o.hyp.a), ("b", o.hyp.b)]
        ∑ i : Fin l1.length, (Real.exp (L (h0.set n1 l1[i]))
            / ∑ k : Fin l1.length, Real.exp (L (h0.set n1 l1[k])))
          * ∑ j : Fin l2.length, (Real.exp (L ((h0.set n1 l1[i]).set n2 l2[j]))
              / ∑ k : Fin l2.length, Real.exp (L ((h0.set n1 l1[i]).set n2 l2[k])))
            * F ((h0.set n1 l1[i]).set n2 l2[j]) := by
  obtain ⟨G, pa, pb⟩ := linreg_goodAt H hR (linreg_vals H hR hne) hn hg
  have hadm : linregAdm [("a", o.hyp.a), ("b", o.hyp.b)] :=
    ⟨_, _, by simp [Dict.get?], by simp [Dict.get?], H.hyp.a, H.hyp.b⟩
  have hk2 : n2 ∈ Dict.keys [("a", la), ("b", lb)] := List.mem_map_of_mem (f := Prod.fst) h2
  have e1 := G.conditional hadm h1 [n2] (by simpa using hk2) (linregDim o []).aux
    (sameAll_refl G.refl) F
  simp only [likAll, List.map_cons, List.map_nil, List.sum_cons, List.sum_nil, add_zero] at e1
  refine e1.trans ?_
  refine Finset.sum_congr rfl fun i _ => ?_
  congr 1
  have hadm1 := G.closed _ hadm n1 l1 h1 l1[i] (List.getElem_mem _)
  have e2 := G.conditional hadm1 h2 [] (by simp) (linregDim o []).aux
    (sameAll_refl G.refl) F
  simp only [likAll, List.map_cons, List.map_nil, List.sum_cons, List.sum_nil, add_zero] at e2
  refine e2.trans ?_
  refine Finset.sum_congr rfl fun j _ => ?_
  congr 1
  have hadm2 := G.closed _ hadm1 n2 l2 h2 l2[j] (List.getElem_mem _)
  obtain ⟨cl', e3, -⟩ := G.setClusters hadm2 (sameAll_refl G.refl)
  simp only [List.length_nil, average, List.zip_nil_right, transitionHypers, finish, e3]
  rfl

/-- **C57** A sweep that visits `a` before `b` draws `a` with probability proportional to the
marginal density of the rows given the current `b`, then `b` with probability proportional to it
given the new `a`; a sweep in the other order likewise. -/
theorem C57_linreg_conditional (H : Reached out inputs types ops o)
    {R : List (ℝ × (Fin o.g.p → ℝ))} (hR : Lists (table out inputs types ops) R) (hne : R ≠ [])
    (hn : 0 < n) {la lb : List ℝ}
    (hg : linregGrids o.rows.x.vals n = .ok [("a", la), ("b", lb)]) (f : Obj → ℝ) :
    let E := fun a b => evidence (⟨a, b, o.hyp.mu, o.hyp.V⟩ : Hyp o.g.p) R
    ∫ u in (0 : ℝ)..1, ∫ v in (0 : ℝ)..1, f (linregTransition n [[("a", u), ("b", v)]] o).state
      = ∑ i : Fin la.length, (E la[i] o.hyp.b / ∑ k : Fin la.length, E la[k] o.hyp.b)
        * ∑ j : Fin lb.length, (E la[i] lb[j] / ∑ k : Fin lb.length, E la[i] lb[k])
          * f (withAB o la[i] lb[j]) ∧
    ∫ u in (0 : ℝ)..1, ∫ v in (0 : ℝ)..1, f (linregTransition n [[("b", u), ("a", v)]] o).state
      = ∑ j : Fin lb.length, (E o.hyp.a lb[j] / ∑ k : Fin lb.length, E o.hyp.a lb[k])
        * ∑ i : Fin la.length, (E la[i] lb[j] / ∑ k : Fin la.length, E la[k] lb[j])
          * f (withAB o la[i] lb[j]) := by
  intro E
  obtain ⟨G, pa, pb⟩ := linreg_goodAt H hR (linreg_vals H hR hne) hn hg
  have hE : ∀ a b, 0 < a → 0 < b → Real.exp (linregL o R a b) = E a b := fun a b ha hb =>
    (linreg_withAB_score H hR ha hb).2
  have sa : ∀ x y v : ℝ, Dict.set ([("a", x), ("b", y)] : Hypers) "a" v = [("a", v), ("b", y)] :=
    fun x y v => by simp [Dict.set]
  have sb : ∀ x y v : ℝ, Dict.set ([("a", x), ("b", y)] : Hypers) "b" v = [("a", x), ("b", v)] :=
    fun x y v => by simp [Dict.set]
  have ga : ∀ x y : ℝ, Dict.get? ([("a", x), ("b", y)] : Hypers) "a" = some x :=
    fun x y => by simp [Dict.get?]
  have gb : ∀ x y : ℝ, Dict.get? ([("a", x), ("b", y)] : Hypers) "b" = some y :=
    fun x y => by simp [Dict.get?]
  have qa : ∀ i : Fin la.length, 0 < la[i] := fun i => pa _ (List.getElem_mem _)
  have qb : ∀ i : Fin lb.length, 0 < lb[i] := fun i => pb _ (List.getElem_mem _)
  constructor
  · refine (linreg_average H hR hne hn hg (List.Perm.refl _) f).trans
      ((linreg_two_steps H hR hne hn hg (n1 := "a") (n2 := "b") (l1 := la) (l2 := lb)
        (by simp) (by simp) (fun h : Hypers =>
          f (withAB o ((h.get? "a").getD 0) ((h.get? "b").getD 0)))).trans ?_)
    simp only [sa, sb, ga, gb, Option.getD_some, hE _ _ (qa _) (qb _), hE _ _ (qa _) H.hyp.b,
      hE _ _ H.hyp.a (qb _)]
  · refine (linreg_average H hR hne hn hg (List.Perm.swap _ _ _) f).trans
      ((linreg_two_steps H hR hne hn hg (n1 := "b") (n2 := "a") (l1 := lb) (l2 := la)
        (by simp) (by simp) (fun h : Hypers =>
          f (withAB o ((h.get? "a").getD 0) ((h.get? "b").getD 0)))).trans ?_)
    simp only [sa, sb, ga, gb, Option.getD_some, hE _ _ (qa _) (qb _), hE _ _ (qa _) H.hyp.b,
      hE _ _ H.hyp.a (qb _)]

/-- **C57** The posterior distribution of `a` and `b` on the grids is invariant under a sweep, in
either order. -/
theorem C57_linreg_invariant (H : Reached out inputs types ops o)
    {R : List (ℝ × (Fin o.g.p → ℝ))} (hR : Lists (table out inputs types ops) R) (hne : R ≠ [])
    (hn : 0 < n) {la lb : List ℝ}
    (hg : linregGrids o.rows.x.vals n = .ok [("a", la), ("b", lb)]) {n1 n2 : String}
    (ho : [n1, n2].Perm ["a", "b"]) (f : Obj → ℝ) :
    let E := fun a b => evidence (⟨a, b, o.hyp.mu, o.hyp.V⟩ : Hyp o.g.p) R
    ∑ i : Fin la.length, ∑ j : Fin lb.length, E la[i] lb[j] *
        ∫ u in (0 : ℝ)..1, ∫ v in (0 : ℝ)..1,
          f (linregTransition n [[(n1, u), (n2, v)]] (withAB o la[i] lb[j])).state
      = ∑ i : Fin la.length, ∑ j : Fin lb.length, E la[i] lb[j] * f (withAB o la[i] lb[j]) := by
  intro E
  obtain ⟨G, pa, pb⟩ := linreg_goodAt H hR (linreg_vals H hR hne) hn hg
  have qa : ∀ i : Fin la.length, 0 < la[i] := fun i => pa _ (List.getElem_mem _)
  have qb : ∀ i : Fin lb.length, 0 < lb[i] := fun i => pb _ (List.getElem_mem _)
  have hpos : ∀ (i : Fin la.length) (j : Fin lb.length), 0 < E la[i] lb[j] := fun i j => by
    have := (linreg_withAB_score H hR (qa i) (qb j)).2
    show 0 < evidence _ R
    rw [← this]
    exact Real.exp_pos _
  have hc := fun (i : Fin la.length) (j : Fin lb.length) =>
    C57_linreg_conditional (linreg_withAB_reached H (qa i) (qb j)) (R := R) hR hne hn
      (show linregGrids (withAB o la[i] lb[j]).rows.x.vals n = _ from hg) f
  have hcase : (n1 = "a" ∧ n2 = "b") ∨ (n1 = "b" ∧ n2 = "a") := by
    have h1 : n1 ∈ ["a", "b"] := ho.mem_iff.mp (by simp)
    have h2 : n2 ∈ ["a", "b"] := ho.mem_iff.mp (by simp)
    have hnd : [n1, n2].Nodup := ho.nodup_iff.mpr (by simp)
    simp only [List.mem_cons, List.not_mem_nil, or_false, List.nodup_cons] at h1 h2 hnd
    rcases h1 with rfl | rfl <;> rcases h2 with rfl | rfl <;> simp_all
  -- one Gibbs step leaves the weights invariant
  have step : ∀ {m : ℕ} (w : Fin m → ℝ), (∀ i, 0 < w i) → ∀ g : Fin m → ℝ,
      ∑ i, w i * ∑ k, (w k / ∑ l, w l) * g k = ∑ k, w k * g k := by
    intro m w hw g
    rw [← Finset.sum_mul]
    rcases Nat.eq_zero_or_pos m with rfl | hm
    · simp
    · have : (0 : ℝ) < ∑ l, w l :=
        Finset.sum_pos (fun i _ => hw i) ⟨⟨0, hm⟩, Finset.mem_univ _⟩
      rw [Finset.mul_sum]
      refine Finset.sum_congr rfl fun k _ => ?_
      field_simp
  rcases hcase with ⟨rfl, rfl⟩ | ⟨rfl, rfl⟩
  · rw [Finset.sum_congr rfl fun i _ => Finset.sum_congr rfl fun j _ =>
      congrArg (E la[i] lb[j] * ·) (hc i j).1]
    rw [Finset.sum_comm]
    rw [Finset.sum_congr rfl fun j _ => step (fun i => E la[i] lb[j]) (fun i => hpos i j)
      fun i => ∑ k : Fin lb.length, (E la[i] lb[k] / ∑ l : Fin lb.length, E la[i] lb[l])
        * f (withAB o la[i] lb[k])]
    rw [Finset.sum_comm]
    exact Finset.sum_congr rfl fun i _ => step (fun j => E la[i] lb[j]) (fun j => hpos i j)
      fun j => f (withAB o la[i] lb[j])
  · rw [Finset.sum_congr rfl fun i _ => Finset.sum_congr rfl fun j _ =>
      congrArg (E la[i] lb[j] * ·) (hc i j).2]
    rw [Finset.sum_congr rfl fun i _ => step (fun j => E la[i] lb[j]) (fun j => hpos i j)
      fun j => ∑ k : Fin la.length, (E la[k] lb[j] / ∑ l : Fin la.length, E la[l] lb[j])
        * f (withAB o la[k] lb[j])]
    rw [Finset.sum_comm]
    rw [Finset.sum_congr rfl fun j _ => step (fun i => E la[i] lb[j]) (fun i => hpos i j)
      fun i => f (withAB o la[i] lb[j])]
    rw [Finset.sum_comm]

/-- The hypotheses hold of the regression with two rows of Verif/Props/LinReg.lean. -/
example : ∃ la lb, ∃ a ∈ la, ∃ b ∈ lb,
    linregGrids (linregDemo.run linregCalls).rows.x.vals 30 = .ok [("a", la), ("b", lb)] ∧
    linregTransition 30 [[("b", 1 / 3), ("a", 0)]] (linregDemo.run linregCalls)
      = .ok (withAB (linregDemo.run linregCalls) a b) := by
  have H : Reached 0 [1] [.numeric] (rowCalls linregCalls) (linregDemo.run linregCalls) :=
    C55_history (fun p => hyp_default_valid p) (hypers := Hyp.default) rfl linregCalls
  have hg : (linregDemo.run linregCalls).g.p = 2 := by
    have := H.schema
    have h0 : RegSchema.new predictorCount 0 [1] [.numeric] = .ok linregDemo.g := rfl
    rw [h0] at this
    simp only [Except.ok.injEq] at this
    rw [← this]
    rfl
  have hL : ∃ R : List (ℝ × (Fin (linregDemo.run linregCalls).g.p → ℝ)), R ≠ [] ∧
      Lists (table 0 [1] [.numeric] (rowCalls linregCalls)) R := by
    rw [hg]
    exact ⟨_, by simp, linreg_demo_lists⟩
  obtain ⟨R, hne, hR⟩ := hL
  obtain ⟨la, lb, e, -, h⟩ := C57_linreg_transition H hR hne (n := 30) (by norm_num)
  obtain ⟨a, ha, b, hb, h1, -⟩ := h [("b", 1 / 3), ("a", 0)] (List.Perm.swap _ _ _) (by
    intro d hd
    simp only [List.mem_cons, List.not_mem_nil, or_false] at hd
    rcases hd with rfl | rfl <;> norm_num)
  exact ⟨la, lb, a, ha, b, hb, e, h1⟩

end linreg
end Cgpm.Props
