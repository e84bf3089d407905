import Verif.Lemmas.ViewSpec

/-!
Properties C11-C14, C50 and C51: views (src/mixtures/view.py).
They are stated for every view that arises from a history of legal calls
(`Verif/Spec/View.lean`) on an empty view, over every lawful catalogue of component
types; `catOf_lawful` shows that the ten primitives form one.
-/
namespace Cgpm.Props
open Cgpm Cgpm.View

variable {C : Cat}

/-! ### C11 -/

/-- **C11.** After every history of legal calls, with every outcome of the random draws,
the view is consistent with the data set. -/
theorem C11_consistent (hC : C.Lawful) (X : C.Tbl) (a : ℝ) (ha : 0 < a) (ops : List (View.Op C))
    (h : legalRun (X, View.empty a) ops) :
    Consistent (View.run (X, View.empty a) ops).1 (View.run (X, View.empty a) ops).2 :=
  consistent_of (inv_legalRun hC (s := (X, View.empty a)) (inv_empty X ha) ops h)

/-- **C11.** Which calls are accepted, and what they do to the row partition and to the
set of columns.  An accepted call never raises midway. -/
theorem C11_effect (hC : C.Lawful) {X : C.Tbl} {v : View C} (h : Reachable X v) :
    (∀ r obs k z, v.seat r ≠ none → v.incorporate X r obs k z = .err .valueError v) ∧
    (∀ r obs k z, v.seat r = none → legal (X, v) (.inc r obs k z) →
      ∃ v', v.incorporate X r obs k z = .ok v' ∧
        (∀ r', v'.seat r' = if r' = r then some (k.getD z) else v.seat r') ∧
        (∀ c, c ∈ v'.dims.keys ↔ c ∈ v.dims.keys)) ∧
    (∀ r, v.seat r = none → ∃ e, v.unincorporate r = .err e v) ∧
    (∀ r, v.seat r ≠ none → ∃ v', v.unincorporate r = .ok v' ∧
        (∀ r', v'.seat r' = if r' = r then none else v.seat r') ∧
        (∀ c, c ∈ v'.dims.keys ↔ c ∈ v.dims.keys)) ∧
    (∀ c ins i hy, (C.F i).hypOk hy →
      ((v.incorporateDim X (Dim.new c ins i hy) true).isOk = true ↔
        ∀ r, v.seat r ≠ none → admissible X (Dim.new c ins i hy) r) ∧
      ∀ v', v.incorporateDim X (Dim.new c ins i hy) true = .ok v' → v'.seat = v.seat ∧
        ∀ c', c' ∈ v'.dims.keys ↔ c' = c ∨ c' ∈ v.dims.keys) := by
  have hI := h.inv hC
  have same : ∀ v' : View C, Same v v' → ∀ c, c ∈ v'.dims.keys ↔ c ∈ v.dims.keys := by
    intro v' hs c
    have := hs c
    rw [← Dict.get?_isSome_iff, ← Dict.get?_isSome_iff]
    revert this
    cases v.dims.get? c <;> cases v'.dims.get? c <;> intro h <;> cases h <;> simp
  refine ⟨fun r obs k z hr => View.incorporate_dup hr k z obs, ?_,
    fun r hr => View.unincorporate_missing hI hr, ?_, ?_⟩
  · intro r obs k z hr hl
    obtain ⟨h1, h2⟩ := legal_of hI hl hr
    obtain ⟨v', g1, -, g3, -, g5⟩ := incorporate_sampled_ok hC hI hr k z h2 h1
    exact ⟨v', g1, fun r' => by rw [g3]; rfl, same v' g5⟩
  · intro r hr
    obtain ⟨v', g1, -, g3, -, -, g6⟩ := View.unincorporate_ok hC hI hr
    exact ⟨v', g1, fun r' => by rw [g3]; rfl, same v' g6.same⟩
  · intro c ins i hy hh
    rcases incorporateDim_spec hI (Dim.new c ins i hy) hh with
      ⟨d', g1, g2, g3, g4⟩ | ⟨e, r, g1, g2, g3⟩
    · rw [g1]
      refine ⟨⟨fun _ r hr => (admissible_iff _ _ _).mpr (g4 r hr), fun _ => rfl⟩, ?_⟩
      intro v' hv'
      have := Out.ok.inj hv'
      rw [← this]
      refine ⟨rfl, fun c' => ?_⟩
      rw [Dict.mem_keys_set]; rfl
    · rw [g1]
      refine ⟨⟨fun hf => (by cases hf), fun hall => ?_⟩, fun v' hv' => by cases hv'⟩
      exact absurd ((admissible_iff _ _ _).mp (hall r g2)) g3

/-! The hypotheses are met: over the data set whose cells all hold 1, every history of
additions, removals and moves of rows on a view with one bernoulli column is legal. -/

/-- a data set of ones -/
noncomputable def onesTbl : libCat.Tbl := fun _ _ => some (1 : ℝ)

/-- all columns are bernoulli columns without inputs, named 0 -/
def OneCol (v : View libCat) : Prop := ∀ c d, v.dims.get? c = some d →
  c = 0 ∧ d.index = 0 ∧ d.kind = ⟨.bernoulli, trivial⟩ ∧ d.inputs = []

/-- additions, removals and moves of rows -/
def RowOp : View.Op libCat → Prop
  | .inc _ obs _ _ => obs = [(0, some (1 : ℝ))]
  | .unc _ => True
  | .gibbs _ _ => True
  | _ => False

theorem oneCol_same {v v' : View libCat} (h : OneCol v) (hs : Same v v') : OneCol v' := by
  intro c d' hd'
  have := hs c
  rw [hd'] at this
  cases hd : v.dims.get? c with
  | none => rw [hd] at this; cases this
  | some d =>
    rw [hd] at this
    cases this with
    | some hf =>
      obtain ⟨h1, h2, h3, h4⟩ := h c d hd
      exact ⟨h1, hf.index.trans h2, hf.kind.trans h3, hf.inputs.trans h4⟩

theorem rowOps_legal (v : View libCat) (hI : Inv onesTbl v) (h1 : OneCol v)
    (ops : List (View.Op libCat)) (hops : ∀ op ∈ ops, RowOp op) : legalRun (onesTbl, v) ops := by
  have hC := catOf_lawful fun _ => True
  have hok : (libCat.F ⟨.bernoulli, trivial⟩).prep ((1 : ℝ), []) = .ok ((1 : ℝ), []) :=
    (C10_primitives_store _ _ _).mpr ⟨rfl, by simp [remembered, support]⟩
  induction ops generalizing v with
  | nil => trivial
  | cons op ops ih =>
    have hop := hops op (by simp)
    have hrest : ∀ o ∈ ops, RowOp o := fun o ho => hops o (by simp [ho])
    have hleg : legal (onesTbl, v) op := by
      cases op with
      | inc r obs k z =>
        intro _ c d hd
        obtain ⟨rfl, e1, e2, e3⟩ := h1 c d hd
        simp only [RowOp] at hop
        subst hop
        refine ⟨rfl, ?_⟩
        unfold admissible fileOf
        rw [e1, e2, e3]
        simp [file, onesTbl, hok]
      | unc r => trivial
      | gibbs r z => trivial
      | force r c x => exact hop.elim
      | incDim c ins i hy => exact hop.elim
      | uncDim c => exact hop.elim
      | cctype c i ins hy => exact hop.elim
      | alpha a => exact hop.elim
      | hypers c hy => exact hop.elim
    have hL := legal_of (s := (onesTbl, v)) hI hleg
    have hX : (View.apply (onesTbl, v) op).1 = onesTbl := by
      cases op <;> first | rfl | exact hop.elim
    have hI' := hI.apply hC (s := (onesTbl, v)) op hL
    rw [hX] at hI'
    refine ⟨hleg, ?_⟩
    rw [hX]
    refine ih _ hI' (oneCol_same h1 ?_) hrest
    cases op with
    | inc r obs k z =>
      by_cases hr : v.seat r = none
      · obtain ⟨g1, g2⟩ := hL hr
        obtain ⟨v', f1, -, -, -, f5⟩ := incorporate_sampled_ok hC hI hr k z g2 g1
        simp only [View.apply, f1]; exact f5
      · simp only [View.apply, View.incorporate_dup hr]; exact Same.refl v
    | unc r =>
      by_cases hr : v.seat r = none
      · obtain ⟨e, he⟩ := View.unincorporate_missing hI hr
        simp only [View.apply, he]; exact Same.refl v
      · obtain ⟨v', f1, -, -, -, -, f6⟩ := View.unincorporate_ok hC hI hr
        simp only [View.apply, f1]; exact f6.same
    | gibbs r z =>
      by_cases hr : v.seat r = none
      · obtain ⟨e, he⟩ := gibbsTransitionRow_missing (X := onesTbl) hr z
        simp only [View.apply, he]; exact Same.refl v
      · obtain ⟨v', f1, -, -, -, f5⟩ := gibbsTransitionRow_ok hC hI hr z
        simp only [View.apply, f1]; exact f5
    | force r c x => exact hop.elim
    | incDim c ins i hy => exact hop.elim
    | uncDim c => exact hop.elim
    | cctype c i ins hy => exact hop.elim
    | alpha a => exact hop.elim
    | hypers c hy => exact hop.elim

/-- A history with a column, three rows, a move and a removal is legal. -/
example : legalRun (onesTbl, View.empty 1)
    (.incDim 0 [] ⟨.bernoulli, trivial⟩ ⟨.bernoulli, ⟨1, 1⟩⟩ ::
      [.inc 0 [(0, some (1 : ℝ))] (some 0) 0, .inc 1 [(0, some (1 : ℝ))] none 5,
        .inc 2 [(0, some (1 : ℝ))] none 0, .gibbs 0 5, .unc 1, .unc 7]) := by
  have hyp : (libCat.F ⟨.bernoulli, trivial⟩).hypOk ⟨.bernoulli, ⟨1, 1⟩⟩ :=
    ⟨rfl, one_pos, one_pos⟩
  refine ⟨hyp, rowOps_legal _ ?_ ?_ _ ?_⟩
  · exact (inv_empty onesTbl one_pos).apply (catOf_lawful _)
      (s := (onesTbl, View.empty 1)) (.incDim 0 [] _ _) hyp
  · intro c d hd
    simp only [View.apply, incorporateDim, bulkIncorporate, View.empty, Crp.init, bulkFold,
      Dim.new, if_true, Out.state_ok, Dict.set, Dict.get?] at hd
    split at hd
    · rename_i e; cases hd; exact ⟨e.symm, rfl, rfl, rfl⟩
    · cases hd
  · intro op hop
    simp only [List.mem_cons, List.not_mem_nil, or_false] at hop
    rcases hop with rfl | rfl | rfl | rfl | rfl | rfl <;> first | rfl | trivial

/-! ### C12 -/

/-- **C12.** Adding a fresh row, in a given or a sampled cluster, and removing it again
restores every observable of the view. -/
theorem C12_add_remove_row (hC : C.Lawful) {X : C.Tbl} {v : View C} (h : Reachable X v) (r : Row)
    (obs : Dict Col C.Cell) (k : Option Tab) (z : Tab) (hr : v.seat r = none)
    (hl : legal (X, v) (.inc r obs k z)) :
    ∃ v1 v2, v.incorporate X r obs k z = .ok v1 ∧ v1.seat r = some (k.getD z) ∧
      v1.unincorporate r = .ok v2 ∧ View.Equiv v v2 := by
  have hI := h.inv hC
  obtain ⟨h1, h2⟩ := legal_of hI hl hr
  obtain ⟨v1, g1, g2, g3, g4, g5⟩ := incorporate_sampled_ok hC hI hr k z h2 h1
  have hs1 : v1.seat r = some (k.getD z) := by rw [g3]; simp
  obtain ⟨v2, f1, f2, f3, f4, -, f6⟩ := View.unincorporate_ok hC g2 (r := r) (by rw [hs1]; simp)
  refine ⟨v1, v2, g1, hs1, f1, View.equiv_of_inv hC hI f2 (by rw [f4, g4]) ?_ (g5.trans f6.same)⟩
  rw [f3, g3, upd_upd, ← hr, upd_eq]

/-- **C12.** Views with the same observables have the same scores and the same predictive
densities for hypothetical rows, whatever the column, the cluster, the value and the inputs. -/
theorem C12_same_answers {a b : View C} (h : View.Equiv a b) :
    a.score = b.score ∧ a.likelihood = b.likelihood ∧
    (∀ t, a.crp.logpdf none t = b.crp.logpdf none t) ∧
    ∀ c da db, a.dims.get? c = some da → b.dims.get? c = some db → ∀ k x ins,
      da.logpdf none k x ins = db.logpdf none k x ins := by
  refine ⟨h.score, ?_, ?_, ?_⟩
  · exact sum_rel h.wfA h.wfB h.dims (fun _ _ e => e.score)
  · intro t
    have hc : a.crp.counts.get? t = b.crp.counts.get? t := by
      apply Dict.get?_perm h.crp.wfC h.crp.counts
    simp only [Crp.logpdf, Crp.calcPredictiveLogp, Option.bind_none, hc, h.crp.N, h.crp.alpha]
  · intro c da db ha hb k x ins
    have hd := h.dims c
    rw [ha, hb] at hd
    cases hd with
    | some e =>
      unfold Dim.logpdf
      cases validObs x ins with
      | none => rfl
      | some o =>
        have hf : da.fam = db.fam := by unfold Dim.fam; rw [e.kind]
        have hcl : Comp.Equiv (da.clusterOr k) (db.clusterOr k) := by
          unfold Dim.clusterOr
          have := e.cl k
          revert this
          cases da.clusters.get? k <;> cases db.clusters.get? k <;> intro h <;> cases h
          · exact e.aux
          · assumption
        simp only [Comp.logpdf, Option.bind_none, hcl.hyp, hcl.stat, hf]

/-! ### C13 -/

/-- **C13.** Computing the Gibbs weights of a row never raises for a row of the view and
leaves every observable as it was; for other rows it is refused. -/
theorem C13_scoring_is_pure (hC : C.Lawful) {X : C.Tbl} {v : View C} (h : Reachable X v)
    (r : Row) :
    (v.seat r ≠ none → ∃ ws v1, v.gibbsScore X r = .ok ws v1 ∧ View.Equiv v v1) ∧
    (v.seat r = none → ∃ e, v.gibbsScore X r = .err e v) := by
  have hI := h.inv hC
  refine ⟨fun hr => ?_, fun hr => gibbsScore_missing hr⟩
  obtain ⟨ws, v1, h1, h2, h3, h4⟩ := gibbsScore_ok hC hI hr
  refine ⟨ws, v1, h1, View.equiv_of_inv hC hI h2 (by rw [h3]) ?_ h4.same⟩
  unfold View.seat; rw [h3]

/-- **C13.** A row transition to any sampled cluster `z` moves that row to `z` and nothing
else: the other rows, the concentration, the columns with their types and
hyperparameters are those of before, and the view is still consistent with the same data. -/
theorem C13_transition_moves_one_row (hC : C.Lawful) {X : C.Tbl} {v : View C}
    (h : Reachable X v) (r : Row) (hr : v.seat r ≠ none) (z : Tab) :
    ∃ v', v.gibbsTransitionRow X r z = .ok v' ∧ v'.seat r = some z ∧
      (∀ r', r' ≠ r → v'.seat r' = v.seat r') ∧ v'.crp.alpha = v.crp.alpha ∧
      (∀ c, Option.Rel (fun d d' => d'.index = d.index ∧ d'.inputs = d.inputs ∧ d'.kind = d.kind ∧
        d'.hyp = d.hyp) (v.dims.get? c) (v'.dims.get? c)) ∧ Consistent X v' := by
  obtain ⟨v', g1, g2, g3, g4, g5⟩ := gibbsTransitionRow_ok hC (h.inv hC) hr z
  refine ⟨v', g1, by rw [g3]; simp, fun r' hr' => by rw [g3, upd_ne _ _ hr'], g4, fun c => ?_,
    consistent_of g2⟩
  have := g5 c
  revert this
  cases v.dims.get? c <;> cases v'.dims.get? c <;> intro h <;> cases h
  · exact Option.Rel.none
  · rename_i h; exact Option.Rel.some ⟨h.index, h.inputs, h.kind, h.hyp⟩

/-! ### C14 -/

/-- **C14.** For a catalogue of collapsed component types: the row transition considers
each candidate cluster once, and the log weight of a candidate is the joint score of the
view in which the row sits in that cluster, up to one constant. -/
theorem C14_weights_are_scores (hC : C.Lawful) (hCh : C.Chain) {X : C.Tbl} {v : View C}
    (h : Reachable X v) (r : Row) (hr : v.seat r ≠ none) :
    ∃ ws v1, v.gibbsScore X r = .ok ws v1 ∧ (ws.map Prod.fst).Nodup ∧
      (∀ t r', v.seat r' = some t → t ∈ ws.map Prod.fst) ∧
      ∃ const : ℝ, ∀ k w, (k, w) ∈ ws →
        ∃ vk, v.migrateRow X r k = .ok vk ∧ vk.seat r = some k ∧
          w = ((vk.score + const : ℝ) : LogP) := by
  have hI := h.inv hC
  obtain ⟨ws, v1, c, h1, h2, h3, h4⟩ := gibbsScore_value hC hCh hI hr
  refine ⟨ws, v1, h1, h2, ?_, c, ?_⟩
  · intro t r' ht
    have : t ∈ v.crp.counts.keys := (Crp.occupied_iff hI.crp t).mpr ⟨r', ht⟩
    simp only [Crp.gibbsTables, if_neg (by omega : ¬ (1:ℕ) = 0)] at h3
    by_cases hs : v.crp.singleton (some r) = true
    · simp only [hs, if_true] at h3
      have e := Except.ok.inj ((if_neg (by simp)).symm.trans h3)
      rw [← e, List.mem_append, (pySorted_perm _).mem_iff]
      exact Or.inl this
    · have hne : ¬ (List.isEmpty v.crp.counts = true ∧ 0 < 1) := by
        rintro ⟨he, -⟩
        rw [List.isEmpty_iff] at he
        rw [he] at this; simp [Dict.keys] at this
      simp only [hs, Bool.false_eq_true, if_false, if_neg hne] at h3
      have e := Except.ok.inj h3
      rw [← e, List.mem_append, (pySorted_perm _).mem_iff]
      exact Or.inl this
  · intro k w hkw
    obtain ⟨vk, g1, g2⟩ := h4 (k, w) hkw
    obtain ⟨vk', f1, -, f3, -⟩ := migrateRow_ok hC hI hr k
    rw [g1] at f1
    cases f1
    exact ⟨vk, g1, by rw [f3]; simp, g2⟩

/-- **C14.** Hence the difference of two log weights is the difference of the joint
scores ... -/
theorem C14_weight_differences (hC : C.Lawful) (hCh : C.Chain) {X : C.Tbl} {v : View C}
    (h : Reachable X v) (r : Row) (hr : v.seat r ≠ none) :
    ∃ ws v1, v.gibbsScore X r = .ok ws v1 ∧
      ∀ k w k' w' vk vk', (k, w) ∈ ws → (k', w') ∈ ws → v.migrateRow X r k = .ok vk →
        v.migrateRow X r k' = .ok vk' →
        ∃ x x' : ℝ, w = (x : LogP) ∧ w' = (x' : LogP) ∧ x - x' = vk.score - vk'.score := by
  obtain ⟨ws, v1, h1, -, -, c, h4⟩ := C14_weights_are_scores hC hCh h r hr
  refine ⟨ws, v1, h1, ?_⟩
  intro k w k' w' vk vk' hk hk' hm hm'
  obtain ⟨uk, g1, -, g2⟩ := h4 k w hk
  obtain ⟨uk', f1, -, f2⟩ := h4 k' w' hk'
  rw [hm] at g1; cases g1
  rw [hm'] at f1; cases f1
  exact ⟨_, _, g2, f2, by ring⟩

/-- **C14.** ... and the normalised probability of moving the row to cluster `k` is the
posterior probability of that assignment among the candidates. -/
theorem C14_transition_probability (hC : C.Lawful) (hCh : C.Chain) {X : C.Tbl} {v : View C}
    (h : Reachable X v) (r : Row) (hr : v.seat r ≠ none) :
    ∃ ws v1 vs, v.gibbsScore X r = .ok ws v1 ∧
      List.Forall₂ (fun p (u : View C) => v.migrateRow X r p.1 = .ok u) ws vs ∧
      List.Forall₂ (fun p (u : View C) =>
        pr p.2 / (ws.map fun q => pr q.2).sum =
          Real.exp u.score / (vs.map fun u => Real.exp u.score).sum) ws vs := by
  obtain ⟨ws, v1, h1, -, -, c, h4⟩ := C14_weights_are_scores hC hCh h r hr
  have key : ∀ l : List (Tab × LogP), (∀ p ∈ l, p ∈ ws) → ∃ vs : List (View C),
      List.Forall₂ (fun p (u : View C) => v.migrateRow X r p.1 = .ok u ∧
        pr p.2 = Real.exp c * Real.exp u.score) l vs := by
    intro l hl
    induction l with
    | nil => exact ⟨[], List.Forall₂.nil⟩
    | cons p t ih =>
      obtain ⟨vs, hvs⟩ := ih (fun q hq => hl q (by simp [hq]))
      obtain ⟨u, g1, -, g2⟩ := h4 p.1 p.2 (hl p (by simp))
      refine ⟨u :: vs, List.Forall₂.cons ⟨g1, ?_⟩ hvs⟩
      rw [g2, pr_coe, Real.exp_add, mul_comm]
  obtain ⟨vs, hvs⟩ := key ws (fun _ h => h)
  have hsum : (ws.map fun q => pr q.2).sum =
      Real.exp c * (vs.map fun u => Real.exp u.score).sum := by
    clear h4 h1 key
    induction hvs with
    | nil => simp
    | cons h _ ih => simp only [List.map_cons, List.sum_cons, ih, h.2]; ring
  refine ⟨ws, v1, vs, h1, hvs.imp (fun _ _ h => h.1), hvs.imp (fun p u h => ?_)⟩
  rw [h.2, hsum, mul_div_mul_left _ _ (Real.exp_ne_zero c)]

/-- The eight collapsed primitives form a catalogue as required by C14. -/
example : (catOf Prim.collapsed).Lawful ∧ (catOf Prim.collapsed).Chain :=
  ⟨catOf_lawful _, collapsedCat_chain⟩

/-! ### C50 -/

/-- **C50.** Changing the type of a column is accepted exactly when the values of all rows
are admissible for the new type; it then leaves the row partition, the concentration and
all other columns untouched, and the column is consistent under its new type. -/
theorem C50_update_cctype (hC : C.Lawful) {X : C.Tbl} {v : View C} (h : Reachable X v) (c : Col)
    (hc : c ∈ v.dims.keys) (i : C.ι) (ins : List Col) (hy : C.H) (hh : (C.F i).hypOk hy) :
    ((v.updateCctype X c i ins hy).isOk = true ↔
      ∀ r, v.seat r ≠ none → admissible X (Dim.new c ins i hy) r) ∧
    ∀ v', v.updateCctype X c i ins hy = .ok v' →
      v'.crp = v.crp ∧ (∀ c', c' ≠ c → v'.dims.get? c' = v.dims.get? c') ∧
      ∃ d, v'.dims.get? c = some d ∧ d.kind = i ∧ d.inputs = ins ∧ d.hyp = hy ∧
        ColumnConsistent X v.seat c d := by
  have hI := h.inv hC
  have hhas : v.dims.has c = true := (Dict.has_iff _ _).mpr hc
  have he : v.updateCctype X c i ins hy =
      ({ v with dims := v.dims.erase c } : View C).incorporateDim X (Dim.new c ins i hy) true := by
    simp only [updateCctype, unincorporateDim, hhas, if_true, Out.bind_ok]
  rw [he]
  rcases incorporateDim_spec (hI.eraseDim c) (Dim.new c ins i hy) hh with
    ⟨d', g1, g2, g3, g4⟩ | ⟨e, r, g1, g2, g3⟩
  · rw [g1]
    refine ⟨⟨fun _ r hr => (admissible_iff _ _ _).mpr (g4 r hr), fun _ => rfl⟩, ?_⟩
    intro v' hv'
    have := Out.ok.inj hv'
    rw [← this]
    refine ⟨rfl, fun c' hc' => ?_, d', ?_, g2.kind, g2.inputs, g2.hyp, columnConsistent_of g3⟩
    · change Dict.get? (Dict.set (Dict.erase v.dims c) c d') c' = _
      rw [Dict.get?_set_ne _ _ hc', Dict.get?_erase_ne _ hc']
    · exact Dict.get?_set_self _ _ _
  · rw [g1]
    refine ⟨⟨fun hf => (by cases hf), fun hall => ?_⟩, fun v' hv' => by cases hv'⟩
    exact absurd ((admissible_iff _ _ _).mp (hall r g2)) g3

/-- **C50.** A refused change of type is not undone: the column is gone from the view. -/
theorem C50_refused_update_drops_column (hC : C.Lawful) {X : C.Tbl} {v : View C}
    (h : Reachable X v) (c : Col) (hc : c ∈ v.dims.keys) (i : C.ι) (ins : List Col) (hy : C.H)
    (hh : (C.F i).hypOk hy) (r : Row) (hr : v.seat r ≠ none)
    (hbad : ¬ admissible X (Dim.new c ins i hy) r) :
    ∃ e v', v.updateCctype X c i ins hy = .err e v' ∧ c ∉ v'.dims.keys := by
  have hI := h.inv hC
  have hhas : v.dims.has c = true := (Dict.has_iff _ _).mpr hc
  have he : v.updateCctype X c i ins hy =
      ({ v with dims := v.dims.erase c } : View C).incorporateDim X (Dim.new c ins i hy) true := by
    simp only [updateCctype, unincorporateDim, hhas, if_true, Out.bind_ok]
  rw [he]
  rcases incorporateDim_spec (hI.eraseDim c) (Dim.new c ins i hy) hh with
    ⟨d', g1, g2, g3, g4⟩ | ⟨e, r', g1, g2, g3⟩
  · exact absurd ((admissible_iff _ _ _).mpr (g4 r hr)) hbad
  · refine ⟨e, _, g1, fun hm => ?_⟩
    exact ((Dict.mem_keys_erase _ _ _).mp hm).1 rfl

/-! ### C51 -/

/-- **C51 (partial).** Refused calls that leave the view exactly as it was: adding a row
that is already there, removing or moving a row that is not, adding a column with
inadmissible data, removing an unknown column, an inadmissible concentration.  Missing:
adding a row with an inadmissible value, and `update_cctype`, see below and C50. -/
theorem C51_refusals_partial (hC : C.Lawful) {X : C.Tbl} {v : View C} (h : Reachable X v)
    (op : View.Op C)
    (hop : match op with
      | .inc r _ _ _ => v.seat r ≠ none
      | .force .. => False
      | .cctype .. => False
      | .incDim _ _ i hy => (C.F i).hypOk hy
      | _ => True)
    {e : Exn} {v' : View C} (he : (View.apply (X, v) op).2 = .err e v') : v' = v := by
  have hI := h.inv hC
  cases op with
  | inc r obs k z =>
    simp only [View.apply, View.incorporate_dup hop] at he
    exact (Out.err.inj he).2.symm
  | unc r =>
    by_cases hr : v.seat r = none
    · obtain ⟨e', h'⟩ := View.unincorporate_missing hI hr
      simp only [View.apply, h'] at he
      exact (Out.err.inj he).2.symm
    · obtain ⟨v', g1, -⟩ := View.unincorporate_ok hC hI hr
      simp only [View.apply, g1] at he
      cases he
  | gibbs r z =>
    by_cases hr : v.seat r = none
    · obtain ⟨e', h'⟩ := gibbsTransitionRow_missing (X := X) hr z
      simp only [View.apply, h'] at he
      exact (Out.err.inj he).2.symm
    · obtain ⟨v', g1, -⟩ := gibbsTransitionRow_ok hC hI hr z
      simp only [View.apply, g1] at he
      cases he
  | force r c x => exact hop.elim
  | incDim c ins i hy =>
    rcases incorporateDim_spec hI (Dim.new c ins i hy) hop with ⟨d', g1, -⟩ | ⟨e', r, g1, -⟩
    · simp only [View.apply, g1] at he; cases he
    · simp only [View.apply, g1] at he; exact (Out.err.inj he).2.symm
  | uncDim c =>
    simp only [View.apply, unincorporateDim] at he
    split at he
    · cases he
    · exact (Out.err.inj he).2.symm
  | cctype c i ins hy => exact hop.elim
  | alpha a =>
    simp only [View.apply, setAlpha, Crp.setHypers] at he
    split at he
    · cases he
    · exact (Out.err.inj he).2.symm
  | hypers c hy =>
    simp only [View.apply, transitionDimHypers] at he
    split at he
    · exact (Out.err.inj he).2.symm
    · cases he

theorem incDims_err {X : C.Tbl} {s : Row → Option Tab} {occ : Tab → Prop} {r : Row} {k : Tab}
    (hr : s r = none) {obs : Dict Col C.Cell} {ds ds' : Dict Col (Dim C)} {e : Exn}
    (h : ∀ p ∈ ds, DimOk' X s occ p.1 p.2) (he : incDims X r k obs ds = .err e ds') :
    ∃ p ∈ ds', p.2.Zr.get? r = none ∧ p.2.Zi.get? r = none := by
  induction ds generalizing ds' with
  | nil => cases he
  | cons p t ih =>
    obtain ⟨c, d⟩ := p
    have hd := h (c, d) (by simp)
    have hz : d.Zr.get? r = none ∧ d.Zi.get? r = none := by
      rw [hd.core.zr, hd.core.zi]; simp [filing, hr]
    simp only [incDims] at he
    split at he
    · cases he
      exact ⟨(c, d), by simp, hz⟩
    · rename_i x hx
      split at he
      · rename_i e' d' hd'
        cases he
        refine ⟨(c, d'), by simp, ?_⟩
        have hf := hd.core.incorporate (r := r) (by simp [filing, hr]) k x (inputsOf X d r)
        cases hv : validObs x (inputsOf X d r) with
        | none =>
          rw [hv] at hf
          obtain ⟨d'', h1, -⟩ := hf none rfl
          rw [h1] at hd'; cases hd'
        | some o =>
          rw [hv] at hf
          cases hp : d.fam.prep o with
          | ok o' =>
            obtain ⟨d'', h1, -⟩ := hf (some o') ⟨o', hp, rfl⟩
            rw [h1] at hd'; cases hd'
          | error e2 =>
            rw [hd.core.incorporate_refused (r := r) (by simp [filing, hr]) k x _ hv hp] at hd'
            cases hd'
            simpa using hz
      · split at he
        · rename_i t' ht'
          cases he
          obtain ⟨p, hp, hpz⟩ := ih (fun q hq => h q (by simp [hq])) ht'
          exact ⟨p, by simp [hp], hpz⟩
        · cases he

theorem incDims_keys {X : C.Tbl} {r : Row} {k : Tab} {obs : Dict Col C.Cell}
    {ds : Dict Col (Dim C)} : (incDims X r k obs ds).state.keys = ds.keys := by
  induction ds with
  | nil => rfl
  | cons p t ih =>
    obtain ⟨c, d⟩ := p
    simp only [incDims]
    split
    · rfl
    · split
      · rfl
      · cases ht : incDims X r k obs t with
        | ok t' => rw [ht] at ih; simpa [Dict.keys] using ih
        | err e t' => rw [ht] at ih; simpa [Dict.keys] using ih

/-- **C51 (violated).** Whenever adding a fresh row in a given cluster raises (a refused or
a missing value), the row is nevertheless seated while some column does not know it: the
view left behind is not consistent with any data set. -/
theorem C51_raising_incorporate_violated (hC : C.Lawful) {X : C.Tbl} {v v' : View C}
    (h : Reachable X v) (r : Row) (hr : v.seat r = none) (obs : Dict Col C.Cell) (k z : Tab)
    {e : Exn} (he : v.incorporate X r obs (some k) z = .err e v') :
    v'.seat r = some k ∧ ∀ X', ¬ Consistent X' v' := by
  have hI := h.inv hC
  have hh : v.crp.data.has r = false := (Dict.has_false_iff _ _).mpr hr
  obtain ⟨crp', hc1, hc2, hc3, hc4⟩ := Crp.inc_data hI.crp k hr
  simp only [View.incorporate, incorporateAt, hh, Bool.false_eq_true, if_false, hc1] at he
  split at he
  · rename_i e' ds hds
    cases he
    have hs : (⟨crp', ds⟩ : View C).seat r = some k := by
      unfold View.seat; rw [hc4]; simp
    refine ⟨hs, fun X' hX' => ?_⟩
    obtain ⟨p, hp, hz1, hz2⟩ := incDims_err hr hI.dim hds
    have hk := incDims_keys (X := X) (r := r) (k := k) (obs := obs) (ds := v.dims)
    rw [hds] at hk
    have hw : Dict.WF ds := by unfold Dict.WF; rw [show Dict.keys ds = _ from hk]; exact hI.wf
    have := ((hX'.column p.1 p.2 (Dict.get?_of_mem hw hp)).rows r k).mpr hs
    rw [hz1, hz2] at this
    simp at this
  · cases he

/-- This does happen: one bernoulli column, and the value 7. -/
example : ∃ (X : libCat.Tbl) (v : View libCat), Reachable X v ∧ v.seat 0 = none ∧
    (v.incorporate X 0 [(0, some (7 : ℝ))] (some 0) 0).isOk = false := by
  have p7 : ∃ e, (libCat.F ⟨.bernoulli, trivial⟩).prep ((7 : ℝ), []) = .error e := by
    cases h : (libCat.F ⟨.bernoulli, trivial⟩).prep ((7 : ℝ), []) with
    | error e => exact ⟨e, rfl⟩
    | ok o =>
      have := ((C10_primitives_store _ _ _).mp h).2
      simp [remembered, support] at this
  obtain ⟨e, p7⟩ := p7
  have hyp : (libCat.F ⟨.bernoulli, trivial⟩).hypOk ⟨.bernoulli, ⟨1, 1⟩⟩ :=
    ⟨rfl, one_pos, one_pos⟩
  have hR := Reachable.of (C := libCat) onesTbl 1 one_pos
    [.incDim 0 [] ⟨.bernoulli, trivial⟩ ⟨.bernoulli, ⟨1, 1⟩⟩] ⟨hyp, trivial⟩
  refine ⟨_, _, hR, rfl, ?_⟩
  · simp only [View.run, List.foldl, View.apply, incorporateDim, bulkIncorporate, View.empty,
      Crp.init, bulkFold, Dim.new, if_true, Out.state_ok, Dict.set, Dim.createAux,
      View.incorporate, incorporateAt, Dict.has, Dict.get?, Option.isSome, Bool.false_eq_true,
      if_false, Crp.incorporate, incDims, if_pos, Dim.incorporate, Bool.or_self, validObs,
      inputsOf, List.map_nil, allVals, Comp.incorporate, Comp.init, Dim.fam]
    rw [p7]
    rfl

end Cgpm.Props
