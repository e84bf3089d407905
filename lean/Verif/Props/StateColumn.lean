import Verif.Lemmas.StateConstraints
import Verif.Lemmas.StateDemo

/-!
C21: column transitions and the constraints on the columns.
-/
namespace Cgpm.Props
open Cgpm Cgpm.View Cgpm.State

variable {C : Cat}

/-- C21, one transition.  A transition of a column of a consistent State whose views are listed in
increasing order puts the column in a view that holds no column declared independent of it and
leaves every other column where it is.  If columns are declared dependent the transition is
refused and nothing changes, so they are not separated.

Missing: States whose views are listed in another order, for which the claim is false
(`C21_order_violated`). -/
theorem C21_transition_partial (hL : C.Lawful) {cfg : Cfg C} {s : State C}
    (h : StateReachable cfg s) (hs : viewsSorted s) {c : Col} (hc : c ∈ s.outputs) {m : Nat}
    {aux : Nat → ℝ × (Row → Tab)} {u : ℝ} (hl : stateLegal cfg s (.column c m aux u)) :
    (s.Cd = [] ∧ s.anyConditional cfg = false → ∃ s' new,
      s.gibbsTransitionDim cfg c m aux u = .ok s' ∧ viewsSorted s' ∧
      s'.Cd = s.Cd ∧ s'.Ci = s.Ci ∧
      (∀ a, s'.Zv a = if a = c then some new else s.Zv a) ∧
      ∀ a, a ≠ c → ((a, c) ∈ s.Ci ∨ (c, a) ∈ s.Ci) → s'.Zv a ≠ s'.Zv c) ∧
    (¬ (s.Cd = [] ∧ s.anyConditional cfg = false) →
      s.gibbsTransitionDim cfg c m aux u = .err .valueError s) := by
  have hI := h.inv hL
  obtain ⟨h1, h2, h3, h4⟩ := hl
  obtain ⟨-, -, d, -, -, -, hd, -⟩ := hI.dim hc
  constructor
  · rintro ⟨g1, g2⟩
    obtain ⟨s', cur, new, va, f1, f2, f3, f4, f5, f6⟩ := hI.gibbsTransitionDim_ok (cfg := cfg) hd g2
      g1 h1 h2.1 (partners_of h3) h2.2.1 h2.2.2 (Or.inr hs)
    have hZ : ∀ a, s'.Zv a = if a = c then some new else s.Zv a := fun a => by
      rw [f4.Zv]; rfl
    refine ⟨s', new, f1, f4.sorted hs f5, f4.Cd, f4.Ci, hZ, fun a ha hac => ?_⟩
    rw [hZ, hZ, if_neg ha, if_pos rfl]
    exact f6 hs a (mem_avoid.mpr ⟨ha, hac⟩)
  · intro hn
    unfold gibbsTransitionDim
    by_cases hcd : s.anyConditional cfg = true
    · rw [if_pos hcd]
    · rw [if_neg hcd, if_pos (fun e => hn ⟨e, by simpa using hcd⟩)]

/-- C21, histories.  Start from a State whose views are listed in increasing order and whose
columns satisfy the constraints, and make any history of legal calls; every new column is put in
an existing view or in one with the largest identifier, and is not mentioned in the constraints.
Then the constraints hold at the end.

Missing: other orders of the views (`C21_order_violated`), and new columns that the constraints
mention: `incorporate_dim` ignores the constraints (`C21_new_column_violated`). -/
theorem C21_history_partial (hL : C.Lawful) {cfg : Cfg C} {s : State C} (h : StateReachable cfg s)
    (hs : viewsSorted s) (hc : ConstraintsHold s) (ops : List (State.Op C))
    (hl : carefulRun cfg s ops) :
    viewsSorted (s.run cfg ops) ∧ ConstraintsHold (s.run cfg ops) :=
  good_run hL (h.inv hL) ⟨hs, hc⟩ ops hl

/-- The demonstration State, with views 0 and 1 and its columns declared independent, is an
instance of both. -/
example : ∃ s : State libCat, StateReachable plainCfg s ∧ viewsSorted s ∧ ConstraintsHold s ∧
    (0, 1) ∈ s.Ci ∧ 0 ∈ s.outputs ∧ s.Cd = [] ∧ s.anyConditional plainCfg = false ∧
    carefulRun plainCfg s [.column 0 2 (fun _ => (1, fun r => r)) (1 / 2), .row 0 0 1, .unc 1,
      .alpha 2, .row 1 0 0] := by
  obtain ⟨s, h1, h2, h3, h4, h5, h6, h7, h8, h9, h10, -, h12⟩ := stateDemo_init
    (normal_remembered 0) normal_hyp (a := 0) (b := 1) (by decide) [] [(0, 1)]
  refine ⟨s, h1, by unfold viewsSorted; rw [h8]; simp, ⟨?_, ?_⟩, by rw [h10]; simp,
    by rw [h4]; simp, h9, anyConditional_false fun _ _ _ => rfl,
    ⟨two_pos, ⟨fun _ => one_pos, by norm_num, by norm_num⟩, ?_, fun d hd => Or.inl ?_⟩, trivial,
    trivial, trivial, trivial, trivial, trivial, trivial, trivial, trivial, trivial⟩
  · intro a b hab hne v ha hb
    rw [h10] at hab
    simp only [List.mem_singleton, Prod.mk.injEq] at hab
    obtain ⟨rfl, rfl⟩ := hab
    rw [h6] at ha; rw [h7, ← ha] at hb
    cases hb
  · intro blk hb; rw [h9] at hb; cases hb
  · intro a ha hm
    rw [h10] at hm
    simp only [List.mem_singleton, Prod.mk.injEq] at hm
    rcases hm with ⟨rfl, -⟩ | ⟨-, rfl⟩
    · exact absurd rfl ha
    · rw [h4]; simp
  · rw [(h12 0 d hd).1]; rfl

/-- The candidates of column 0 of the demonstration State, for one auxiliary view. -/
theorem stateDemo_candidates {s : State libCat} (h : State.Inv s) (h0 : s.Zv 0 = some 8)
    (h1 : s.Zv 1 = some 1) (ho : s.outputs = [0, 1]) (hk : s.views.keys = [8, 1]) :
    s.crp.counts.get? 8 = some 1 ∧ s.candidates 0 1 = [1, 8] := by
  obtain ⟨n, hn⟩ := h.counts h0
  have hone : n = 1 := (count_one_iff h.crp h0 hn).mpr (by
    intro c hc
    have hm : c ∈ s.outputs := h.hZ c hc
    rw [ho] at hm
    simp only [List.mem_cons, List.not_mem_nil, or_false] at hm
    rcases hm with rfl | rfl
    · rfl
    · have hc' : s.Zv 1 = some 8 := hc
      rw [h1] at hc'; cases hc')
  subst hone
  refine ⟨hn, ?_⟩
  have hsing : s.crp.singleton (some 0) = true := by
    unfold Crp.singleton
    have h0' : s.crp.data.get? 0 = some 8 := h0
    simp [h0', hn]
  have hp : pySorted s.crp.counts.keys = [1, 8] := by
    have hp := (pySorted_perm s.crp.counts.keys).trans h.keys_perm
    rw [hk] at hp
    refine (hp.trans (List.Perm.swap 1 8 [])).eq_of_pairwise (le := (· ≤ ·))
      (fun a b _ _ h1 h2 => le_antisymm h1 h2) (List.pairwise_insertionSort _ _) ?_
    simp
  unfold candidates mAux
  rw [hsing, hp]
  simp

theorem avoid_demo : avoid [(0, 1)] 0 = [1] := by decide

/-- C21 is false in general: a State of two numerical columns declared independent, in views 8 and
1 listed in this order (the order in which the constructor meets the set {8, 1}).  Whatever the
random draws, a transition of column 0 puts it in the view of column 1. -/
theorem C21_order_violated : ∃ s : State libCat, StateReachable plainCfg s ∧ (0, 1) ∈ s.Ci ∧
    ConstraintsHold s ∧ ∀ aux u, goodDraws aux u →
      stateLegal plainCfg s (.column 0 1 aux u) ∧
      ∃ s', s.gibbsTransitionDim plainCfg 0 1 aux u = .ok s' ∧ s'.Zv 0 = s'.Zv 1 ∧
        ¬ ConstraintsHold s' := by
  obtain ⟨s, h1, h2, h3, h4, h5, h6, h7, h8, h9, h10, -, h12⟩ := stateDemo_init
    (normal_remembered 0) normal_hyp (a := 8) (b := 1) (by decide) [] [(0, 1)]
  obtain ⟨-, hcand⟩ := stateDemo_candidates h2 h6 h7 h4 h8
  refine ⟨s, h1, by rw [h10]; simp, ⟨?_, ?_⟩, fun aux u hg => ?_⟩
  · intro a b hab hne v ha hb
    rw [h10] at hab
    simp only [List.mem_singleton, Prod.mk.injEq] at hab
    obtain ⟨rfl, rfl⟩ := hab
    rw [h6] at ha; rw [h7, ← ha] at hb
    cases hb
  · intro blk hb; rw [h9] at hb; cases hb
  · have hpart : partnersExist s 0 := by
      intro a ha hm
      rw [h10] at hm
      simp only [List.mem_singleton, Prod.mk.injEq] at hm
      rcases hm with ⟨rfl, -⟩ | ⟨-, rfl⟩
      · exact absurd rfl ha
      · rw [h4]; simp
    have hkind : ∀ d, s.dimFor 0 = .ok d → plainCfg.collapsed d.kind = true := by
      intro d hd
      rw [(h12 0 d hd).1]; rfl
    refine ⟨⟨one_pos, hg, hpart, fun d hd => Or.inl (hkind d hd)⟩, ?_⟩
    obtain ⟨-, -, d, -, -, -, hd, -⟩ := h2.dim (c := 0) (by rw [h4]; simp)
    obtain ⟨s', cur, new, va, f1, f2, f3, f4, f5, f6, k, f7, f8⟩ :=
      h2.gibbsTransitionDim_draw (cfg := plainCfg) hd (anyConditional_false fun _ _ _ => rfl) h9
        one_pos hg.1 (partners_of hpart) hg.2.1 hg.2.2 (Or.inl (hkind d hd))
    have hnew : new = 1 := by
      rw [hcand] at f7
      rcases k with _ | _ | k
      · exact (Option.some.inj f7).symm
      · refine absurd ⟨1, by rw [h10, avoid_demo]; simp, 1, h7, by rw [h8]; rfl⟩ f8
      · cases f7
    have e0 : s'.Zv 0 = some 1 := by rw [f4.Zv, hnew]; simp
    have e1 : s'.Zv 1 = some 1 := by rw [f4.Zv, upd_ne _ _ (by decide)]; exact h7
    refine ⟨s', f1, e0.trans e1.symm, fun hC => ?_⟩
    exact hC.independent 0 1 (by rw [f4.Ci, h10]; simp) (by decide) 1 e0 e1

/-- `incorporate_dim` ignores the constraints: a column that is removed and added again, to the
view of a column it is declared independent of, ends up there. -/
theorem C21_new_column_violated : ∃ s : State libCat, StateReachable plainCfg s ∧
    viewsSorted s ∧ ConstraintsHold s ∧
    ∃ ops, stateLegalRun plainCfg s ops ∧ ¬ ConstraintsHold (s.run plainCfg ops) := by
  obtain ⟨s, h1, h2, h3, h4, h5, h6, h7, h8, h9, h10, -, h12⟩ := stateDemo_init
    (normal_remembered 0) normal_hyp (a := 0) (b := 1) (by decide) [] [(0, 1)]
  refine ⟨s, h1, by unfold viewsSorted; rw [h8]; simp, ⟨?_, ?_⟩, ?_⟩
  · intro a b hab hne v ha hb
    rw [h10] at hab
    simp only [List.mem_singleton, Prod.mk.injEq] at hab
    obtain ⟨rfl, rfl⟩ := hab
    rw [h6] at ha; rw [h7, ← ha] at hb
    cases hb
  · intro blk hb; rw [h9] at hb; cases hb
  · have hins : ∀ c d, s.dimFor c = .ok d → c ≠ 1 → 1 ∉ d.inputs := fun c d hd _ => by
      rw [(h12 c d hd).2.1]; simp
    obtain ⟨s1, g1, g2, g3, g4, g5, g6, g7, g8, g9, g10⟩ := h2.unincorporateDim_ok (col := 1)
      (by rw [h4]; simp) (by rw [h4]; simp) hins
    have hT : ([none, none] : List libCat.Cell).length = s1.nRows := by rw [g3, h5]; rfl
    have hcol : (1 : Col) ∉ s1.outputs := by rw [g4, h4]; decide
    let ω : DimDraws libCat := ⟨⟨.normal, ⟨0, 1, 1, 1⟩⟩, (1, fun _ => 0), fun _ => (1, fun _ => 0),
      0, ⟨.normal, ⟨0, 1, 1, 1⟩⟩⟩
    have hl : stateLegal plainCfg s1 (.incDim [none, none] [1] [] ⟨.normal, trivial⟩ (some 0) ω) := by
      intro col _ _ _ _
      refine ⟨rfl, normal_hyp, normal_hyp, fun r _ => normal_admissible _ _ _ rfl rfl, one_pos,
        ⟨fun _ => one_pos, le_refl _, one_pos⟩, fun h => by cases h⟩
    obtain ⟨f1, f2, f3, f4, f5, f6, f7⟩ := hl 1 rfl rfl hT hcol
    obtain ⟨s', e1, -, -, -, e5, -, b, e6, e7⟩ := (g2.incorporateDim_inv hT hcol (cfg := plainCfg)
      (v := some 0) ⟨f1, f2, f3, fun r hr => (admissible_iff _ _ _).mp (by
        rw [← columnAdded_eq]; exact f4 r hr), f5, f6.1, f6.2.1, f6.2.2,
        (fun hv => by cases hv), (fun hv => by cases hv)⟩).2 (Or.inl ⟨0, rfl⟩)
    refine ⟨[.uncDim 1, .incDim [none, none] [1] [] ⟨.normal, trivial⟩ (some 0) ω],
      ⟨hins, ?_, trivial⟩, fun hC => ?_⟩
    · simp only [State.apply, g1]; exact hl
    · have hrun : s.run plainCfg [.uncDim 1,
          .incDim [none, none] [1] [] ⟨.normal, trivial⟩ (some 0) ω] = s' := by
        simp only [State.run, List.foldl_cons, List.foldl_nil, State.apply, g1]
        show (s1.incorporateDim _ _ _ _ _ _ _).state = _
        rw [e1]; rfl
      rw [hrun] at hC
      rw [e7 0 rfl] at e6
      refine hC.independent 0 1 (by rw [e5, g9, h10]; simp) (by decide) 0 ?_ ?_
      · rw [e6, upd_ne _ _ (by decide), g6, upd_ne _ _ (by decide)]; exact h6
      · rw [e6]; simp

/-- A column that is put, as it is, in another existing view. -/
theorem Inv.gibbsDimMove_raw {cfg : Cfg C} {s : State C} (h : State.Inv s) {col : Col} {dk : Dim C}
    {cur new : Nat} (hcur : s.Zv col = some cur) (hne : cur ≠ new) {vb : View C}
    (hvb : s.views.get? new = some vb) {tables : List Nat} {dims : List (Dim C)}
    {auxViews : List (View C)} {k : Nat} (htab : tables[k]? = some new) (hdim : dims[k]? = some dk)
    (hix : dk.index = col) (hcol : cfg.collapsed dk.kind = false) :
    ∃ s', ({ s with views := dropCol col s.views } : State C).gibbsDimMove cfg col tables dims
        auxViews k = .ok s' ∧ s'.Zv = upd s.Zv col (some new) ∧
      ∃ v', s'.views.get? new = some v' ∧ v'.seat = vb.seat ∧ v'.dims.get? col = some dk := by
  have hcur' : s.crp.data.get? col = some cur := hcur
  obtain ⟨na, hna⟩ := h.counts hcur
  have hone := count_one_iff h.crp hcur hna
  obtain ⟨vc, hvc⟩ := Dict.exists_of_mem_keys ((h.occ cur).mpr ⟨col, hcur⟩)
  have hbc : (dropCol col s.views).get? cur = some (drop col vc) := by rw [get?_dropCol, hvc]; rfl
  have hbn : (dropCol col s.views).get? new = some (drop col vb) := by rw [get?_dropCol, hvb]; rfl
  have hnot : ∀ v : View C, (drop col v).dims.has col = false := fun v => by
    rw [Dict.has_false_iff]; exact Dict.get?_erase_self _ _
  obtain ⟨c1, g1, g2, g3, g4⟩ := Crp.unc_data h.crp hcur'
  obtain ⟨c2, e1, e2, e3, e4⟩ := Crp.inc_data g2 (r := col) new (by rw [g4, if_pos rfl])
  have hZ2 : (fun c => c2.data.get? c) = upd s.Zv col (some new) := by
    funext c
    rw [e4, g4]
    unfold upd Zv
    split <;> simp_all
  have hcnt : na = 1 → c2.counts.has cur = false := by
    intro h1'
    cases hh : c2.counts.has cur with
    | false => rfl
    | true =>
      obtain ⟨c, hc⟩ := (Crp.occupied_iff e2 cur).mp ((Dict.has_iff _ _).mp hh)
      rw [e4] at hc
      split at hc
      · exact absurd (Option.some.inj hc).symm hne
      · rename_i hcne
        rw [g4, if_neg hcne] at hc
        exact absurd (hone.mp h1' c hc) hcne
  have hinc : ∀ X : C.Tbl, (drop col vb).incorporateDim X dk false =
      .ok { drop col vb with dims := (drop col vb).dims.set col dk } := by
    intro X
    unfold View.incorporateDim
    rw [hix]; simp
  have hlt : ¬ pyMax s.views.keys < new := mem_le_pyMax (Dict.mem_keys_of_get? hvb)
  have hres : ({ s with views := dropCol col s.views } : State C).gibbsDimMove cfg col tables dims
        auxViews k = .ok ⟨s.X, s.outputs, c2, if na = 1 then ((dropCol col s.views).set new
          { drop col vb with dims := (drop col vb).dims.set col dk }).erase cur
          else (dropCol col s.views).set new
            { drop col vb with dims := (drop col vb).dims.set col dk }, s.Cd, s.Ci⟩ := by
    unfold gibbsDimMove migrateDim migrateDimAs
    simp only [htab, hdim, Zv, hcur', ne_eq, hne, not_false_eq_true, if_true, keys_dropCol, hlt,
      if_false, hna, hbc, hix, hnot, Bool.false_eq_true, hbn, hcol, hinc, g1, e1]
    by_cases h1' : na = 1
    · rw [if_pos h1', hcnt h1', if_pos h1']; simp
    · rw [if_neg h1', if_neg h1']
  refine ⟨_, hres, hZ2, { drop col vb with dims := (drop col vb).dims.set col dk }, ?_, rfl,
    Dict.get?_set_self _ _ _⟩
  show (if na = 1 then _ else _ : Dict Nat (View C)).get? new = _
  split
  · rw [Dict.get?_erase_ne _ (Ne.symm hne), Dict.get?_set_self]
  · rw [Dict.get?_set_self]

theorem two_views {vs : Dict Nat (View C)} {i j : Nat} {a b : View C} (hij : i ≠ j)
    (hk : vs.keys = [i, j]) (ha : vs.get? i = some a) (hb : vs.get? j = some b) : vs = [(i, a), (j, b)] := by
  rcases vs with _ | ⟨⟨i', a'⟩, _ | ⟨⟨j', b'⟩, _ | ⟨x, l⟩⟩⟩
  · simp [Dict.keys] at hk
  · simp [Dict.keys] at hk
  · simp only [Dict.keys, List.map_cons, List.map_nil, List.cons.injEq, and_true] at hk
    obtain ⟨rfl, rfl⟩ := hk
    rw [Dict.get?_cons, if_pos rfl] at ha
    rw [Dict.get?_cons, if_neg hij, Dict.get?_cons, if_pos rfl] at hb
    rw [Option.some.inj ha, Option.some.inj hb]
  · simp [Dict.keys] at hk

theorem two_left {α β : Type} {R : α → β → Prop} {a b : α} {l : List β}
    (h : List.Forall₂ R [a, b] l) : ∃ x y, l = [x, y] ∧ R a x := by
  cases h with
  | cons h1 h2 =>
    cases h2 with
    | cons h3 h4 =>
      cases h4
      exact ⟨_, _, rfl, h1⟩

theorem beta_remembered (f : ℝ → ℝ → ℝ) : remembered (.beta f) (1 / 2) ≠ none := by
  unfold remembered
  norm_num [abs_of_pos]
  simp

/-- C18 is false of column transitions of uncollapsed types when the views are not listed in
increasing order: a State of two columns of type beta, declared independent, in views 8 and 1
listed in this order.  A transition of column 0 returns normally and leaves in view 1 a column that
is filed under the row partition of view 8. -/
theorem C18_uncollapsed_violated (f : ℝ → ℝ → ℝ) (hy : BetaP) : ∃ s : State libCat,
    StateReachable plainCfg s ∧ StateConsistent s ∧
    (∀ c d, s.dimFor c = .ok d → d.kind = ⟨.beta f, trivial⟩) ∧
    ∀ aux u, goodDraws aux u →
      ∃ s', s.gibbsTransitionDim plainCfg 0 1 aux u = .ok s' ∧ ¬ StateConsistent s' := by
  obtain ⟨s, h1, h2, h3, h4, h5, h6, h7, h8, h9, h10, h11, h12⟩ := stateDemo_init (p := .beta f)
    (hy := hy) (beta_remembered f) ⟨rfl, trivial⟩ (a := 8) (b := 1) (by decide) [] [(0, 1)]
  obtain ⟨hone, hcand⟩ := stateDemo_candidates h2 h6 h7 h4 h8
  refine ⟨s, h1, stateConsistent_of h2, fun c d hd => (h12 c d hd).1, fun aux u hg => ?_⟩
  obtain ⟨-, -, d, -, -, -, hd, -⟩ := h2.dim (c := 0) (by rw [h4]; simp)
  obtain ⟨v8, hv8⟩ := Dict.exists_of_mem_keys (d := s.views) (k := 8) (by rw [h8]; simp)
  obtain ⟨v1, hv1⟩ := Dict.exists_of_mem_keys (d := s.views) (k := 1) (by rw [h8]; simp)
  obtain ⟨ps, auxs, w, e1, e2, e3, e4, e5, e6⟩ := h2.gibbsDimScore_ok (cfg := plainCfg) hd
    (m := 1) one_pos hg.1 (by rw [h10, avoid_demo, h4]; simp) h6
  rw [hcand] at e1 e4 e6
  have hviews := two_views (by decide) h8 hv8 hv1
  rw [hviews] at e2
  obtain ⟨q0, q1, hps, hq0⟩ := two_left e2
  subst hps
  · have hauxs : auxs = [] := by
      have hl := e3.length_eq
      have : s.mAux 0 1 = 0 := by
        have := congrArg List.length hcand
        unfold candidates at this
        rw [List.length_append, h2.length_views, hviews] at this
        simpa using this
      rw [this] at hl
      exact List.length_eq_zero_iff.mp hl.symm
    subst hauxs
    have hw1 : w[1]? = some ⊥ := e5 1 ⟨1, by rw [h10, avoid_demo]; simp, 1, h7, by rw [h8]; rfl⟩
      (by rw [e4]; decide)
    have hw0 := e6 0 (by
      rintro ⟨a, ha, v, hv, hk⟩
      rw [h10, avoid_demo, List.mem_singleton] at ha
      subst ha
      rw [h7] at hv; cases hv
      rw [h8] at hk; cases hk)
    obtain ⟨k, k1, k2, k3⟩ := flip_ok (w := w) ⟨0, _, hw0⟩ hg.2.1 hg.2.2
    have hk : k = 0 := by
      rw [e4] at k1
      have k1' : k < 2 := k1
      rcases k with _ | _ | k
      · rfl
      · exact absurd hw1 k3
      · omega
    subst hk
    obtain ⟨s', m1, m2, v', m3, m4, m5⟩ := Inv.gibbsDimMove_raw (cfg := plainCfg) (col := 0)
      (dk := q0.1) h2 h6 (show (8 : Nat) ≠ 1 by decide) hv1 (tables := [1, 8])
      (dims := [q0.1, q1.1]) (auxViews := []) (k := 0) rfl rfl hq0.2.1.index (by
        rw [hq0.1.kind, (h12 0 d hd).1]; rfl)
    refine ⟨s', ?_, fun hcon => ?_⟩
    · unfold gibbsTransitionDim
      rw [if_neg (by rw [anyConditional_false fun _ _ _ => rfl]; simp), if_neg (by simp [h9]), e1]
      simp only [e4, List.length_cons, List.length_nil, ne_eq, not_true_eq_false, if_false]
      rw [e4] at k2
      have k2' : logPflip (w.map Fl.ofLogP) (List.range 2) u = .ok 0 := k2
      simp only [Nat.zero_add, Nat.reduceAdd, k2']
      exact m1
    · have hc := (hcon.view 1 v' m3).column 0 q0.1 m5
      rw [m4] at hc
      have hs1 : v1.seat 1 = some 1 := by rw [h11 1 v1 hv1]; rfl
      have := (hc.clusters 1).mpr ⟨1, hs1⟩
      obtain ⟨r, hr⟩ := (hq0.2.1.keys 1).mp this
      have hr' : v8.seat r = some 1 := hr
      rw [h11 8 v8 hv8] at hr'
      rcases r with _ | _ | r
      · exact absurd hr' (by decide)
      · exact absurd hr' (by decide)
      · cases hr'

end Cgpm.Props
