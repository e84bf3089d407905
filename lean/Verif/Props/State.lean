import Verif.Lemmas.StateCheck
import Verif.Lemmas.StatePlain
import Verif.Lemmas.StateDemo

/-!
Theorems about States: C18 (consistency over histories), C19 (refused calls), C20 (adding and
removing a row).
-/
namespace Cgpm.Props
open Cgpm Cgpm.View Cgpm.State

variable {C : Cat}

/-! ### C18 -/

/-- **C18 (partial).** After every history of legal calls, with every outcome of the random draws,
the data, the column partition and the views agree.  Missing: column transitions of uncollapsed
types while the views are not listed in increasing order; see C18_uncollapsed_violated. -/
theorem C18_consistent_partial (hC : C.Lawful) {cfg : Cfg C} {s : State C}
    (h : StateReachable cfg s) : StateConsistent s :=
  stateConsistent_of (h.inv hC)

/-- **C18 (partial).** Hence the assertions of the debug checks hold after every such history (all
but the last, which concerns the constraints on the columns). -/
theorem C18_checks_hold_partial (hC : C.Lawful) {cfg : Cfg C} {s : State C}
    (h : StateReachable cfg s) : State.Check s :=
  stateCheck_of (h.inv hC)

/-- **C18.** The constructor accepts legal arguments, and the State it builds has the data, the
column partition, the row partitions and the constraints it was given. -/
theorem C18_constructor {X : Dict Col (List C.Cell)} {n : Nat} {schema : Col → State.ColSpec C}
    {alpha : ℝ} {Zv : Dict Col Nat} {order : List Nat} {rows : Nat → ℝ × List Tab} (Cd : Blocks)
    (Ci : Pairs) (h : LegalInit X n schema alpha Zv order rows) :
    ∃ s : State C, State.init X schema alpha Zv order rows Cd Ci = .ok s ∧ StateConsistent s ∧
      s.X = X ∧ s.outputs = X.keys ∧ s.nRows = n ∧ s.crp.alpha = alpha ∧
      (∀ c, s.Zv c = Zv.get? c) ∧ s.views.keys = order ∧ s.Cd = Cd ∧ s.Ci = Ci ∧
      ∀ i v, s.views.get? i = some v → v.crp.alpha = (rows i).1 ∧
        (∀ r, v.seat r = (rows i).2[r]?) ∧
        ∀ c d, v.dims.get? c = some d → d.inputs = (schema c).inputs ∧ d.kind = (schema c).kind ∧
          d.hyp = (schema c).hyp := by
  obtain ⟨s, h1, h2, h3, h4, h5, h6, h7, h8, h9, h10, h11⟩ := init_ok Cd Ci (initOk_of h)
  refine ⟨s, h1, stateConsistent_of h2, h3, h4, h5, h6, h7, h8, h9, h10, fun i v hv => ?_⟩
  obtain ⟨g1, g2, g3⟩ := h11 i v hv
  exact ⟨g1, g2, fun c d hd => ⟨(g3 c d hd).inputs, (g3 c d hd).kind, (g3 c d hd).hyp⟩⟩

/-- **C18.** Which calls with legal arguments return normally, and what they do to the data and
to the column partition. -/
theorem C18_effect (hC : C.Lawful) {cfg : Cfg C} {s : State C} (h : StateReachable cfg s) :
    (∀ obs ks z, stateLegal cfg s (.inc s.nRows obs ks z) → (∀ v ∈ ks.keys, v ∈ s.views.keys) →
      (∀ c ∈ obs.keys, c ∈ s.outputs) → (∀ p ∈ obs, p.2 ≠ none) →
      ∃ s', s.incorporate s.nRows obs ks z = .ok s' ∧ s'.nRows = s.nRows + 1 ∧
        s'.outputs = s.outputs ∧ s'.Zv = s.Zv ∧ s'.tbl = rowAdded s obs) ∧
    (∀ n, s.nRows = n + 1 → 0 < n → ∃ s', s.unincorporate n = .ok s' ∧ s'.nRows = n ∧
      s'.outputs = s.outputs ∧ s'.Zv = s.Zv ∧ ∀ c r, r < n → s'.tbl c r = s.tbl c r) ∧
    (∀ r obs, stateLegal cfg s (.force r obs) → r < s.nRows →
      (∀ c ∈ obs.keys, c ∈ s.outputs ∧ s.tbl c r = none) →
      ∃ s', s.forceCell r obs = .ok s' ∧ s'.nRows = s.nRows ∧ s'.outputs = s.outputs ∧
        s'.Zv = s.Zv ∧ s'.tbl = cellsForced s r obs) ∧
    (∀ T col kind v ω, stateLegal cfg s (.incDim T [col] [] kind v ω) → T.length = s.nRows →
      col ∉ s.outputs →
      ((∃ v0, v = some v0) ∨ (∀ c d, s.dimFor c = .ok d → cfg.conditional d.kind = false) ∧
        s.Cd = []) →
      ∃ s', s.incorporateDim cfg T [col] [] kind v ω = .ok s' ∧ s'.nRows = s.nRows ∧
        s'.outputs = s.outputs ++ [col] ∧ s'.tbl = columnAdded s col T ∧
        ∃ b, s'.Zv = upd s.Zv col (some b) ∧ ∀ v0, v = some v0 → b = v0) ∧
    (∀ col, stateLegal cfg s (.uncDim col) → col ∈ s.outputs → s.outputs.length ≠ 1 →
      ∃ s', s.unincorporateDim col = .ok s' ∧ s'.nRows = s.nRows ∧
        s'.outputs = s.outputs.filter (· ≠ col) ∧ s'.Zv = upd s.Zv col none ∧
        ∀ c, c ≠ col → s'.tbl c = s.tbl c) ∧
    (∀ col m aux u, stateLegal cfg s (.column col m aux u) → col ∈ s.outputs →
      (∀ c d, s.dimFor c = .ok d → cfg.conditional d.kind = false) → s.Cd = [] →
      ∃ s' b, s.gibbsTransitionDim cfg col m aux u = .ok s' ∧ s'.X = s.X ∧
        s'.outputs = s.outputs ∧ s'.Zv = upd s.Zv col (some b)) := by
  have hI := h.inv hC
  refine ⟨fun obs ks z hl h1 h2 h3 => ?_, fun n hn hp => ?_, fun r obs hl hr hm => ?_,
    fun T col kind v ω hl hT hc hv => ?_, fun col hl hc hlen => ?_,
    fun col m aux u hl hc hcond hCd => ?_⟩
  · obtain ⟨s', g1, g2, g3, g4, g5, -, -, g8, g9, -⟩ := hI.incorporate_ok hC z h1 h2 h3
      (fun c d hd => (admissible_iff _ _ _).mp (hl rfl c d hd))
    refine ⟨s', g1, g3, g4, by unfold Zv; rw [g5], ?_⟩
    funext c r
    unfold rowAdded
    split
    · rename_i e; subst e
      split
      · rename_i hc; exact g8 c hc
      · rename_i hc
        exact tbl_none (by rw [g2.data.keys, g4]; exact hc) _
    · rename_i e
      rcases Nat.lt_or_gt_of_ne e with hlt | hgt
      · exact g9 c r hlt
      · rw [hI.tbl_ge c (le_of_lt hgt), g2.tbl_ge c (by rw [g3]; exact hgt)]
  · obtain ⟨s', g1, g2, g3, g4, g5, -, -, g8, -⟩ := hI.unincorporate_ok hC hn hp
    exact ⟨s', g1, g3, g4, by unfold Zv; rw [g5], g8⟩
  · obtain ⟨h1, h2⟩ := hl.2 hr
    obtain ⟨s', g1, g2, g3, g4, g5, -, -, g8, -⟩ := hI.forceCell_ok hC hl.1 hr
      (allMissing_of hI hr hm)
      (fun c hc d hd => (admissible_iff _ _ _).mp (by
        rw [← cellsForced_eq]; exact h1 c hc d hd)) h2
    exact ⟨s', g1, g3, g4, by unfold Zv; rw [g5], by rw [cellsForced_eq]; exact g8⟩
  · obtain ⟨h1, h2, h3, h4, h5, h6, h7⟩ := hl col rfl rfl hT hc
    have hok : IncDimOk cfg s T col kind v ω :=
      ⟨h1, h2, h3, fun r hr => (admissible_iff _ _ _).mp (by
        rw [← columnAdded_eq]; exact h4 r hr), h5, h6.1, h6.2.1, h6.2.2,
        fun hv => partners_of (h7 hv).1, fun hv => (h7 hv).2⟩
    obtain ⟨hinv, hsucc⟩ := hI.incorporateDim_inv hT hc hok
    obtain ⟨s', g1, g2, g3, -, -, -, b, g7, g8⟩ := hsucc (hv.imp id fun hv =>
      ⟨anyConditional_false hv.1, hv.2⟩)
    rw [g1] at hinv
    refine ⟨s', g1, ?_, g3, ?_, b, g7, g8⟩
    · have : Rect s'.X s'.outputs s.nRows := by rw [g2, g3]; exact hI.data.add hc hT
      exact this.nRows
    · rw [columnAdded_eq]
      show tblOf s'.X = _
      rw [g2]; rfl
  · obtain ⟨s', g1, g2, g3, g4, g5, g6, -⟩ := hI.unincorporateDim_ok hc hlen hl
    refine ⟨s', g1, g3, g4, g6, fun c hne => ?_⟩
    funext r
    unfold tbl tblOf
    rw [g5, Dict.get?_erase_ne _ hne]
  · obtain ⟨h1, h2, h3, h4⟩ := hl
    obtain ⟨d, hd⟩ := (dimFor_of_mem hI).mpr hc
    obtain ⟨s', cur, new, va, f1, f2, -, f4, -⟩ := hI.gibbsTransitionDim_ok (cfg := cfg) hd
      (anyConditional_false hcond) hCd h1 h2.1 (partners_of h3) h2.2.1 h2.2.2 (h4 d hd)
    exact ⟨s', new, f1, f4.X, f4.outputs, f4.Zv⟩

/-- The hypotheses are met: a State with two views, and a history that adds, forces, moves and
removes rows and columns, with refused calls in between. -/
example : ∃ s : State libCat, StateReachable plainCfg s ∧ s.nRows = 2 ∧ s.outputs = [0, 1] ∧
    stateLegalRun plainCfg s
      [.inc 2 [(0, some (5 : ℝ))] [(0, 7)] (fun _ => 1), .inc 9 [] [] (fun _ => 0),
       .force 0 [(1, some (3 : ℝ))], .force 0 [(1, some (4 : ℝ))], .unc 2, .unc 0,
       .incDim [some (1 : ℝ), none] [2] [] ⟨.normal, trivial⟩ none
         ⟨⟨.normal, ⟨0, 1, 1, 1⟩⟩, (1, fun _ => 0), fun _ => (1, fun r => r), 1 / 2,
          ⟨.normal, ⟨0, 2, 1, 1⟩⟩⟩,
       .column 0 1 (fun _ => (2, fun _ => 0)) (1 / 3), .row 0 1 5, .alpha (-1), .uncDim 1,
       .uncDim 1, .hypers 2 ⟨.normal, ⟨1, 1, 1, 1⟩⟩] := by
  obtain ⟨s, h1, h2, -, h4, h5, -, -, -, h9, h10, -, h12⟩ := stateDemo_init (x := 1)
    (normal_remembered 1) normal_hyp (a := 0) (b := 1) (by norm_num) [] []
  refine ⟨s, h1, h5, h4, plain_legalRun h2
    ⟨fun c d hd => ⟨(h12 c d hd).1, (h12 c d hd).2.1⟩, h9, h10⟩ fun op hop => ?_⟩
  simp only [List.mem_cons, List.not_mem_nil, or_false] at hop
  rcases hop with rfl | rfl | rfl | rfl | rfl | rfl | rfl | rfl | rfl | rfl | rfl | rfl | rfl
  · trivial
  · trivial
  · show (Dict.keys _).Nodup; simp [Dict.keys]
  · show (Dict.keys _).Nodup; simp [Dict.keys]
  · trivial
  · trivial
  · exact ⟨rfl, normal_hyp, ⟨rfl, by norm_num, one_pos, one_pos⟩, one_pos, fun _ => one_pos,
      by norm_num, by norm_num⟩
  · exact ⟨one_pos, fun _ => two_pos, by norm_num, by norm_num⟩
  · trivial
  · trivial
  · trivial
  · trivial
  · exact ⟨rfl, one_pos, one_pos, one_pos⟩

/-! ### C20 -/

/-- **C20.** Appending a row, in given or sampled clusters, and removing it again restores every
observable of the State. -/
theorem C20_add_remove_row (hC : C.Lawful) {cfg : Cfg C} {s : State C} (h : StateReachable cfg s)
    (obs : Dict Col C.Cell) (ks : Dict Nat Tab) (z : Nat → Tab)
    (hl : stateLegal cfg s (.inc s.nRows obs ks z)) (hks : ∀ v ∈ ks.keys, v ∈ s.views.keys)
    (hobs : ∀ c ∈ obs.keys, c ∈ s.outputs) (hval : ∀ p ∈ obs, p.2 ≠ none) :
    ∃ s1 s2, s.incorporate s.nRows obs ks z = .ok s1 ∧
      (∀ v view, s1.views.get? v = some view → view.seat s.nRows = some ((ks.get? v).getD (z v))) ∧
      s1.unincorporate s.nRows = .ok s2 ∧ StateSame s s2 := by
  have hI := h.inv hC
  obtain ⟨s1, g1, g2, g3, g4, g5, g6, g7, g8, g9, g10⟩ := hI.incorporate_ok hC z hks hobs hval
    (fun c d hd => (admissible_iff _ _ _).mp (hl rfl c d hd))
  obtain ⟨s2, f1, f2, f3, f4, f5, f6, f7, f8, f9⟩ := g2.unincorporate_ok hC g3 hI.pos
  refine ⟨s1, s2, g1, fun v view hv => ?_, f1, ?_⟩
  · obtain ⟨w, -, hw, -⟩ := g10.get? hv
    rw [hw]; simp
  · have hX : s.X = s2.X := hI.X_ext f2 (by rw [f4, g4]) f3.symm fun c r hr => by
      rw [f8 c r hr, g9 c r hr]
    refine ⟨hX, by rw [f4, g4], by rw [f5, g5], by rw [f6, g6], by rw [f7, g7],
      by rw [f9.keys, g10.keys], hI.views.wf, fun v => ?_⟩
    cases hv2 : s2.views.get? v with
    | none =>
      have : v ∉ s.views.keys := by
        rw [← g10.keys, ← f9.keys]; exact (Dict.get?_eq_none_iff _ _).mp hv2
      rw [(Dict.get?_eq_none_iff _ _).mpr this]
      exact Option.Rel.none
    | some v2 =>
      obtain ⟨v1, e1, e2, e3, e4⟩ := f9.get? hv2
      obtain ⟨v0, k1, k2, k3, k4⟩ := g10.get? e1
      rw [k1]
      refine Option.Rel.some (View.equiv_of_inv hC (hI.views.view v v0 k1).inv ?_ (by rw [e3, k3])
        ?_ (k4.trans e4))
      · have := (f2.views.view v v2 hv2).inv
        unfold tbl at this ⊢
        rw [hX]; exact this
      · rw [e2, k2, upd_upd]
        have : v0.seat s.nRows = none := by
          by_contra hne
          exact lt_irrefl _ (((hI.views.view v v0 k1).rows _).mp hne)
        rw [← this, upd_eq]

/-- **C20.** States that are the same for every observer have the same scores, the same columns,
and views with the same predictive densities (C12_same_answers applies to each of them). -/
theorem C20_same_answers {a b : State C} (h : StateSame a b) :
    a.score = b.score ∧ a.likelihood = b.likelihood ∧ a.tbl = b.tbl ∧ a.nRows = b.nRows ∧
      a.Zv = b.Zv := by
  refine ⟨?_, ?_, ?_, ?_, ?_⟩
  · unfold State.score
    rw [h.columns, vals_congr h.ids h.distinct h.views fun _ _ (e : View.Equiv _ _) => e.score]
  · unfold State.likelihood
    rw [vals_congr h.ids h.distinct h.views fun _ _ e => (C12_same_answers e).2.1]
  · unfold tbl; rw [h.data]
  · unfold State.nRows; rw [h.data, h.outputs]
  · unfold Zv; rw [h.columns]

/-- **C20.** Only the last row can be removed, and never the only row; other calls are refused and
change nothing. -/
theorem C20_only_last_row (hC : C.Lawful) {cfg : Cfg C} {s : State C} (h : StateReachable cfg s)
    (r : Row) :
    ((∃ s', s.unincorporate r = .ok s') ↔ r + 1 = s.nRows ∧ s.nRows ≠ 1) ∧
    (¬ (r + 1 = s.nRows ∧ s.nRows ≠ 1) → s.unincorporate r = .err .valueError s) := by
  refine ⟨⟨?_, ?_⟩, unincorporate_err⟩
  · rintro ⟨s', hs⟩
    by_contra hn
    rw [unincorporate_err hn] at hs; cases hs
  · intro hg
    obtain ⟨s', g1, -⟩ := (h.inv hC).unincorporate_ok hC hg.1.symm
        (Nat.pos_of_ne_zero fun e => hg.2 (by rw [← hg.1, e]))
    exact ⟨s', g1⟩

/-- The hypotheses of C20 are met: a row with one missing value, in a given cluster of one view
and a sampled cluster of the other. -/
example : ∃ s : State libCat, StateReachable plainCfg s ∧ s.nRows = 2 ∧
    ∃ s1 s2, s.incorporate 2 [(0, some (5 : ℝ))] [(0, 7)] (fun _ => 1) = .ok s1 ∧
      s1.unincorporate 2 = .ok s2 ∧ StateSame s s2 := by
  obtain ⟨s, h1, h2, -, h4, h5, -, -, h8, h9, h10, -, h12⟩ := stateDemo_init (x := 1)
    (normal_remembered 1) normal_hyp (a := 0) (b := 1) (by norm_num) [] []
  obtain ⟨s1, s2, g1, -, g2, g3⟩ := C20_add_remove_row (catOf_lawful _) h1 [(0, some (5 : ℝ))]
    [(0, 7)] (fun _ => 1) (plain_legal ⟨fun c d hd => ⟨(h12 c d hd).1, (h12 c d hd).2.1⟩, h9, h10⟩
      trivial) (by rw [h8]; simp [Dict.keys]) (by rw [h4]; simp [Dict.keys]) (by simp)
  rw [h5] at g1 g2
  exact ⟨s, h1, h5, s1, s2, g1, g2, g3⟩

end Cgpm.Props
