import Verif.Lemmas.SavedLinReg
import Verif.Props.LinReg
import Verif.Props.Ols
import Verif.Props.Forest

/-!
C86: saving a stand-alone model and loading it.

`load ord (save o)` is what `from_metadata` makes of `to_metadata`, with or without a trip through
JSON, after which a dictionary of rows is iterated in another order `ord`.
-/
namespace Cgpm.Props
open Cgpm Cgpm.Spec Cgpm.SavedRows

/-! ### Linear regression -/

/-- **C86** A linear regression whose prior mean and scale are the defaults, after any history: its
metadata can be loaded; the copy holds the same rows, in another order at most; whatever is called on
both afterwards, the same calls are refused, and they answer every query alike.  If the order of the
rows is kept, the copy is the same object. -/
theorem C86_linreg {ord : List Row → List Row} (ho : IsOrder ord) {out : Col} {inputs : List Col}
    {types : List InputType} {a b : ℝ} {i : LinReg.Inst}
    (hn : LinReg.Inst.new out inputs types (fun p => { LinReg.Hyp.default p with a, b }) = .ok i)
    (ops : List LinReg.Obj.Op) :
    ∃ j, LinReg.Inst.load ord (i.run ops).save = .ok j ∧ SameRows (i.run ops).o.rows j.o.rows ∧
      ((∀ l, ord l = l) → j = i.run ops) ∧
      ∀ later : List LinReg.Obj.Op,
        (∀ op, (((i.run ops).run later).o.apply op).exn = ((j.run later).o.apply op).exn) ∧
        (∀ rowid targets constraints ins, ((i.run ops).run later).o.logpdf rowid targets constraints ins
          = (j.run later).o.logpdf rowid targets constraints ins) ∧
        ((i.run ops).run later).o.logpdfScore = (j.run later).o.logpdfScore ∧
        ∀ rng rowid targets constraints ins,
          ((i.run ops).run later).o.simulate rng rowid targets constraints ins
            = (j.run later).o.simulate rng rowid targets constraints ins := by
  unfold LinReg.Inst.new LinReg.Obj.new at hn
  cases hg : RegSchema.new LinReg.predictorCount out inputs types with
  | error e => rw [hg] at hn; cases hn
  | ok g =>
    rw [hg] at hn
    cases hn
    obtain ⟨rows, a', b', h1, h2⟩ := linreg_run_frame
      (o := ⟨g, .empty, { LinReg.Hyp.default g.p with a, b }⟩) ops aligned_empty
    have hr : LinReg.Inst.run ⟨types, ⟨g, .empty, { LinReg.Hyp.default g.p with a, b }⟩⟩ ops
        = ⟨types, ⟨g, rows, { LinReg.Hyp.default g.p with a := a', b := b' }⟩⟩ := by
      unfold LinReg.Inst.run
      rw [h1]
    have hg' : g.output = out ∧ g.inputs = inputs := by
      unfold RegSchema.new at hg
      split at hg
      · cases hg
      · split at hg
        · cases hg
        · split at hg
          · cases hg
          · split at hg
            · cases hg
            · cases hg
              exact ⟨rfl, rfl⟩
    have hsame := reload_same ho h2
    refine ⟨⟨types, ⟨g, .reload ord rows.N rows.x rows.Y,
      { LinReg.Hyp.default g.p with a := a', b := b' }⟩⟩, ?_, ?_, ?_, ?_⟩
    · change LinReg.Inst.load ord (LinReg.Inst.save (LinReg.Inst.run
        ⟨types, ⟨g, .empty, { LinReg.Hyp.default g.p with a, b }⟩⟩ ops)) = _
      rw [hr]
      unfold LinReg.Inst.load LinReg.Inst.save LinReg.Inst.new LinReg.Obj.new
      simp only [hg'.1, hg'.2, hg]
      rfl
    · change SameRows (LinReg.Inst.run ⟨types, ⟨g, .empty, { LinReg.Hyp.default g.p with a, b }⟩⟩ ops).o.rows _
      rw [hr]
      exact hsame
    · intro hid
      refine Eq.trans ?_ hr.symm
      rw [reload_id h2 hid]
    · intro later
      change (∀ op, (((LinReg.Inst.run ⟨types, ⟨g, .empty, { LinReg.Hyp.default g.p with a, b }⟩⟩
        ops).run later).o.apply op).exn = _) ∧ (∀ rowid targets constraints ins,
        ((LinReg.Inst.run ⟨types, ⟨g, .empty, { LinReg.Hyp.default g.p with a, b }⟩⟩ ops).run
          later).o.logpdf rowid targets constraints ins = _) ∧
        ((LinReg.Inst.run ⟨types, ⟨g, .empty, { LinReg.Hyp.default g.p with a, b }⟩⟩ ops).run
          later).o.logpdfScore = _ ∧ ∀ rng rowid targets constraints ins,
        ((LinReg.Inst.run ⟨types, ⟨g, .empty, { LinReg.Hyp.default g.p with a, b }⟩⟩ ops).run
          later).o.simulate rng rowid targets constraints ins = _
      rw [hr]
      obtain ⟨t', h3, h4, h5⟩ := linreg_run_same
        (o := ⟨g, rows, { LinReg.Hyp.default g.p with a := a', b := b' }⟩) hsame h2 later
      unfold LinReg.Inst.run
      dsimp only
      dsimp only at h3
      rw [h3]
      generalize LinReg.Obj.run ⟨g, rows, { LinReg.Hyp.default g.p with a := a', b := b' }⟩ later = o at *
      refine ⟨fun op => ?_, fun rowid targets constraints ins => ?_, ?_,
        fun rng rowid targets constraints ins => ?_⟩
      · obtain ⟨-, -, -, -, h⟩ := linreg_apply_same h4 h5 op
        exact h.symm
      · exact (linreg_logpdf_same h4 _ _ _ _).symm
      · exact (linreg_score_same h4).symm
      · exact (linreg_simulate_same h4 h5 _ _ _ _ _).symm

/-- A linear regression of column 0 on the numerical column 1 whose coefficients have prior mean 1. -/
noncomputable def savedPrior : LinReg.Inst :=
  ⟨[.numeric], ⟨⟨0, [1], 2, []⟩, .empty, ⟨1, 1, fun _ => 1, 1⟩⟩⟩

/-- The copy. -/
noncomputable def savedCopy : LinReg.Inst :=
  ⟨[.numeric], ⟨⟨0, [1], 2, []⟩, .empty, ⟨1, 1, fun _ => 0, 1⟩⟩⟩

theorem saved_logpdf (mu : Fin 2 → ℝ) : ∃ s,
    LinReg.Obj.logpdf ⟨⟨0, [1], 2, []⟩, .empty, ⟨1, 1, mu, 1⟩⟩ none [(0, some 1)] [] (some [(1, some 0)])
      = .ok (some s) ∧
    s = LinReg.logEv ⟨1, 1, mu, 1⟩ [(1, ![1, 0])] - LinReg.logEv ⟨1, 1, mu, 1⟩ [] := by
  have hv : LinReg.ValidHyp (⟨1, 1, mu, 1⟩ : LinReg.Hyp 2) := ⟨one_pos, one_pos, Matrix.PosDef.one⟩
  have H : LinReg.Reached 0 [1] [.numeric] [] ⟨⟨0, [1], 2, []⟩, .empty, ⟨1, 1, mu, 1⟩⟩ := ⟨rfl, rfl, hv⟩
  have hR : LinReg.Lists (p := 2) (LinReg.table 0 [1] [.numeric] []) [] :=
    ⟨[], List.nodup_nil, fun r => by simp [LinReg.table, kept], List.Forall₂.nil⟩
  obtain ⟨s, h1, h2, h3⟩ := C55_logpdf H hR (rowid := none) (by simp) (linreg_demo_keeps 1 (some 0))
    (v := ![1, 0]) (by simp [LinReg.IsVec])
  refine ⟨s, h1, ?_⟩
  rw [LinReg.evidence_eq hv, LinReg.evidence_eq hv, ← Real.exp_sub, Real.exp_eq_exp] at h3
  exact h3

/-- **C86, refuted in this case** The metadata of a linear regression does not hold the mean and the
scale of its prior: a regression that was given a prior mean comes back with the mean zero, and answers
queries differently. -/
theorem C86_linreg_prior_violated :
    LinReg.Inst.new 0 [1] [.numeric] (fun _ => ⟨1, 1, fun _ => 1, 1⟩) = .ok savedPrior ∧
    LinReg.Inst.load id savedPrior.save = .ok savedCopy ∧
    savedPrior.o.logpdf none [(0, some 1)] [] (some [(1, some 0)])
      ≠ savedCopy.o.logpdf none [(0, some 1)] [] (some [(1, some 0)]) := by
  refine ⟨rfl, rfl, ?_⟩
  obtain ⟨s, h1, h2⟩ := saved_logpdf fun _ => 1
  obtain ⟨s', h1', h2'⟩ := saved_logpdf fun _ => 0
  have hv : ∀ mu : Fin 2 → ℝ, LinReg.ValidHyp (⟨1, 1, mu, 1⟩ : LinReg.Hyp 2) :=
    fun mu => ⟨one_pos, one_pos, Matrix.PosDef.one⟩
  have hpos := (LinReg.postPrec_posDef (hv fun _ => 0) [(1, ![1, 0])]).det_pos
  have hP : LinReg.postPrec (⟨1, 1, fun _ => 1, 1⟩ : LinReg.Hyp 2) [(1, ![1, 0])]
      = LinReg.postPrec (⟨1, 1, fun _ => 0, 1⟩ : LinReg.Hyp 2) [(1, ![1, 0])] := rfl
  have r1 : LinReg.postRate (⟨1, 1, fun _ => 1, 1⟩ : LinReg.Hyp 2) [(1, ![1, 0])] = 1 := by
    rw [LinReg.postRate_single (hv _)]
    simp [dotProduct, Fin.sum_univ_two]
  have r2 : 1 < LinReg.postRate (⟨1, 1, fun _ => 0, 1⟩ : LinReg.Hyp 2) [(1, ![1, 0])] := by
    rw [LinReg.postRate_single (hv _)]
    simp only [inv_one, Matrix.det_one, dotProduct, Fin.sum_univ_two, zero_mul, add_zero, sub_zero]
    have := div_pos one_pos hpos
    linarith
  intro heq
  have hss : s = s' := by
    have := (show savedPrior.o.logpdf none [(0, some 1)] [] (some [(1, some 0)]) = _ from h1).symm.trans
      (heq.trans (show savedCopy.o.logpdf none [(0, some 1)] [] (some [(1, some 0)]) = _ from h1'))
    simpa using this
  rw [h2, h2'] at hss
  unfold LinReg.logEv at hss
  rw [LinReg.postRate_nil (hv _), LinReg.postRate_nil (hv _), hP, r1] at hss
  have hlog := Real.log_pos r2
  simp only [LinReg.calcLogZ, LinReg.postPrec_nil, List.length_cons, List.length_nil, Real.log_one] at hss
  norm_num at hss
  linarith

/-! ### Least squares -/

section ols
variable {fit : List (List ℝ) → List ℝ → (List ℝ → ℝ)} {o : OlsReg} {t : RegRows ℝ}

theorem saved_schema {count : InputType → Except Exn (Nat × Option Nat)} {out : Col} {inputs : List Col}
    {types : List InputType} {g : RegSchema} (hg : RegSchema.new count out inputs types = .ok g) :
    g.output = out ∧ g.inputs = inputs := by
  unfold RegSchema.new at hg
  split at hg
  · cases hg
  · split at hg
    · cases hg
    · split at hg
      · cases hg
      · split at hg
        · cases hg
        · cases hg
          exact ⟨rfl, rfl⟩

theorem ols_apply_saved (h : SameRows o.rows t) (ha : Aligned o.rows) (op : OlsReg.Op)
    (hop : op = .transition → OrderFree fit) :
    ∃ t', OlsReg.apply fit { o with rows := t } op = { o.apply fit op with rows := t' } ∧
      SameRows (o.apply fit op).rows t' ∧ Aligned (o.apply fit op).rows ∧ (o.apply fit op).g = o.g := by
  cases op with
  | inc r obs ins =>
    obtain ⟨h1, -⟩ := same_inc h r (Ols.prep o.g obs ins)
    have hs : ∀ o : OlsReg, o.apply fit (.inc r obs ins)
        = { o with rows := (o.rows.incorporate r (Ols.prep o.g obs ins)).state } :=
      fun o => out_map_state _ _
    rw [hs, hs]
    exact ⟨_, rfl, h1, aligned_inc ha _ _, rfl⟩
  | unc r =>
    obtain ⟨h1, -⟩ := same_unc h ha r
    have hs : ∀ o : OlsReg, o.apply fit (.unc r)
        = { o with rows := (o.rows.unincorporate r).state } := fun o => out_map_state _ _
    rw [hs, hs]
    exact ⟨_, rfl, h1, aligned_unc ha _, rfl⟩
  | transition =>
    have hf := hop rfl
    obtain ⟨l, l', hp, e1, e2, e3, e4⟩ := same_vals h
    have hl : o.rows.Y.length = t.Y.length := (same_Y h).length_eq
    have hs : ∀ o : OlsReg, o.apply fit .transition = o.transition fit := fun _ => rfl
    have hfit := hf (l.map fun e => (e.1, RForest.array e.2)) (l'.map fun e => (e.1, RForest.array e.2))
      (hp.map _)
    simp only [List.map_map, Function.comp_def] at hfit
    have hY : o.rows.Y.vals.map RForest.array = l.map fun e => RForest.array e.2 := by
      rw [e2, List.map_map]; rfl
    have hY' : t.Y.vals.map RForest.array = l'.map fun e => RForest.array e.2 := by
      rw [e4, List.map_map]; rfl
    have hsum : ∀ F : List ℝ → ℝ, ((List.zipWith (fun x q => (x - q) ^ 2) o.rows.x.vals
        (o.rows.Y.vals.map fun y => F (RForest.array y))).sum : ℝ)
        = (List.zipWith (fun x q => (x - q) ^ 2) t.x.vals
        (t.Y.vals.map fun y => F (RForest.array y))).sum := by
      intro F
      have hz : ∀ m : List (ℝ × List (Option ℝ)), List.zipWith (fun x q => (x - q) ^ 2) (m.map Prod.fst)
          ((m.map Prod.snd).map fun y => F (RForest.array y))
          = m.map fun e => (e.1 - F (RForest.array e.2)) ^ 2 := by
        intro m
        induction m with
        | nil => rfl
        | cons e m ih => simp [ih]
      rw [e1, e2, e3, e4, hz, hz]
      exact (hp.map _).sum_eq
    rw [hs, hs]
    refine ⟨t, ?_, ?_⟩
    · unfold OlsReg.transition
      simp only [← hl]
      split_ifs with h0
      · simp only [hY, hY', hsum, ← h.1]
        rw [e1, e3, hfit]
      · rfl
    · unfold OlsReg.transition
      split_ifs
      · exact ⟨h, ha, rfl⟩
      · exact ⟨h, ha, rfl⟩

theorem ols_run_saved (h : SameRows o.rows t) (ha : Aligned o.rows) (ops : List OlsReg.Op)
    (hop : .transition ∈ ops → OrderFree fit) :
    ∃ t', OlsReg.run fit { o with rows := t } ops = { o.run fit ops with rows := t' } ∧
      SameRows (o.run fit ops).rows t' ∧ Aligned (o.run fit ops).rows ∧ (o.run fit ops).g = o.g := by
  induction ops generalizing o t with
  | nil => exact ⟨t, rfl, h, ha, rfl⟩
  | cons op ops ih =>
    obtain ⟨t', h1, h2, h3, h4⟩ := ols_apply_saved (fit := fit) h ha op
      fun e => hop (e ▸ List.mem_cons_self)
    obtain ⟨t'', h5, h6, h7, h8⟩ := ih h2 h3 fun e => hop (List.mem_cons_of_mem _ e)
    refine ⟨t'', ?_, h6, h7, h8.trans h4⟩
    show OlsReg.run fit (OlsReg.apply fit { o with rows := t } op) ops = _
    rw [h1]
    exact h5

theorem ols_logpdf_saved (h : SameRows o.rows t) (rowid : Option Row) (targets constraints : Vals)
    (inputs : Option Vals) :
    OlsReg.logpdf { o with rows := t } rowid targets constraints inputs
      = o.logpdf rowid targets constraints inputs := by
  have hh : rowid.any t.x.has = rowid.any o.rows.x.has := by
    cases rowid with
    | none => rfl
    | some r => exact (perm_has (same_x h) r).symm
  unfold OlsReg.logpdf OlsReg.predict
  simp only [hh]

theorem ols_simulate_saved (h : SameRows o.rows t) (ha : Aligned o.rows) (rowid : Option Row)
    (targets : List Col) (constraints : Vals) (inputs : Option Vals) (N : Option Int) :
    OlsReg.simulate { o with rows := t } rowid targets constraints inputs N
      = o.simulate rowid targets constraints inputs N := by
  have hg : rowid.bind t.x.get? = rowid.bind o.rows.x.get? := by
    cases rowid with
    | none => rfl
    | some r => exact (same_get h ha r).symm
  unfold OlsReg.simulate OlsReg.predict
  simp only [hg]

/-- **C86** A least squares regression after any history: its metadata can be loaded; the copy has the
same regressor and noise and holds the same rows, in another order at most; whatever is called on both
afterwards, the same calls are refused, and they answer every query alike (if the regressor is trained
again, provided that training does not depend on the order of the rows).  If the order of the rows is
kept, the copy is the same object. -/
theorem C86_ols {ord : List Row → List Row} (ho : IsOrder ord) {out : Col} {inputs : List Col}
    {types : List InputType} {noise : Option ℝ} {reg : Option (List ℝ → ℝ)} {i : OlsReg.Inst}
    (hn : OlsReg.Inst.new out inputs types noise reg = .ok i) (ops : List OlsReg.Op) :
    ∃ j, OlsReg.Inst.load ord (i.run fit ops).save = .ok j ∧
      j.o.reg = (i.run fit ops).o.reg ∧ j.o.noise = (i.run fit ops).o.noise ∧
      SameRows (i.run fit ops).o.rows j.o.rows ∧
      ((∀ l, ord l = l) → j = i.run fit ops) ∧
      ∀ later : List OlsReg.Op, (.transition ∈ later → OrderFree fit) →
        (∀ r obs ins, (((i.run fit ops).run fit later).o.incorporate r obs ins).exn
          = ((j.run fit later).o.incorporate r obs ins).exn) ∧
        (∀ r, (((i.run fit ops).run fit later).o.unincorporate r).exn
          = ((j.run fit later).o.unincorporate r).exn) ∧
        (∀ rowid targets constraints ins,
          ((i.run fit ops).run fit later).o.logpdf rowid targets constraints ins
            = (j.run fit later).o.logpdf rowid targets constraints ins) ∧
        ∀ rowid targets constraints ins N,
          ((i.run fit ops).run fit later).o.simulate rowid targets constraints ins N
            = (j.run fit later).o.simulate rowid targets constraints ins N := by
  unfold OlsReg.Inst.new OlsReg.new at hn
  cases hg : RegSchema.new Ols.predictorCount out inputs types with
  | error e => rw [hg] at hn; cases hn
  | ok g =>
    rw [hg] at hn
    cases hn
    have hal : ∀ ops : List OlsReg.Op, Aligned (OlsReg.run fit ⟨g, .empty, noise.getD 1, reg⟩ ops).rows ∧
        (OlsReg.run fit ⟨g, .empty, noise.getD 1, reg⟩ ops).g = g := by
      intro ops
      induction ops using List.reverseRecOn with
      | nil => exact ⟨aligned_empty, rfl⟩
      | append_singleton ops op ih =>
        have hr : OlsReg.run fit ⟨g, .empty, noise.getD 1, reg⟩ (ops ++ [op])
            = OlsReg.apply fit (OlsReg.run fit ⟨g, .empty, noise.getD 1, reg⟩ ops) op := by
          unfold OlsReg.run
          rw [List.foldl_append]
          rfl
        rw [hr]
        generalize OlsReg.run fit _ ops = o at *
        cases op with
        | inc r obs ins =>
          rw [show o.apply fit (.inc r obs ins)
            = { o with rows := (o.rows.incorporate r (Ols.prep o.g obs ins)).state } from out_map_state _ _]
          exact ⟨aligned_inc ih.1 _ _, ih.2⟩
        | unc r =>
          rw [show o.apply fit (.unc r)
            = { o with rows := (o.rows.unincorporate r).state } from out_map_state _ _]
          exact ⟨aligned_unc ih.1 _, ih.2⟩
        | transition =>
          rw [show o.apply fit .transition = o.transition fit from rfl]
          unfold OlsReg.transition
          split_ifs
          · exact ih
          · exact ih
    obtain ⟨ha, hgo⟩ := hal ops
    change ∃ j, OlsReg.Inst.load ord (OlsReg.Inst.save ⟨types, _⟩) = .ok j ∧
      j.o.reg = (OlsReg.run fit ⟨g, .empty, noise.getD 1, reg⟩ ops).reg ∧
      j.o.noise = (OlsReg.run fit ⟨g, .empty, noise.getD 1, reg⟩ ops).noise ∧
      SameRows (OlsReg.run fit ⟨g, .empty, noise.getD 1, reg⟩ ops).rows j.o.rows ∧
      ((∀ l, ord l = l) → j = ⟨types, OlsReg.run fit ⟨g, .empty, noise.getD 1, reg⟩ ops⟩) ∧
      ∀ later : List OlsReg.Op, (.transition ∈ later → OrderFree fit) →
        (∀ r obs ins, ((OlsReg.run fit (OlsReg.run fit ⟨g, .empty, noise.getD 1, reg⟩ ops) later).incorporate
          r obs ins).exn = ((OlsReg.run fit j.o later).incorporate r obs ins).exn) ∧
        (∀ r, ((OlsReg.run fit (OlsReg.run fit ⟨g, .empty, noise.getD 1, reg⟩ ops) later).unincorporate
          r).exn = ((OlsReg.run fit j.o later).unincorporate r).exn) ∧
        (∀ rowid targets constraints ins,
          (OlsReg.run fit (OlsReg.run fit ⟨g, .empty, noise.getD 1, reg⟩ ops) later).logpdf rowid targets
            constraints ins = (OlsReg.run fit j.o later).logpdf rowid targets constraints ins) ∧
        ∀ rowid targets constraints ins N,
          (OlsReg.run fit (OlsReg.run fit ⟨g, .empty, noise.getD 1, reg⟩ ops) later).simulate rowid targets
            constraints ins N = (OlsReg.run fit j.o later).simulate rowid targets constraints ins N
    generalize OlsReg.run fit ⟨g, .empty, noise.getD 1, reg⟩ ops = o at *
    have hsame := reload_same ho ha
    have hs := saved_schema hg
    refine ⟨⟨types, { o with rows := .reload ord o.rows.N o.rows.x o.rows.Y }⟩, ?_, rfl, rfl, hsame, ?_, ?_⟩
    · unfold OlsReg.Inst.load OlsReg.Inst.save OlsReg.Inst.new OlsReg.new
      simp only [hgo, hs.1, hs.2, hg]
      rw [← hgo]
      rfl
    · intro hid
      rw [reload_id ha hid]
    · intro later hl
      obtain ⟨t', h1, h2, h3, h4⟩ := ols_run_saved (fit := fit) hsame ha later hl
      rw [h1]
      generalize OlsReg.run fit o later = o' at *
      refine ⟨fun r obs ins => ?_, fun r => ?_, fun rowid targets constraints ins => ?_,
        fun rowid targets constraints ins N => ?_⟩
      · unfold OlsReg.incorporate
        rw [out_map_exn, out_map_exn]
        exact (same_inc h2 r _).2
      · unfold OlsReg.unincorporate
        rw [out_map_exn, out_map_exn]
        exact (same_unc h2 h3 r).2
      · exact (ols_logpdf_saved h2 _ _ _ _).symm
      · exact (ols_simulate_saved h2 h3 _ _ _ _ _).symm

end ols

/-! ### Random forest -/

section forest
variable {o : RForest} {t : RegRows Nat}

/-- Calls about rows, on a forest. -/
noncomputable def forestRows (o : RForest) (later : List (RowOp (Vals × Option Vals))) : RForest :=
  runRows (fun s r v => RForest.incorporate s r v.1 v.2) RForest.unincorporate o later

/-- The forest `o` with other rows. -/
def withRows (o : RForest) (t : RegRows Nat) : RForest := { o with obj := { o.obj with rows := t } }

theorem forest_inc_saved (h : SameRows o.obj.rows t) (ha : Aligned o.obj.rows) (r : Row) (obs : Vals)
    (ins : Option Vals) :
    (∃ t', ((withRows o t).incorporate r obs ins).state = withRows (o.incorporate r obs ins).state t' ∧
      SameRows (o.incorporate r obs ins).state.obj.rows t' ∧
      Aligned (o.incorporate r obs ins).state.obj.rows) ∧
    ((withRows o t).incorporate r obs ins).exn = (o.incorporate r obs ins).exn := by
  obtain ⟨h1, h2⟩ := same_inc h r (Forest.preprocess o.g obs ins)
  have h3 := aligned_inc ha r (Forest.preprocess o.g obs ins)
  unfold RForest.incorporate Forest.Obj.incorporate withRows
  dsimp only
  rcases hs : o.obj.rows.incorporate r (Forest.preprocess o.g obs ins) with s | ⟨e, s⟩ <;>
    rcases ht : t.incorporate r (Forest.preprocess o.g obs ins) with s' | ⟨e', s'⟩ <;>
    rw [hs] at h1 h2 h3 <;> rw [ht] at h1 h2
  · rcases hp : Forest.preprocess o.g obs ins with e | ⟨x, y⟩
    · exfalso
      rw [hp] at hs
      unfold RegRows.incorporate at hs
      split at hs
      · cases hs
      · split at hs <;> cases hs
    · exact ⟨⟨s', rfl, h1, h3⟩, rfl⟩
  · cases h2
  · cases h2
  · cases h2
    exact ⟨⟨s', rfl, h1, h3⟩, rfl⟩

theorem forest_unc_saved (h : SameRows o.obj.rows t) (ha : Aligned o.obj.rows) (r : Row) :
    (∃ t', ((withRows o t).unincorporate r).state = withRows (o.unincorporate r).state t' ∧
      SameRows (o.unincorporate r).state.obj.rows t' ∧ Aligned (o.unincorporate r).state.obj.rows) ∧
    ((withRows o t).unincorporate r).exn = (o.unincorporate r).exn := by
  obtain ⟨h1, h2⟩ := same_unc h ha r
  have h3 := aligned_unc ha r
  unfold RForest.unincorporate Forest.Obj.unincorporate withRows
  dsimp only
  rw [out_map_exn, out_map_exn, out_map_exn, out_map_exn, out_map_state, out_map_state, out_map_state,
    out_map_state]
  exact ⟨⟨_, rfl, h1, h3⟩, h2.symm⟩

theorem forest_rows_saved (h : SameRows o.obj.rows t) (ha : Aligned o.obj.rows)
    (later : List (RowOp (Vals × Option Vals))) :
    ∃ t', forestRows (withRows o t) later = withRows (forestRows o later) t' ∧
      SameRows (forestRows o later).obj.rows t' ∧ Aligned (forestRows o later).obj.rows := by
  induction later generalizing o t with
  | nil => exact ⟨t, rfl, h, ha⟩
  | cons op later ih =>
    cases op with
    | inc r v =>
      obtain ⟨⟨t', h1, h2, h3⟩, -⟩ := forest_inc_saved h ha r v.1 v.2
      obtain ⟨t'', h4, h5, h6⟩ := ih h2 h3
      refine ⟨t'', ?_, h5, h6⟩
      show forestRows ((withRows o t).incorporate r v.1 v.2).state later = _
      rw [h1]
      exact h4
    | unc r =>
      obtain ⟨⟨t', h1, h2, h3⟩, -⟩ := forest_unc_saved h ha r
      obtain ⟨t'', h4, h5, h6⟩ := ih h2 h3
      refine ⟨t'', ?_, h5, h6⟩
      show forestRows ((withRows o t).unincorporate r).state later = _
      rw [h1]
      exact h4

theorem forest_logpdf_saved (h : SameRows o.obj.rows t) (rowid : Option Row) (targets constraints : Vals)
    (inputs : Option Vals) :
    (withRows o t).logpdf rowid targets constraints inputs = o.logpdf rowid targets constraints inputs := by
  have hh : rowid.any t.x.has = rowid.any o.obj.rows.x.has := by
    cases rowid with
    | none => rfl
    | some r => exact (perm_has (same_x h) r).symm
  unfold RForest.logpdf withRows
  simp only [hh]

theorem forest_one_saved (h : SameRows o.obj.rows t) (ha : Aligned o.obj.rows) (rowid : Option Row)
    (targets : List Col) (constraints : Vals) (inputs : Option Vals) :
    (withRows o t).simulateOne rowid targets constraints inputs
      = o.simulateOne rowid targets constraints inputs := by
  have hg : rowid.bind t.x.get? = rowid.bind o.obj.rows.x.get? := by
    cases rowid with
    | none => rfl
    | some r => exact (same_get h ha r).symm
  unfold RForest.simulateOne
  simp only [forest_logpdf_saved h]
  show (if targets ≠ [o.g.output] then _ else if !constraints.isEmpty then _ else
    match rowid.bind t.x.get? with | some x => _ | none => _) = _
  rw [hg]
  rfl

theorem forest_simulate_saved (h : SameRows o.obj.rows t) (ha : Aligned o.obj.rows) (rowid : Option Row)
    (targets : List Col) (constraints : Vals) (inputs : Option Vals) (N : Option Int) :
    (withRows o t).simulate rowid targets constraints inputs N
      = o.simulate rowid targets constraints inputs N := by
  unfold RForest.simulate
  simp only [forest_one_saved h ha]

theorem forest_score_saved (h : SameRows o.obj.rows t) {v : Fl} (hv : o.logpdfScore = .ok v) :
    (withRows o t).logpdfScore = .ok v := by
  obtain ⟨l, l', hp, e1, e2, e3, e4⟩ := same_vals h
  have hz : ∀ m : List (Nat × List (Option ℝ)), (m.map Prod.fst).zip (m.map Prod.snd) = m := by
    intro m
    induction m with
    | nil => rfl
    | cons e m ih => simp [ih]
  unfold RForest.logpdfScore RForest.calcLogLikelihood at hv ⊢
  show (Net.collect _ (t.x.vals.zip t.Y.vals)).map flSum = _
  rw [e1, e2, hz] at hv
  rw [e3, e4, hz]
  cases hc : Net.collect (fun p : Nat × List (Option ℝ) =>
      RForest.calcPredictiveLogp p.1 p.2 o.clf o.obj.counts.length o.alpha) l with
  | error e => rw [hc] at hv; cases hv
  | ok r =>
    rw [hc] at hv
    cases hv
    obtain ⟨r', h1, h2⟩ := collect_perm hp hc
    show (Net.collect (fun p : Nat × List (Option ℝ) =>
      RForest.calcPredictiveLogp p.1 p.2 o.clf o.obj.counts.length o.alpha) l').map flSum = _
    rw [h1, Except.map, flSum_perm h2]

/-- **C86** A random forest that the constructor returns, after any history of calls (in which no
transition raises): its metadata can be loaded; the copy has the same classifier, share of the uniform
law and counts and holds the same rows, in another order at most; whatever rows are incorporated and
removed on both afterwards, the same calls are refused, they answer every query alike, and a score that
the original has is the score of the copy.  If the order of the rows is kept, the copy is the same
object. -/
theorem C86_forest {ord : List Row → List Row} (ho : IsOrder ord)
    {fit : List (List ℝ) → List Nat → Rand Classifier} (hfit : Forest.Fits fit) {output : Col}
    {inputs : List Col} {n k : Nat} {alpha : Option ℝ} {clf : Option Classifier} {o₀ : RForest}
    (hnew : RForest.new output inputs n k alpha clf = .ok o₀) (hk : 1 ≤ k) (hn : inputs.Nodup)
    (ha : ∀ a, alpha = some a → 0 ≤ a ∧ a ≤ 1)
    (hc : ∀ c, clf = some c → Forest.Proper inputs.length c ∧ ∀ j ∈ c.classes, j < k)
    (ops : List RForest.Op) :
    Rand.Surely (fun o => ∃ j, RForest.load ord o.save = .ok j ∧ j.clf = o.clf ∧ j.alpha = o.alpha ∧
      j.obj.counts = o.obj.counts ∧ SameRows o.obj.rows j.obj.rows ∧ ((∀ l, ord l = l) → j = o) ∧
      ∀ later : List (RowOp (Vals × Option Vals)),
        (∀ r obs ins, ((forestRows o later).incorporate r obs ins).exn
          = ((forestRows j later).incorporate r obs ins).exn) ∧
        (∀ r, ((forestRows o later).unincorporate r).exn = ((forestRows j later).unincorporate r).exn) ∧
        (∀ rowid targets constraints ins, (forestRows o later).logpdf rowid targets constraints ins
          = (forestRows j later).logpdf rowid targets constraints ins) ∧
        (∀ rowid targets constraints ins N, (forestRows o later).simulate rowid targets constraints ins N
          = (forestRows j later).simulate rowid targets constraints ins N) ∧
        ∀ v, (forestRows o later).logpdfScore = .ok v → (forestRows j later).logpdfScore = .ok v)
      (o₀.run fit ops) := by
  have hV := (C67_history hfit hnew hk hn ha hc ops).1
  refine (forest_run hfit ops hV).mono ?_
  rintro o ⟨hVo, hg, -⟩
  have hal : Aligned o.obj.rows := ⟨hVo.keys.symm, hVo.rows⟩
  have hsame := reload_same ho hal
  have hnew' : RForest.new o.g.output o.g.inputs o.g.p o.g.k (some o.alpha) o.clf
      = .ok ⟨o.g, .empty o.g, o.alpha, o.clf⟩ := by
    rw [hg]
    unfold RForest.new at hnew ⊢
    cases hF : Forest.new output inputs n k with
    | error e => rw [hF] at hnew; cases hnew
    | ok g =>
      rw [hF] at hnew
      cases hnew
      have hg2 : g = ⟨output, inputs, k, n⟩ := by
        unfold Forest.new at hF
        split at hF
        · cases hF
        · split at hF
          · cases hF
          · split at hF
            · cases hF
            · cases hF
              rfl
      subst hg2
      simp only [hF]
      rfl
  refine ⟨withRows o (.reload ord o.obj.rows.N o.obj.rows.x o.obj.rows.Y), ?_, rfl, rfl, rfl, hsame, ?_, ?_⟩
  · unfold RForest.load RForest.save
    simp only [hnew']
    rfl
  · intro hid
    rw [reload_id hal hid]
    rfl
  · intro later
    obtain ⟨t', h1, h2, h3⟩ := forest_rows_saved hsame hal later
    rw [h1]
    generalize forestRows o later = o' at *
    exact ⟨fun r obs ins => (forest_inc_saved h2 h3 r obs ins).2.symm,
      fun r => (forest_unc_saved h2 h3 r).2.symm, fun _ _ _ _ => (forest_logpdf_saved h2 _ _ _ _).symm,
      fun _ _ _ _ _ => (forest_simulate_saved h2 h3 _ _ _ _ _).symm,
      fun v hv => forest_score_saved h2 hv⟩

end forest

/-! ### Multivariate models -/

theorem mv_wf_inc {outputs latents stored : List Col} {s : MvRows} (h : s.data.WF) (r : Row)
    (obs inputs : Vals) : (s.incorporate outputs latents stored r obs inputs).state.data.WF := by
  unfold MvRows.incorporate
  split_ifs
  · exact h
  · exact h
  · exact h
  · exact h
  · exact h
  · exact Dict.wf_set h _ _

theorem mv_wf_unc {s : MvRows} (h : s.data.WF) (r : Row) : (s.unincorporate r).state.data.WF := by
  unfold MvRows.unincorporate
  split_ifs
  · exact Dict.wf_erase h _
  · exact h

theorem types_saved (ts : List KType) :
    Net.collect Kde.typeOf (ts.map KType.toInput) = .ok ts := by
  induction ts with
  | nil => rfl
  | cons x ts ih =>
    rw [List.map_cons]
    unfold Net.collect
    cases x <;> simp [KType.toInput, Kde.typeOf, ih, Except.map]

theorem collect_len {α β : Type} {f : α → Except Exn β} {l : List α} {r : List β}
    (h : Net.collect f l = .ok r) : r.length = l.length := by
  induction l generalizing r with
  | nil => cases h; rfl
  | cons a l ih =>
    unfold Net.collect at h
    cases ha : f a with
    | error e => simp [ha] at h
    | ok b =>
      cases hl : Net.collect f l with
      | error e => simp [ha, hl, Except.map] at h
      | ok c =>
        simp only [ha, hl, Except.map, Except.ok.injEq] at h
        subst h
        simp [ih hl]

/-- **C86** A kernel density estimate, after any history: loading its metadata gives the same object. -/
theorem C86_kde {outputs inputs : List Col} {types : List InputType} {params : Option (List ℝ)} {o : Kde}
    (hn : Kde.new outputs inputs types params = .ok o) (ops : List Kde.Op) :
    Kde.load (o.run ops).save = .ok (o.run ops) := by
  have hinv : ¬ o.outputs.length < 1 ∧ ¬ o.outputs.dedup.length ≠ o.outputs.length ∧
      o.types.length = o.outputs.length ∧ o.rows.data.WF := by
    unfold Kde.new at hn
    split_ifs at hn with h1 h2 h3 h4
    cases hc : Net.collect Kde.typeOf types with
    | error e => rw [hc] at hn; cases hn
    | ok ts =>
      rw [hc] at hn
      cases hn
      exact ⟨h2, h3, (collect_len hc).trans (not_not.mp h4), Dict.wf_nil⟩
  clear hn
  have hrun : ¬ (o.run ops).outputs.length < 1 ∧
      ¬ (o.run ops).outputs.dedup.length ≠ (o.run ops).outputs.length ∧
      (o.run ops).types.length = (o.run ops).outputs.length ∧ (o.run ops).rows.data.WF := by
    unfold Kde.run
    induction ops using List.reverseRecOn with
    | nil => exact hinv
    | append_singleton ops op ih =>
      rw [List.foldl_append]
      generalize List.foldl _ o ops = s at *
      cases op with
      | inc r obs ins =>
        show ¬ (s.incorporate r obs ins).state.outputs.length < 1 ∧ _
        simp only [List.foldl_cons, List.foldl_nil, Kde.apply, Kde.incorporate, out_map_state]
        exact ⟨ih.1, ih.2.1, ih.2.2.1, mv_wf_inc ih.2.2.2 _ _ _⟩
      | unc r =>
        simp only [List.foldl_cons, List.foldl_nil, Kde.apply, Kde.unincorporate, out_map_state]
        exact ⟨ih.1, ih.2.1, ih.2.2.1, mv_wf_unc ih.2.2.2 _⟩
      | learn bw =>
        simp only [List.foldl_cons, List.foldl_nil, Kde.apply, Kde.transition, Out.state]
        split_ifs
        · exact ih
        · exact ih
  generalize o.run ops = s at *
  obtain ⟨h1, h2, h3, h4⟩ := hrun
  unfold Kde.load Kde.save Kde.new
  simp only [List.isEmpty_nil, Bool.not_true, Bool.false_eq_true, if_false, h1, h2, List.length_map, h3,
    ne_eq, not_true_eq_false, types_saved, Option.getD_some, Dict.ofItems, Dict.update_nil_eq h4]

/-- **C86** A nearest neighbour model, after any history: loading its metadata gives the same object. -/
theorem C86_knn {outputs inputs : List Col} {K M : Option Int} {types : List InputType} {o : Knn}
    (hn : Knn.new outputs inputs K M types = .ok o) (ops : List Knn.Op) :
    Knn.load (o.run ops).save = .ok (o.run ops) := by
  have hinv : ¬ o.outputs.length < 2 ∧ ¬ o.outputs.dedup.length ≠ o.outputs.length ∧
      o.types.length = o.outputs.length ∧ o.rows.data.WF ∧ ¬ (o.K : ℤ) < 1 := by
    cases K with
    | none =>
      unfold Knn.new at hn
      dsimp only at hn
      split_ifs at hn
    | some k =>
      unfold Knn.new at hn
      dsimp only at hn
      split_ifs at hn with h1 h2 h3 h4 h5
      cases hc : Net.collect Kde.typeOf types with
      | error e => rw [hc] at hn; cases hn
      | ok ts =>
        rw [hc] at hn
        cases hn
        refine ⟨h2, h3, (collect_len hc).trans (not_not.mp h5), Dict.wf_nil, ?_⟩
        simp only [Int.toNat_of_nonneg (by omega : 0 ≤ k)]
        exact h4
  clear hn
  have hrun : ¬ (o.run ops).outputs.length < 2 ∧
      ¬ (o.run ops).outputs.dedup.length ≠ (o.run ops).outputs.length ∧
      (o.run ops).types.length = (o.run ops).outputs.length ∧ (o.run ops).rows.data.WF ∧
      ¬ ((o.run ops).K : ℤ) < 1 := by
    unfold Knn.run
    induction ops using List.reverseRecOn with
    | nil => exact hinv
    | append_singleton ops op ih =>
      rw [List.foldl_append]
      generalize List.foldl _ o ops = s at *
      cases op with
      | inc r obs ins =>
        simp only [List.foldl_cons, List.foldl_nil, Knn.apply, Knn.incorporate, out_map_state]
        exact ⟨ih.1, ih.2.1, ih.2.2.1, mv_wf_inc ih.2.2.2.1 _ _ _, ih.2.2.2.2⟩
      | unc r =>
        simp only [List.foldl_cons, List.foldl_nil, Knn.apply, Knn.unincorporate, out_map_state]
        exact ⟨ih.1, ih.2.1, ih.2.2.1, mv_wf_unc ih.2.2.2.1 _, ih.2.2.2.2⟩
  generalize o.run ops = s at *
  obtain ⟨h1, h2, h3, h4, h5⟩ := hrun
  unfold Knn.load Knn.save Knn.new
  simp only [List.isEmpty_nil, Bool.not_true, Bool.false_eq_true, if_false, h1, h2, List.length_map, h3,
    ne_eq, not_true_eq_false, types_saved, Option.getD_some, Dict.ofItems, Dict.update_nil_eq h4, h5,
    Int.toNat_natCast]

/-- **C86** A factor analysis, after any history: loading its metadata gives the same object. -/
theorem C86_factor {outputs inputs : List Col} {L : Option Nat} {mux : Nat → ℝ} {Psi W : Nat → Nat → ℝ}
    {i : Factor.Inst} (hn : Factor.Inst.new outputs inputs L mux Psi W = .ok i)
    (ops : List Factor.Inst.Op) : Factor.Inst.load (i.run ops).save = .ok (i.run ops) := by
  have hinv : ¬ i.f.outputs.length < 2 ∧ ¬ i.f.outputs.dedup.length ≠ i.f.outputs.length ∧
      ¬ i.f.L = 0 ∧ ¬ (i.f.outputs.take (i.f.outputs.length - i.f.L)).length < i.f.L ∧ i.f.data.WF := by
    unfold Factor.Inst.new Factor.new at hn
    split_ifs at hn with h1 h2 h3
    · cases hn
    · cases hn
    · cases hn
    · cases L with
      | none => cases hn
      | some L =>
        simp only at hn
        split_ifs at hn with h4 h5
        · cases hn
        · cases hn
        · cases hn
          exact ⟨h2, h3, h4, h5, Dict.wf_nil⟩
  clear hn
  have hrun : ¬ (i.run ops).f.outputs.length < 2 ∧
      ¬ (i.run ops).f.outputs.dedup.length ≠ (i.run ops).f.outputs.length ∧ ¬ (i.run ops).f.L = 0 ∧
      ¬ ((i.run ops).f.outputs.take ((i.run ops).f.outputs.length - (i.run ops).f.L)).length
        < (i.run ops).f.L ∧ (i.run ops).f.data.WF := by
    unfold Factor.Inst.run
    induction ops using List.reverseRecOn with
    | nil => exact hinv
    | append_singleton ops op ih =>
      rw [List.foldl_append]
      generalize List.foldl _ i ops = s at *
      cases op with
      | inc r obs ins =>
        simp only [List.foldl_cons, List.foldl_nil, Factor.Inst.apply, out_map_state]
        exact ⟨ih.1, ih.2.1, ih.2.2.1, ih.2.2.2.1,
          mv_wf_inc (s := ⟨s.N, s.f.data⟩) ih.2.2.2.2 _ _ _⟩
      | unc r =>
        simp only [List.foldl_cons, List.foldl_nil, Factor.Inst.apply, out_map_state]
        exact ⟨ih.1, ih.2.1, ih.2.2.1, ih.2.2.2.1, mv_wf_unc (s := ⟨s.N, s.f.data⟩) ih.2.2.2.2 _⟩
      | learn noise mean components => exact ih
  generalize i.run ops = s at *
  obtain ⟨h1, h2, h3, h4, h5⟩ := hrun
  unfold Factor.Inst.load Factor.Inst.save Factor.Inst.new Factor.new
  simp only [List.isEmpty_nil, Bool.not_true, Bool.false_eq_true, if_false, h1, h2, h3, h4, Except.map,
    Dict.ofItems, Dict.update_nil_eq h5]

/-! ### Instances -/

/-- Writing and reading the metadata may reverse the rows. -/
theorem reverse_isOrder : IsOrder List.reverse := List.reverse_perm

/-- A linear regression with two rows is saved, its rows are reversed, and a row is removed from both. -/
example : ∃ i j, LinReg.Inst.new 0 [1] [.numeric] LinReg.Hyp.default = .ok i ∧
    LinReg.Inst.load List.reverse (i.run linregCalls).save = .ok j ∧
    ((i.run linregCalls).run [.unc 5]).o.logpdfScore = (j.run [.unc 5]).o.logpdfScore := by
  have hn : LinReg.Inst.new 0 [1] [.numeric] (fun p => { LinReg.Hyp.default p with a := 1, b := 1 })
      = .ok ⟨[.numeric], linregDemo⟩ := rfl
  obtain ⟨j, h1, -, -, h2⟩ := C86_linreg reverse_isOrder hn linregCalls
  exact ⟨_, j, hn, h1, (h2 [.unc 5]).2.2.1⟩

/-- The two rows come back in the other order. -/
example : RegRows.reload List.reverse 2 [(5, (3 : ℝ)), (6, 4)] [(5, [some 1]), (6, [none])]
    = ⟨2, [(6, 4), (5, 3)], [(6, [none]), (5, [some 1])]⟩ := by
  simp [RegRows.reload, Dict.reload, Dict.keys, Dict.get?, Dict.update, Dict.set]

/-- A least squares regression that is trained again after loading, by a method that averages the
targets. -/
example : ∃ i j, OlsReg.Inst.new 0 [1] [.numeric] none none = .ok i ∧
    OlsReg.Inst.load List.reverse (i.run (fun _ x _ => x.sum / x.length)
      [.inc 5 [(0, some 3)] (some [(1, some 2)]), .inc 6 [(0, some 4)] (some [(1, some 0)])]).save = .ok j := by
  obtain ⟨j, h1, -⟩ := C86_ols (fit := fun _ x _ => x.sum / x.length) reverse_isOrder
    (rfl : OlsReg.Inst.new 0 [1] [.numeric] none none = .ok _)
    [.inc 5 [(0, some 3)] (some [(1, some 2)]), .inc 6 [(0, some 4)] (some [(1, some 0)])]
  exact ⟨_, j, rfl, h1⟩

example : OrderFree fun _ x _ => x.sum / x.length := by
  intro l l' h
  simp only [(h.map _).sum_eq, (h.map Prod.fst).length_eq]

/-- A forest with one row. -/
example (fit : List (List ℝ) → List Nat → Rand Classifier) (hfit : Forest.Fits fit) :
    ∃ o, RForest.new 0 [1] 1 2 none none = .ok o ∧
      Rand.Surely (fun o' => ∃ j, RForest.load List.reverse o'.save = .ok j ∧ j.clf = o'.clf)
        (o.run fit [.inc 7 [(0, some 1)] (some [(1, some 5)]), .transition (some 3)]) := by
  refine ⟨_, rfl, (C86_forest reverse_isOrder hfit (rfl : RForest.new 0 [1] 1 2 none none = .ok _)
    (by norm_num) (by simp) (by simp) (by simp) _).mono fun o h => ?_⟩
  obtain ⟨j, h1, h2, -⟩ := h
  exact ⟨j, h1, h2⟩

/-- A kernel density estimate with a row. -/
example : ∃ o, Kde.new [0, 1] [] [.numeric, .nominal (some 2)] none = .ok o ∧
    Kde.load (o.run [.inc 3 [(0, some 2), (1, some 1)] []]).save
      = .ok (o.run [.inc 3 [(0, some 2), (1, some 1)] []]) :=
  ⟨_, rfl, C86_kde (rfl : Kde.new [0, 1] [] [.numeric, .nominal (some 2)] none = .ok _) _⟩

/-- A nearest neighbour model with a row. -/
example : ∃ o, Knn.new [0, 1] [] (some 2) none [.numeric, .nominal (some 2)] = .ok o ∧
    Knn.load (o.run [.inc 3 [(0, some 2), (1, some 1)] []]).save
      = .ok (o.run [.inc 3 [(0, some 2), (1, some 1)] []]) :=
  ⟨_, rfl, C86_knn (rfl : Knn.new [0, 1] [] (some 2) none [.numeric, .nominal (some 2)] = .ok _) _⟩

/-- A factor analysis of two observables with one factor. -/
example : ∃ i, Factor.Inst.new [0, 1, 2] [] (some 1) 0 0 0 = .ok i ∧
    Factor.Inst.load (i.run [.inc 3 [(0, some 2), (1, some 1)] [], .learn 1 1 1]).save
      = .ok (i.run [.inc 3 [(0, some 2), (1, some 1)] [], .learn 1 1 1]) :=
  ⟨_, rfl, C86_factor (rfl : Factor.Inst.new [0, 1, 2] [] (some 1) 0 0 0 = .ok _) _⟩

end Cgpm.Props
