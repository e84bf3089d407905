import Verif.Lemmas.LibCat
import Verif.Lemmas.Dim
import Verif.Spec.Dim
import Verif.Props.Primitives

/-!
Properties C10 and C46: columns (src/mixtures/dim.py).
The theorems hold for every catalogue of component types in which removing a value
undoes adding it; `catOf_lawful` shows that the ten primitives are such.
-/
namespace Cgpm.Props
open Cgpm

variable {C : Cat}

theorem allVals_eq (ins : List C.Cell) :
    allVals ins = if ins.any Option.isNone then none else some ins.reduceOption := by
  induction ins with
  | nil => rfl
  | cons x t ih =>
    cases x with
    | none => simp [allVals]
    | some v =>
      simp only [allVals, ih, List.any_cons, Option.isNone_some, Bool.false_or,
        List.reduceOption_cons_of_some]
      split <;> rfl

theorem validObs_eq (x : C.Cell) (ins : List C.Cell) :
    validObs x ins = match x, ins.any Option.isNone with
      | some v, false => some (v, ins.reduceOption)
      | _, _ => none := by
  unfold validObs
  rw [allVals_eq]
  cases x <;> cases ins.any Option.isNone <;> rfl

theorem core_step (hC : C.Lawful) {d : Dim C} {m : Row → Filed C} (h : Dim.Core d m)
    (op : Dim.Op C) :
    Dim.Core (d.apply op).state (filingStep d.kind m op) ∧ (d.apply op).state.kind = d.kind ∧
      (Dim.Shared d → noSetHypers op → Dim.Shared (d.apply op).state) := by
  cases op with
  | inc r k x ins =>
    simp only [Dim.apply, filingStep]
    by_cases hr : m r = none
    · simp only [hr, and_true]
      have hv := validObs_eq (C := C) x ins
      have key : ∀ st, (match validObs x ins with
          | none => st = none
          | some o => ∃ o', d.fam.prep o = .ok o' ∧ st = some o') →
          file d.kind k x ins = some (k, st) →
          Dim.Core (d.incorporate r k x ins).state
              (fun r' => if r' = r then file d.kind k x ins else m r') ∧
            (d.incorporate r k x ins).state.kind = d.kind ∧
            (Dim.Shared d → noSetHypers (Dim.Op.inc (C := C) r k x ins) →
              Dim.Shared (d.incorporate r k x ins).state) := by
        intro st hst hf
        obtain ⟨d', h1, h2, h3, -, h5⟩ := h.incorporate hr k x ins st hst
        rw [h1, hf]
        exact ⟨h3, h2.kind, fun hs _ => h5 hs⟩
      cases hxa : ins.any Option.isNone with
      | true =>
        rw [hxa] at hv
        refine key none ?_ ?_
        · rw [hv]; cases x <;> rfl
        · unfold file; rw [hxa]; cases x <;> rfl
      | false =>
        cases x with
        | none =>
          rw [hxa] at hv
          refine key none ?_ ?_
          · rw [hv]
          · unfold file; rw [hxa]
        | some v =>
          rw [hxa] at hv
          simp only at hv
          cases hp : (C.F d.kind).prep (v, ins.reduceOption) with
          | ok o =>
            refine key (some o) ?_ ?_
            · rw [hv]; exact ⟨o, hp, rfl⟩
            · unfold file; rw [hxa]; simp only [hp]
          | error e =>
            rw [h.incorporate_refused hr k (some v) ins hv hp, Out.state_err]
            refine ⟨?_, Dim.ensure_kind d k, fun hs _ => hs.ensure k⟩
            have hf : file d.kind k (some v) ins = none := by
              unfold file; rw [hxa]; simp only [hp]
            rw [hf]
            refine (h.ensure k).congr (fun r' => ?_)
            split
            · rename_i e; rw [e, hr]
            · rfl
    · rw [Dim.incorporate_dup h hr, Out.state_err]
      refine ⟨h.congr (fun r' => ?_), rfl, fun hs _ => hs⟩
      simp [hr]
  | unc r =>
    simp only [Dim.apply, filingStep]
    by_cases hr : m r = none
    · rw [Dim.unincorporate_missing h hr, Out.state_err]
      refine ⟨h.congr (fun r' => ?_), rfl, fun hs _ => hs⟩
      split
      · rename_i e; rw [e, hr]
      · rfl
    · obtain ⟨d', h1, h2, h3, -, -, h6⟩ := h.unincorporate hC hr
      rw [h1]
      exact ⟨h3, h2.kind, fun hs _ => h6 hs⟩
  | hypers hy =>
    refine ⟨h.setHypers hy, ?_, fun _ hn => hn.elim⟩
    simp only [Dim.apply, Dim.setHypers]
    split
    · rfl
    · split <;> rfl
  | trans hy => exact ⟨h.transitionHypers hy, rfl, fun _ _ => Dim.shared_transitionHypers d hy⟩

theorem core_run (hC : C.Lawful) {d : Dim C} {m : Row → Filed C} (h : Dim.Core d m)
    (ops : List (Dim.Op C)) :
    Dim.Core (d.run ops) (ops.foldl (filingStep d.kind) m) ∧ (d.run ops).kind = d.kind ∧
      (Dim.Shared d → (∀ op ∈ ops, noSetHypers op) → Dim.Shared (d.run ops)) := by
  induction ops generalizing d m with
  | nil => exact ⟨h, rfl, fun hs _ => hs⟩
  | cons op ops ih =>
    obtain ⟨h1, h2, h3⟩ := core_step hC h op
    obtain ⟨g1, g2, g3⟩ := ih (d := (d.apply op).state) h1
    rw [h2] at g1 g2
    exact ⟨g1, g2, fun hs hn => g3 (h3 hs (hn op (by simp))) (fun o ho => hn o (by simp [ho]))⟩

/-! ### C10 -/

/-- **C10.** After every history of calls on a new column: the observed-rows map holds
exactly the rows filed with a value, the missing-rows map exactly those filed without,
each with its cluster; no row occurs twice. -/
theorem C10_rows_filed_once (hC : C.Lawful) (index : Col) (inputs : List Col) (i : C.ι) (h : C.H)
    (ops : List (Dim.Op C)) :
    let d := (Dim.new index inputs i h).run ops
    (∀ r k, d.Zr.get? r = some k ↔ ∃ o, filings i ops r = some (k, some o)) ∧
    (∀ r k, d.Zi.get? r = some k ↔ filings i ops r = some (k, none)) ∧
    d.Zr.keys.Nodup ∧ d.Zi.keys.Nodup ∧ ∀ r, ¬ (r ∈ d.Zr.keys ∧ r ∈ d.Zi.keys) := by
  intro d
  obtain ⟨hc, -⟩ := core_run hC (Dim.core_new index inputs i h) ops
  change Dim.Core d (filings i ops) at hc
  refine ⟨fun r k => ?_, fun r k => ?_, hc.wfR, hc.wfI, fun r => ?_⟩
  · rw [hc.zr]
    cases hm : filings i ops r with
    | none => simp
    | some p =>
      obtain ⟨k', o⟩ := p
      cases o <;> simp
  · rw [hc.zi]
    cases hm : filings i ops r with
    | none => simp
    | some p =>
      obtain ⟨k', o⟩ := p
      cases o <;> simp
  · rw [← Dict.get?_isSome_iff, ← Dict.get?_isSome_iff, hc.zr, hc.zi]
    cases hm : filings i ops r with
    | none => simp
    | some p =>
      obtain ⟨k', o⟩ := p
      cases o <;> simp

/-- **C10.** ... every filed row's cluster has a component; the component of a cluster
holds exactly the values of the rows filed there, and its statistics are those obtained
by adding the values it holds to an empty component. -/
theorem C10_clusters_exact (hC : C.Lawful) (index : Col) (inputs : List Col) (i : C.ι) (h : C.H)
    (ops : List (Dim.Op C)) :
    let d := (Dim.new index inputs i h).run ops
    (∀ r k o, filings i ops r = some (k, o) → k ∈ d.clusters.keys) ∧
    ∀ k c, d.clusters.get? k = some c →
      (∀ r o, c.data.get? r = some o ↔ filings i ops r = some (k, some o)) ∧
      c.data.keys.Nodup ∧ c.stat = c.data.vals.foldl (C.F i).add (C.F i).zero := by
  intro d
  obtain ⟨hc, hk, -⟩ := core_run hC (Dim.core_new index inputs i h) ops
  change Dim.Core d (filings i ops) at hc
  change d.kind = i at hk
  refine ⟨hc.present, fun k c hcl => ?_⟩
  have hh := hc.cl k c hcl
  refine ⟨fun r o => ?_, hh.wf, ?_⟩
  · rw [hh.data]
    cases hm : filings i ops r with
    | none => simp
    | some p =>
      obtain ⟨k', o'⟩ := p
      cases o' with
      | none => simp
      | some o' =>
        simp only [valIn_val]
        by_cases e : k' = k
        · subst e; simp
        · simp [e]
  · have := hh.stat
    unfold Dim.fam at this
    rw [hk] at this
    exact this

/-- **C10.** Refused calls raise: a row already filed, a value the component type does
not accept, the removal of a row that is not filed.  (By the replay above they leave the
filing as it was.) -/
theorem C10_refusals (hC : C.Lawful) (index : Col) (inputs : List Col) (i : C.ι) (h : C.H)
    (ops : List (Dim.Op C)) :
    let d := (Dim.new index inputs i h).run ops
    (∀ r k x ins, (d.incorporate r k x ins).isOk = true ↔
      filings i ops r = none ∧ file i k x ins ≠ none) ∧
    (∀ r, (d.unincorporate r).isOk = true ↔ filings i ops r ≠ none) ∧
    (∀ r k x ins, filings i ops r ≠ none → d.incorporate r k x ins = .err .valueError d) ∧
    (∀ r, filings i ops r = none → d.unincorporate r = .err .valueError d) := by
  intro d
  obtain ⟨hc, hk, -⟩ := core_run hC (Dim.core_new index inputs i h) ops
  change Dim.Core d (filings i ops) at hc
  change d.kind = i at hk
  refine ⟨fun r k x ins => ?_, fun r => ?_, fun r k x ins hr => Dim.incorporate_dup hc hr k x ins,
    fun r hr => Dim.unincorporate_missing hc hr⟩
  · by_cases hr : filings i ops r = none
    · simp only [hr, true_and]
      have hv := validObs_eq (C := C) x ins
      have key : ∀ st, (match validObs x ins with
          | none => st = none
          | some o => ∃ o', d.fam.prep o = .ok o' ∧ st = some o') →
          (d.incorporate r k x ins).isOk = true := by
        intro st hst
        obtain ⟨d', h1, -⟩ := hc.incorporate hr k x ins st hst
        rw [h1]; rfl
      unfold file
      cases hxa : ins.any Option.isNone with
      | true =>
        rw [hxa] at hv
        have := key none (by rw [hv]; cases x <;> rfl)
        cases x <;> simp [this]
      | false =>
        cases x with
        | none =>
          rw [hxa] at hv
          simp [key none (by rw [hv])]
        | some v =>
          rw [hxa] at hv
          simp only at hv
          cases hp : (C.F i).prep (v, ins.reduceOption) with
          | ok o =>
            have := key (some o) (by
              rw [hv]; refine ⟨o, ?_, rfl⟩; unfold Dim.fam; rw [hk]; exact hp)
            simp [this, hp]
          | error e =>
            have : d.fam.prep (v, ins.reduceOption) = .error e := by
              unfold Dim.fam; rw [hk]; exact hp
            rw [hc.incorporate_refused hr k (some v) ins hv this]
            simp [hp]
    · rw [Dim.incorporate_dup hc hr]; simp [hr]
  · by_cases hr : filings i ops r = none
    · rw [Dim.unincorporate_missing hc hr]; simp [hr]
    · obtain ⟨d', h1, -⟩ := hc.unincorporate hC hr
      rw [h1]; simp [hr]

/-- **C10.** For the ten primitives, a value is stored as specified by `remembered`, and
refused when `remembered` is undefined. -/
theorem C10_primitives_store (p : Prim) (x : ℝ) (o : ℝ × List ℝ) :
    (libCat.F ⟨p, trivial⟩).prep (x, []) = .ok o ↔ o.2 = [] ∧ remembered p x = some o.1 := by
  change p.lift.prep (x, []) = .ok o ↔ _
  constructor
  · intro h
    obtain ⟨-, h2, h3⟩ := Prim.lift_prep h
    rcases prep_eq_remembered p x with ⟨v, g1, g2⟩ | ⟨e, g1, g2⟩
    · rw [g1] at h3; cases h3; exact ⟨h2, g2⟩
    · rw [g1] at h3; cases h3
  · rintro ⟨h1, h2⟩
    rcases prep_eq_remembered p x with ⟨v, g1, g2⟩ | ⟨e, g1, g2⟩
    · rw [h2] at g2
      rw [Prim.lift_prep_ok g1]
      obtain ⟨a, b⟩ := o
      cases g2
      simp only at h1
      rw [h1]
    · rw [h2] at g2; cases g2

/-- The hypotheses are met: a bernoulli column with three rows in two clusters, one of
them missing, after a refused value and a removal. -/
noncomputable example :
    let ops : List (Dim.Op libCat) := [.inc 0 0 (some (1 : ℝ)) [], .inc 1 4 (some (0 : ℝ)) [],
      .inc 2 4 none [], .inc 3 0 (some (7 : ℝ)) [], .inc 0 4 none [], .unc 1]
    filings (C := libCat) ⟨.bernoulli, trivial⟩ ops 0 = some (0, some ((1 : ℝ), [])) ∧
    filings (C := libCat) ⟨.bernoulli, trivial⟩ ops 1 = none ∧
    filings (C := libCat) ⟨.bernoulli, trivial⟩ ops 2 = some (4, none) ∧
    filings (C := libCat) ⟨.bernoulli, trivial⟩ ops 3 = none := by
  have p1 : (libCat.F ⟨.bernoulli, trivial⟩).prep ((1 : ℝ), []) = .ok ((1 : ℝ), []) :=
    (C10_primitives_store _ _ _).mpr ⟨rfl, by simp [remembered, support]⟩
  have p0 : (libCat.F ⟨.bernoulli, trivial⟩).prep ((0 : ℝ), []) = .ok ((0 : ℝ), []) :=
    (C10_primitives_store _ _ _).mpr ⟨rfl, by simp [remembered, support]⟩
  have p7 : ∃ e, (libCat.F ⟨.bernoulli, trivial⟩).prep ((7 : ℝ), []) = .error e := by
    cases h : (libCat.F ⟨.bernoulli, trivial⟩).prep ((7 : ℝ), []) with
    | error e => exact ⟨e, rfl⟩
    | ok o =>
      have := ((C10_primitives_store _ _ _).mp h).2
      simp [remembered, support] at this
  obtain ⟨e, p7⟩ := p7
  simp [filings, filingStep, file, p1, p0, p7]
  rfl

/-! ### C46 -/

theorem hyp_step {d : Dim C} (op : Dim.Op C) (hn : noSetHypers op) :
    (d.apply op).state.hyp = lastHyp d.hyp [op] := by
  cases op with
  | inc r k x ins =>
    simp only [Dim.apply, lastHyp, Dim.incorporate]
    repeat' split
    all_goals rfl
  | unc r =>
    simp only [Dim.apply, lastHyp, Dim.unincorporate]
    repeat' split
    all_goals rfl
  | hypers h => exact hn.elim
  | trans h => rfl

theorem hyp_run {d : Dim C} (ops : List (Dim.Op C)) (hn : ∀ op ∈ ops, noSetHypers op) :
    (d.run ops).hyp = lastHyp d.hyp ops := by
  induction ops generalizing d with
  | nil => rfl
  | cons op ops ih =>
    have h1 := hyp_step (d := d) op (hn op (by simp))
    have h2 := ih (d := (d.apply op).state) (fun o ho => hn o (by simp [ho]))
    change ((d.apply op).state.run ops).hyp = _
    rw [h2, h1]
    cases op <;> rfl

/-- **C46.** After every history of row updates and hyperparameter transitions, every
cluster of the column and the template for new clusters carry the hyperparameters of the
latest transition. -/
theorem C46_hypers_shared (hC : C.Lawful) (index : Col) (inputs : List Col) (i : C.ι) (h : C.H)
    (ops : List (Dim.Op C)) (hn : ∀ op ∈ ops, noSetHypers op) :
    let d := (Dim.new index inputs i h).run ops
    d.hyp = lastHyp h ops ∧ (∀ k c, d.clusters.get? k = some c → c.hyp = lastHyp h ops) ∧
      d.aux.hyp = lastHyp h ops := by
  intro d
  obtain ⟨-, -, hs⟩ := core_run hC (Dim.core_new index inputs i h) ops
  have hs := hs (Dim.shared_new index inputs i h) hn
  have hh : d.hyp = lastHyp h ops := hyp_run (d := Dim.new index inputs i h) ops hn
  exact ⟨hh, fun k c hc => (hs.cl k c hc).trans hh, hs.aux.trans hh⟩

/-- **C46.** Why `set_hypers` is excluded: it updates the clusters but not the template,
so a cluster opened afterwards has the old hyperparameters. -/
theorem C46_set_hypers_leaves_template (index : Col) (inputs : List Col) (i : C.ι) (h h' : C.H)
    (hne : h ≠ h') (hok : (C.F i).hypOk h') :
    let d := (Dim.new index inputs i h).run [.inc 0 0 none [], .hypers h', .inc 1 1 none []]
    d.hyp = h' ∧ (∃ c, d.clusters.get? 0 = some c ∧ c.hyp = h') ∧
      ∃ c, d.clusters.get? 1 = some c ∧ c.hyp ≠ h' := by
  simp [Dim.run, Dim.new, Dim.apply, Dim.incorporate, Dim.setHypers, validObs, Dict.has, Dict.get?,
    Dict.set, Dim.createAux, Dim.fam, hok, Comp.withHyp, Comp.init, hne]

/-- The hypotheses of C46 are met by a history with two transitions. -/
example (h1 h2 : libCat.H) (x : ℝ) (op : Dim.Op libCat)
    (hop : op ∈ ([.inc 0 0 (some x) [], .trans h1, .inc 1 1 none [], .trans h2] :
      List (Dim.Op libCat))) : noSetHypers op := by
  simp only [List.mem_cons, List.not_mem_nil, or_false] at hop
  rcases hop with rfl | rfl | rfl | rfl <;> trivial

end Cgpm.Props
