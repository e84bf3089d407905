import Verif.Lemmas.View

/-! Row transitions of a view; scores. -/
namespace Cgpm

variable {C : Cat}

/-- Sum of the values of a dict after an assignment. -/
theorem Dict.sum_vals_set {K : Type} [DecidableEq K] {d : Dict K ℝ} (hd : d.WF) (k : K) (v : ℝ) :
    (d.set k v).vals.sum = d.vals.sum - (d.get? k).getD 0 + v := by
  cases h : d.get? k with
  | none => rw [Dict.set_of_not_mem v h]; simp [Dict.vals]
  | some w =>
    have h1 := Dict.perm_cons_erase (Dict.wf_set hd k v) (Dict.get?_set_self d k v)
    have h2 := Dict.perm_cons_erase hd h
    rw [Dict.erase_set] at h1
    have e1 : (d.set k v).vals.sum = v + (d.erase k).vals.sum := by
      simp only [Dict.vals]; rw [(h1.map Prod.snd).sum_eq]; simp
    have e2 : d.vals.sum = w + (d.erase k).vals.sum := by
      simp only [Dict.vals]; rw [(h2.map Prod.snd).sum_eq]; simp
    rw [e1, e2]; simp [add_comm]

theorem Dict.sum_vals_erase {K : Type} [DecidableEq K] {d : Dict K ℝ} (hd : d.WF) (k : K) :
    (d.erase k).vals.sum = d.vals.sum - (d.get? k).getD 0 := by
  cases h : d.get? k with
  | none => rw [Dict.erase_of_not_mem h]; simp
  | some w =>
    have h2 := Dict.perm_cons_erase hd h
    have e2 : d.vals.sum = w + (d.erase k).vals.sum := by
      simp only [Dict.vals]; rw [(h2.map Prod.snd).sum_eq]; simp
    rw [e2]; simp

/-- The predictive of a component is the increment of its score (for every reachable
statistic and admissible hyperparameters), and an empty component scores 0. -/
structure Family.Chain {O S H : Type} (F : Family O S H) : Prop where
  zero : ∀ h, F.hypOk h → F.score h F.zero = 0
  step : ∀ h, F.hypOk h → ∀ l, (∀ v ∈ l, ∃ o, F.prep o = .ok v) → ∀ o o', F.prep o = .ok o' →
    F.logpdf h (F.statOf l) o =
      ((F.score h (F.add (F.statOf l) o') - F.score h (F.statOf l) : ℝ) : LogP)

/-- All component types of the catalogue are collapsed and satisfy the chain rule. -/
def Cat.Chain (C : Cat) : Prop := ∀ i, (C.F i).Chain

namespace Dim

/-- Scores by cluster. -/
def scores (d : Dim C) : Dict Tab ℝ := d.clusters.map fun p => (p.1, p.2.score d.fam)

theorem score_eq (d : Dim C) : d.score = d.scores.vals.sum := by
  simp [score, scores, Dict.vals, Function.comp_def]

theorem scores_wf {d : Dim C} (h : d.clusters.WF) : d.scores.WF := wf_map_val h _

theorem scores_get? (d : Dim C) (k : Tab) :
    d.scores.get? k = (d.clusters.get? k).map (fun c => c.score d.fam) := Dict.get?_map_val _ _ _

theorem Equiv.score {a b : Dim C} (h : Equiv a b) : a.score = b.score := by
  have hf : a.fam = b.fam := by unfold Dim.fam; rw [h.kind]
  have : a.scores.Perm b.scores := by
    refine Dict.perm_of_get? (scores_wf h.wfA) (scores_wf h.wfB) (fun k => ?_)
    rw [scores_get?, scores_get?]
    have := h.cl k
    cases hA : a.clusters.get? k <;> cases hB : b.clusters.get? k <;> rw [hA, hB] at this
    · rfl
    · cases this
    · cases this
    · cases this with
      | some e => simp [Comp.score, e.stat, e.hyp, hf]
  rw [score_eq, score_eq]
  exact (this.map Prod.snd).sum_eq

theorem score_set {d : Dim C} (hw : d.clusters.WF) {k : Tab} {c c' : C.Cl}
    (hc : d.clusters.get? k = some c) {d' : Dim C} (hk : d'.kind = d.kind)
    (hd' : d'.clusters = d.clusters.set k c') :
    d'.score = d.score - c.score d.fam + c'.score d.fam := by
  have hf : d'.fam = d.fam := by unfold Dim.fam; rw [hk]
  have : d'.scores = d.scores.set k (c'.score d.fam) := by
    unfold scores; rw [hd', hf]
    generalize d.clusters = l
    induction l with
    | nil => rfl
    | cons p t ih =>
      obtain ⟨a, b⟩ := p
      simp only [Dict.set, List.map_cons]
      split
      · rfl
      · simp only [List.map_cons]; rw [← ih]
  rw [score_eq, this, Dict.sum_vals_set (scores_wf hw), scores_get?, hc, ← score_eq]; rfl

theorem score_erase {d : Dim C} (hw : d.clusters.WF) {k : Tab} :
    ({ d with clusters := d.clusters.erase k } : Dim C).score =
      d.score - ((d.clusters.get? k).map (fun c => c.score d.fam)).getD 0 := by
  have : ({ d with clusters := d.clusters.erase k } : Dim C).scores = d.scores.erase k := by
    unfold scores
    change List.map (fun p => (p.1, p.2.score d.fam)) (d.clusters.erase k) = _
    generalize d.clusters = l
    induction l with
    | nil => rfl
    | cons p t ih =>
      obtain ⟨a, b⟩ := p
      simp only [Dict.erase, List.map_cons]
      split
      · exact ih
      · simp only [List.map_cons]; rw [← ih]
  rw [score_eq, this, Dict.sum_vals_erase (scores_wf hw), scores_get?, ← score_eq]

theorem holds_empty_stat {O S H : Type} {F : Family O S H} {c : Comp O S H}
    (h : c.Holds F (fun _ => none)) : c.data = [] ∧ c.stat = F.zero := by
  have : c.data = [] := by
    cases hd : c.data with
    | nil => rfl
    | cons p t =>
      have := h.data p.1
      rw [hd] at this
      obtain ⟨a, b⟩ := p
      simp [Dict.get?_cons] at this
  refine ⟨this, ?_⟩
  rw [h.stat, this]; rfl

theorem score_ensure (hCh : C.Chain) {d : Dim C} {m : Filing C} (h : Core d m) (hs : Shared d)
    (hh : d.fam.hypOk d.hyp) (k : Tab) : (d.ensure k).score = d.score := by
  unfold ensure; split
  · rfl
  · rename_i hk
    have hn : d.clusters.get? k = none := by simpa [Dict.has] using hk
    simp only [score, Dict.set_of_not_mem _ hn, Dict.vals, List.map_append, List.map_cons,
      List.map_nil, List.sum_append, List.sum_cons, List.sum_nil]
    have hz : d.aux.score d.fam = 0 := by
      unfold Comp.score
      rw [(holds_empty_stat h.aux).2, hs.aux]
      exact (hCh _).zero _ hh
    change _ + (d.aux.score d.fam + 0) = _
    rw [hz]; simp

/-- The component consulted for cluster `k` is the one a new row would join. -/
theorem ensure_clusterOr (d : Dim C) (k : Tab) :
    (d.ensure k).clusters.get? k = some (d.clusterOr k) := by
  unfold ensure clusterOr
  split
  · rename_i h
    rw [Dict.has, Option.isSome_iff_exists] at h
    obtain ⟨c, hc⟩ := h
    simp [hc]
  · rename_i h
    have hn : d.clusters.get? k = none := by simpa [Dict.has] using h
    simp [hn]

/-- `logpdf` of an unfiled row does not raise. -/
theorem Core.logpdf_ok {d : Dim C} {m : Filing C} (h : Core d m) {r : Row} {k : Tab}
    (hr : valIn k (m r) = none) (x : C.Cell) (ins : List C.Cell) :
    d.logpdf (some r) k x ins = .ok (match validObs x ins with
      | none => 0
      | some o => d.fam.logpdf (d.clusterOr k).hyp (d.clusterOr k).stat o) := by
  unfold Dim.logpdf
  cases hv : validObs x ins with
  | none => rfl
  | some o =>
    have hE := (h.ensure k).cl k _ (ensure_clusterOr d k)
    have : (some r).bind (d.clusterOr k).data.get? = none := by
      simp only [Option.bind_some]; rw [hE.data, hr]
    simp only [Comp.logpdf, this]

/-- Every stored value went through validation. -/
def Stored (d : Dim C) (m : Filing C) : Prop :=
  ∀ r k o, m r = some (k, some o) → ∃ o0, d.fam.prep o0 = .ok o

theorem Core.vals_stored {d : Dim C} {m : Filing C} (h : Core d m) (hst : Stored d m) {k : Tab}
    {c : C.Cl} (hc : d.clusters.get? k = some c) : ∀ v ∈ c.data.vals, ∃ o, d.fam.prep o = .ok v := by
  intro v hv
  simp only [Dict.vals, List.mem_map] at hv
  obtain ⟨⟨r, v'⟩, hm, rfl⟩ := hv
  have hH := h.cl k c hc
  have hg := Dict.get?_of_mem hH.wf hm
  rw [hH.data] at hg
  cases hmr : m r with
  | none => rw [hmr] at hg; cases hg
  | some p =>
    obtain ⟨k', o⟩ := p
    cases o with
    | none => rw [hmr] at hg; cases hg
    | some o =>
      rw [hmr, valIn_val] at hg
      split at hg
      · cases hg; exact hst r k' _ hmr
      · cases hg

/-- The chain rule for a column: the predictive of a new row is the increment of the
score when the row is filed. -/
theorem Core.chain (hCh : C.Chain) {d : Dim C} {m : Filing C} (h : Core d m) (hs : Shared d)
    (hh : d.fam.hypOk d.hyp) (hst : Stored d m) {r : Row} (hr : m r = none) {k : Tab} {x : C.Cell}
    {ins : List C.Cell} {d' : Dim C} (hd' : d.incorporate r k x ins = .ok d') :
    d.logpdf (some r) k x ins = .ok ((d'.score - d.score : ℝ) : LogP) := by
  rw [h.logpdf_ok (by simp [hr])]
  have hE := h.ensure k
  have hsc := score_ensure hCh h hs hh k
  cases hv : validObs x ins with
  | none =>
    rw [incorporate_nan h hr hv] at hd'
    have e := Out.ok.inj hd'
    have : d'.score = (d.ensure k).score := by rw [← e]; rfl
    simp [this, hsc]
  | some o =>
    have hc := ensure_clusterOr d k
    cases hp : d.fam.prep o with
    | error e => rw [h.incorporate_refused hr k x ins hv hp] at hd'; cases hd'
    | ok o' =>
      have hH := hE.cl k _ hc
      have hn : (d.clusterOr k).data.get? r = none := by rw [hH.data]; simp [hr]
      have h1 := (h.unfiled r).mpr hr
      have hval : d.incorporate r k x ins = .ok
          { d.ensure k with
            clusters := (d.ensure k).clusters.set k { d.clusterOr k with
              data := (d.clusterOr k).data.set r o'
              stat := d.fam.add (d.clusterOr k).stat o' }
            Zr := (d.ensure k).Zr.set r k } := by
        simp only [Dim.incorporate, h1, hv, Bool.false_eq_true, if_false]
        change (match (d.ensure k).clusters.get? k with
          | none => Out.err Exn.keyError (d.ensure k)
          | some c =>
            match c.incorporate d.fam r o with
            | .err e c' => .err e { d.ensure k with clusters := (d.ensure k).clusters.set k c' }
            | .ok c' => .ok { d.ensure k with
                clusters := (d.ensure k).clusters.set k c', Zr := (d.ensure k).Zr.set r k }) = _
        rw [hc]
        simp only [Comp.incorporate_ok hn hp]
      rw [hval] at hd'
      have e := Out.ok.inj hd'
      have hscore := score_set (d := d.ensure k) (d' := d')
        (c' := { d.clusterOr k with
              data := (d.clusterOr k).data.set r o'
              stat := d.fam.add (d.clusterOr k).stat o' }) hE.wfC hc
        (by rw [← e]) (by rw [← e])
      rw [hscore, hsc, ensure_fam]
      have hhyp : (d.clusterOr k).hyp = d.hyp := by
        have := (hs.ensure k).cl k _ hc
        rwa [ensure_hyp] at this
      have hstat := hH.stat
      rw [ensure_fam] at hstat
      have hvs := hE.vals_stored (m := m) (fun r k o hm => by
        rw [ensure_fam]; exact hst r k o hm) hc
      rw [ensure_fam] at hvs
      have := (hCh d.kind).step d.hyp hh (d.clusterOr k).data.vals hvs o o' hp
      simp only [Comp.score, hhyp, hstat]
      rw [this]
      congr 2; ring

end Dim

namespace View

theorem stored_isStored (X : C.Tbl) (s : Row → Option Tab) (d : Dim C) :
    Dim.Stored d (filing X s d) := by
  intro r k o hm
  simp only [filing, Option.map_eq_some_iff, Prod.mk.injEq] at hm
  obtain ⟨k', -, -, hs⟩ := hm
  unfold stored at hs
  split at hs
  · cases hs
  · rename_i o1 ho1
    split at hs
    · rename_i o2 ho2; cases hs; exact ⟨o1, ho2⟩
    · cases hs

theorem DimOk'.equiv (hL : C.Lawful) {X : C.Tbl} {s : Row → Option Tab} {occ : Tab → Prop} {c : Col}
    {d d' : Dim C} (h : DimOk' X s occ c d) (h' : DimOk' X s occ c d') (hf : Dim.Frame d d') :
    Dim.Equiv d d' :=
  Dim.equiv_of_core hL h.core (by have := h'.core; rwa [filing_frame hf] at this) h.shared h'.shared
    hf (fun k => (h.keys k).trans (h'.keys k).symm)

theorem ne_upd_ne {s : Row → Option Tab} {r : Row} {own : Tab} (hr : s r = some own) :
    upd (upd s r none) r (some own) = s := by
  rw [upd_upd, ← hr, upd_eq]

/-- Scoring one cell for Gibbs leaves the column as it was. -/
theorem cellGibbs_ok (hL : C.Lawful) {X : C.Tbl} {s : Row → Option Tab} {c : Col} {d : Dim C}
    (h : DimOk X s c d) {r : Row} {own : Tab} (hr : s r = some own) (k : Tab) :
    ∃ lp d', cellGibbs X (some own) r k d = .ok lp d' ∧ Dim.Frame d d' ∧ DimOk X s c d' := by
  by_cases e : own = k
  · subst e
    obtain ⟨d1, h1, h2, h3⟩ := h.unc hL (r := r) (by simp [hr])
    have hacc : Accepts X d1 r := (accepts_frame h2 r).mpr (h.acc r own hr)
    obtain ⟨d2, h4, h5, h6⟩ := h3.inc (by simp) hacc own
    rw [ne_upd_ne hr] at h6
    have h7 := h6.congrOcc (occ' := Occ s) (fun k' => by
      constructor
      · rintro (rfl | h')
        · exact ⟨r, hr⟩
        · exact h'
      · exact Or.inr)
    obtain ⟨lp, hlp⟩ : ∃ lp, d1.logpdf (some r) own (X c r) (inputsOf X d r) = .ok lp :=
      ⟨_, h3.core.logpdf_ok (r := r) (k := own) (by simp [filing]) (X c r) (inputsOf X d r)⟩
    rw [inputsOf_frame h2] at h4
    refine ⟨lp, d2, ?_, h2.trans h5, h7⟩
    unfold cellGibbs
    simp only [h1, if_true, h.index, hlp, h4]
  · have hv : valIn k (filing X s d r) = none := by
      simp only [filing, hr, Option.map_some]
      cases stored X d r with
      | none => rfl
      | some o => simp [e]
    obtain ⟨lp, hlp⟩ : ∃ lp, d.logpdf (some r) k (X c r) (inputsOf X d r) = .ok lp :=
      ⟨_, h.core.logpdf_ok (r := r) (k := k) hv (X c r) (inputsOf X d r)⟩
    refine ⟨lp, d, ?_, Dim.Frame.refl d, h⟩
    unfold cellGibbs
    have e' : ¬ (some own = some k) := by simpa using e
    simp only [e', if_false, h.index, hlp]

theorem unincorporate_clusterOr {d d0 : Dim C} {r : Row} {k : Tab}
    (hz : d.Zr.get? r ≠ some k) (h0 : d.unincorporate r = .ok d0) :
    d0.clusterOr k = d.clusterOr k ∧ d0.kind = d.kind := by
  unfold Dim.unincorporate at h0
  split at h0
  · cases h0; exact ⟨rfl, rfl⟩
  · split at h0
    · cases h0
    · rename_i k' hk'
      split at h0
      · cases h0
      · split at h0
        · cases h0
        · cases h0
          refine ⟨?_, rfl⟩
          unfold Dim.clusterOr
          rw [Dict.get?_set_ne]
          rintro rfl; exact hz hk'

/-- The value computed for one cell is the increment of the column's score when the row,
taken out, is filed in cluster `k`. -/
theorem cellGibbs_value (hL : C.Lawful) (hCh : C.Chain) {X : C.Tbl} {s : Row → Option Tab} {c : Col}
    {d : Dim C} (h : DimOk X s c d) {r : Row} {own : Tab} (hr : s r = some own) {k : Tab}
    {lp : LogP} {d' d0 dk : Dim C} (hg : cellGibbs X (some own) r k d = .ok lp d')
    (h0 : d.unincorporate r = .ok d0)
    (hk : d0.incorporate r k (X c r) (inputsOf X d r) = .ok dk) :
    lp = ((dk.score - d0.score : ℝ) : LogP) := by
  obtain ⟨d1, h1, h2, h3⟩ := h.unc hL (r := r) (by simp [hr])
  rw [h0] at h1; cases h1
  have hchain := h3.core.chain hCh h3.shared h3.hyp (stored_isStored _ _ _) (by simp [filing]) hk
  unfold cellGibbs at hg
  by_cases e : own = k
  · subst e
    simp only [h0, if_true, h.index, hchain] at hg
    split at hg
    · cases hg
    · cases hg; rfl
  · have e' : ¬ (some own = some k) := by simpa using e
    simp only [e', if_false, h.index] at hg
    have hz : d.Zr.get? r ≠ some k := by
      rw [h.core.zr]
      simp only [filing, hr, Option.map_some]
      cases stored X d r with
      | none => simp
      | some o => simpa using e
    obtain ⟨hco, hki⟩ := unincorporate_clusterOr hz h0
    have hv : valIn k (filing X s d r) = none := by
      simp only [filing, hr, Option.map_some]
      cases stored X d r with
      | none => rfl
      | some o => simp [e]
    rw [h.core.logpdf_ok hv] at hg
    rw [h3.core.logpdf_ok (by simp [filing]), hco] at hchain
    have hf : d0.fam = d.fam := h2.fam
    rw [hf] at hchain
    simp only [Res.ok.injEq] at hg
    rw [← hg.1]
    exact Except.ok.inj hchain

/-- Scoring a row for one cluster. -/
theorem rowGibbsDims_ok (hL : C.Lawful) {X : C.Tbl} {s : Row → Option Tab} {r : Row} {own : Tab}
    (hr : s r = some own) (k : Tab) {ds : Dict Col (Dim C)} (h : ∀ p ∈ ds, DimOk X s p.1 p.2) :
    ∃ lp ds', rowGibbsDims X (some own) r k ds = .ok lp ds' ∧ Step X s (Occ s) ds ds' := by
  induction ds with
  | nil => exact ⟨0, [], rfl, List.Forall₂.nil⟩
  | cons p t ih =>
    obtain ⟨c, d⟩ := p
    obtain ⟨lp, d', h1, h2, h3⟩ := cellGibbs_ok hL (h (c, d) (by simp)) hr k
    obtain ⟨lps, t', h4, h5⟩ := ih (fun p hp => h p (by simp [hp]))
    refine ⟨lp + lps, (c, d') :: t', ?_, List.Forall₂.cons ⟨rfl, h2, h3⟩ h5⟩
    simp only at h1
    simp only [rowGibbsDims, h1, h4]

theorem rowGibbs_ok (hL : C.Lawful) {X : C.Tbl} {s : Row → Option Tab} {r : Row} {own : Tab}
    (hr : s r = some own) (K : List Tab) {ds : Dict Col (Dim C)}
    (h : ∀ p ∈ ds, DimOk X s p.1 p.2) :
    ∃ lps ds', rowGibbs X (some own) r K ds = .ok lps ds' ∧ Step X s (Occ s) ds ds' ∧
      lps.length = K.length := by
  induction K generalizing ds with
  | nil => exact ⟨[], ds, rfl, Step.refl h, rfl⟩
  | cons k K ih =>
    obtain ⟨lp, ds', h1, h2⟩ := rowGibbsDims_ok hL hr k h
    obtain ⟨lps, ds'', h3, h4, h5⟩ := ih h2.ok
    exact ⟨lp :: lps, ds'', by simp only [rowGibbs, h1, h3], h2.trans h4, by simp [h5]⟩

/-- Same columns with the same schema. -/
def Same (a b : View C) : Prop := ∀ c, Option.Rel Dim.Frame (a.dims.get? c) (b.dims.get? c)

theorem Same.refl (a : View C) : Same a a := by
  intro c
  cases a.dims.get? c with
  | none => exact Option.Rel.none
  | some d => exact Option.Rel.some (Dim.Frame.refl d)

theorem Same.trans {a b c : View C} (h : Same a b) (h' : Same b c) : Same a c := by
  intro k
  have h1 := h k
  have h2 := h' k
  revert h1 h2
  cases a.dims.get? k <;> cases b.dims.get? k <;> cases c.dims.get? k <;> intro h1 h2 <;>
    cases h1 <;> cases h2
  · exact Option.Rel.none
  · rename_i h1 h2; exact Option.Rel.some (h1.trans h2)

theorem Same.symm {a b : View C} (h : Same a b) : Same b a := by
  intro k
  have h1 := h k
  revert h1
  cases a.dims.get? k <;> cases b.dims.get? k <;> intro h1 <;> cases h1
  · exact Option.Rel.none
  · rename_i h1
    exact Option.Rel.some ⟨h1.index.symm, h1.inputs.symm, h1.kind.symm, h1.hyp.symm⟩

/-- A consistent view is determined by its schema, partition, concentration and data. -/
theorem equiv_of_inv (hL : C.Lawful) {X : C.Tbl} {a b : View C} (ha : Inv X a) (hb : Inv X b)
    (hα : a.crp.alpha = b.crp.alpha) (hs : a.seat = b.seat) (hS : Same a b) : Equiv a b := by
  refine ⟨Crp.equiv_of_inv ha.crp hb.crp hα (fun r => congrFun hs r), ha.wf, hb.wf, fun c => ?_⟩
  have h := hS c
  cases hA : a.dims.get? c with
  | none =>
    cases hB : b.dims.get? c with
    | none => exact Option.Rel.none
    | some d' => rw [hA, hB] at h; cases h
  | some d =>
    cases hB : b.dims.get? c with
    | none => rw [hA, hB] at h; cases h
    | some d' =>
      rw [hA, hB] at h
      cases h with
      | some hf =>
        have h1 := ha.dim (c, d) (Dict.mem_of_get? hA)
        have h2 := hb.dim (c, d') (Dict.mem_of_get? hB)
        rw [← hs] at h2
        exact Option.Rel.some (h1.equiv hL h2 hf)

theorem sum_rel {a b : Dict Col (Dim C)} (ha : a.WF) (hb : b.WF) {R : Dim C → Dim C → Prop}
    (h : ∀ c, Option.Rel R (a.get? c) (b.get? c)) {f : Dim C → ℝ} (hf : ∀ x y, R x y → f x = f y) :
    (a.vals.map f).sum = (b.vals.map f).sum := by
  have hp : (a.map fun p => (p.1, f p.2)).Perm (b.map fun p => (p.1, f p.2)) := by
    refine Dict.perm_of_get? (K := Col) (V := ℝ) ?_ ?_ (fun c => ?_)
    · unfold Dict.WF; rw [Dict.keys_map_val]; exact ha
    · unfold Dict.WF; rw [Dict.keys_map_val]; exact hb
    · rw [Dict.get?_map_val, Dict.get?_map_val]
      have := h c
      revert this
      cases a.get? c <;> cases b.get? c <;> intro h <;> cases h
      · rfl
      · rename_i e; simp [hf _ _ e]
  have := (hp.map Prod.snd).sum_eq
  simpa [Dict.vals, Function.comp_def] using this

theorem Equiv.score {a b : View C} (h : Equiv a b) : a.score = b.score := by
  unfold View.score likelihood
  rw [h.crp.score, sum_rel h.wfA h.wfB h.dims (fun _ _ e => e.score)]

/-- Scoring a row for Gibbs leaves the view as it was. -/
theorem gibbsScore_ok (hL : C.Lawful) {X : C.Tbl} {v : View C} (h : Inv X v) {r : Row}
    (hr : v.seat r ≠ none) :
    ∃ ws v', v.gibbsScore X r = .ok ws v' ∧ Inv X v' ∧ v'.crp = v.crp ∧
      Step X v.seat (Occ v.seat) v.dims v'.dims := by
  obtain ⟨own, hown⟩ := Option.ne_none_iff_exists'.mp hr
  obtain ⟨crp', hc1, -⟩ := Crp.unc_data h.crp hown
  obtain ⟨K, w, hK, hw, -⟩ := Crp.gibbs_one h.crp hown hc1
  obtain ⟨lps, ds', h1, h2, h3⟩ := rowGibbs_ok hL hown K h.dim
  refine ⟨K.zip (List.zipWith (fun (a : LogP) (b : ℝ) => a + (b : LogP)) lps (K.map w)),
    { v with dims := ds' }, ?_, ⟨h.crp, h.alpha, h2.wf h.wf, h2.ok⟩, rfl, h2⟩
  simp only [gibbsScore, hK, hw, hown, h1]

theorem gibbsScore_missing {X : C.Tbl} {v : View C} {r : Row} (hr : v.seat r = none) :
    ∃ e, v.gibbsScore X r = .err e v := by
  have : v.crp.gibbsLogps r 1 = .error .assertion := by
    have hr' : v.crp.data.get? r = none := hr
    simp [Crp.gibbsLogps, hr']
  unfold gibbsScore
  rw [this]
  cases v.crp.gibbsTables (some r) 1 with
  | error e => exact ⟨e, rfl⟩
  | ok K => exact ⟨_, rfl⟩

theorem mem_dims_map (v : View C) (hw : v.dims.WF) (X : C.Tbl) (r : Row) :
    ∀ p ∈ v.dims, Dict.get? (v.dims.map fun p => (p.1, X p.1 r)) p.1 = some (X p.1 r) := by
  intro p hp
  apply Dict.get?_of_mem
  · unfold Dict.WF Dict.keys at *
    simpa [Function.comp_def] using hw
  · exact List.mem_map_of_mem (f := fun p : Col × Dim C => (p.1, X p.1 r)) hp

theorem Step.same {X : C.Tbl} {s' : Row → Option Tab} {occ' : Tab → Prop} {v v' : View C}
    (h : Step X s' occ' v.dims v'.dims) : Same v v' := fun c => h.get? c

theorem Step.accepts {X : C.Tbl} {s' : Row → Option Tab} {occ' : Tab → Prop}
    {ds ds' : Dict Col (Dim C)} (h : Step X s' occ' ds ds') {r : Row}
    (ha : ∀ p ∈ ds, Accepts X p.2 r) : ∀ p ∈ ds', Accepts X p.2 r := by
  induction h with
  | nil => simp
  | cons h _ ih =>
    intro p hp
    rcases List.mem_cons.mp hp with rfl | hp
    · exact (accepts_frame h.2.1 r).mpr (ha _ (by simp))
    · exact ih (fun q hq => ha q (by simp [hq])) p hp

theorem accepts_seated {X : C.Tbl} {v : View C} (h : Inv X v) {r : Row} (hr : v.seat r ≠ none) :
    ∀ p ∈ v.dims, Accepts X p.2 r := by
  obtain ⟨own, hown⟩ := Option.ne_none_iff_exists'.mp hr
  exact fun p hp => (h.dim p hp).acc r own hown

/-- `_migrate_row`. -/
theorem migrateRow_ok (hL : C.Lawful) {X : C.Tbl} {v : View C} (h : Inv X v) {r : Row}
    (hr : v.seat r ≠ none) (k : Tab) :
    ∃ v', v.migrateRow X r k = .ok v' ∧ Inv X v' ∧ v'.seat = upd v.seat r (some k) ∧
      v'.crp.alpha = v.crp.alpha ∧ Same v v' := by
  obtain ⟨v1, h1, h2, h3, h4, h5, h6⟩ := unincorporate_ok hL h hr
  obtain ⟨v2, g1, g2, g3, g4, g5, g6⟩ := incorporateAt_ok h2 (r := r) (by rw [h3]; simp) k
    (obs := v1.dims.map fun p => (p.1, X p.1 r)) (h6.accepts (accepts_seated h hr))
    (mem_dims_map v1 h2.wf X r)
  refine ⟨v2, by simp only [migrateRow, h1, Out.bind_ok, g1], g2, ?_, by rw [g4, h4],
    h6.same.trans g6.same⟩
  rw [g3, h3, upd_upd]

/-- `_gibbs_transition_row`. -/
theorem gibbsTransitionRow_ok (hL : C.Lawful) {X : C.Tbl} {v : View C} (h : Inv X v) {r : Row}
    (hr : v.seat r ≠ none) (z : Tab) :
    ∃ v', v.gibbsTransitionRow X r z = .ok v' ∧ Inv X v' ∧ v'.seat = upd v.seat r (some z) ∧
      v'.crp.alpha = v.crp.alpha ∧ Same v v' := by
  obtain ⟨ws, v1, h1, h2, h3, h4⟩ := gibbsScore_ok hL h hr
  have hs : v1.seat = v.seat := by unfold View.seat; rw [h3]
  by_cases e : v1.seat r = some z
  · refine ⟨v1, by simp only [gibbsTransitionRow, h1, e, if_true], h2, ?_, by rw [h3], h4.same⟩
    rw [← e, hs, upd_eq]
  · obtain ⟨v2, g1, g2, g3, g4, g5⟩ := migrateRow_ok hL h2 (by rw [hs]; exact hr) z
    refine ⟨v2, by simp only [gibbsTransitionRow, h1, e, if_false, g1], g2, by rw [g3, hs],
      by rw [g4, h3], h4.same.trans g5⟩

theorem gibbsTransitionRow_missing {X : C.Tbl} {v : View C} {r : Row} (hr : v.seat r = none)
    (z : Tab) : ∃ e, v.gibbsTransitionRow X r z = .err e v := by
  obtain ⟨e, he⟩ := gibbsScore_missing (X := X) hr
  exact ⟨e, by simp [gibbsTransitionRow, he]⟩

end View
end Cgpm
