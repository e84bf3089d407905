import Verif.Spec.Equiv
import Verif.Model.Dim
import Verif.Lemmas.Comp

/-! Facts about a column: its state is determined by which row is filed where. -/
namespace Cgpm

variable {C : Cat}

/-- All component types of the catalogue keep exact statistics. -/
def Cat.Lawful (C : Cat) : Prop := ∀ i, (C.F i).Lawful

/-- What each row contributes: its cluster and the stored observation (`none`: NaN). -/
abbrev Filing (C : Cat) := Row → Option (Tab × Option C.O)

/-- cluster of a row that has a value -/
def zrOf : Option (Tab × Option C.O) → Option Tab
  | some (k, some _) => some k
  | _ => none

/-- cluster of a row whose value is missing -/
def ziOf : Option (Tab × Option C.O) → Option Tab
  | some (k, none) => some k
  | _ => none

/-- value of a row in cluster `k` -/
def valIn (k : Tab) : Option (Tab × Option C.O) → Option C.O
  | some (k', some o) => if k' = k then some o else none
  | _ => none

@[simp] theorem zrOf_none : zrOf (C := C) none = none := rfl
@[simp] theorem ziOf_none : ziOf (C := C) none = none := rfl
@[simp] theorem valIn_none (k : Tab) : valIn (C := C) k none = none := rfl
@[simp] theorem zrOf_nan (k : Tab) : zrOf (C := C) (some (k, none)) = none := rfl
@[simp] theorem ziOf_nan (k : Tab) : ziOf (C := C) (some (k, none)) = some k := rfl
@[simp] theorem valIn_nan (k k' : Tab) : valIn (C := C) k (some (k', none)) = none := rfl
@[simp] theorem zrOf_val (k : Tab) (o : C.O) : zrOf (C := C) (some (k, some o)) = some k := rfl
@[simp] theorem ziOf_val (k : Tab) (o : C.O) : ziOf (C := C) (some (k, some o)) = none := rfl
@[simp] theorem valIn_val (k k' : Tab) (o : C.O) :
    valIn (C := C) k (some (k', some o)) = if k' = k then some o else none := rfl

/-- A component that holds the rows given by `g`. -/
structure Comp.Holds {O S H : Type} (F : Family O S H) (c : Comp O S H) (g : Row → Option O) :
    Prop where
  wf : c.data.WF
  data : ∀ r, c.data.get? r = g r
  stat : c.stat = F.statOf c.data.vals

namespace Comp.Holds
variable {O S H : Type} {F : Family O S H} {c : Comp O S H} {g : Row → Option O}

theorem init (F : Family O S H) (h : H) : Holds F (Comp.init F h) (fun _ => none) :=
  ⟨Dict.wf_nil, fun _ => rfl, rfl⟩

theorem setHyp (h : Holds F c g) (k : H) : Holds F (c.withHyp k) g := ⟨h.wf, h.data, h.stat⟩

theorem congr (h : Holds F c g) {g' : Row → Option O} (e : ∀ r, g r = g' r) : Holds F c g' :=
  ⟨h.wf, fun r => (h.data r).trans (e r), h.stat⟩

theorem incorporate (h : Holds F c g) {r : Row} {o x : O} (hr : g r = none)
    (hp : F.prep o = .ok x) :
    ∃ c', c.incorporate F r o = .ok c' ∧ c'.hyp = c.hyp ∧
      Holds F c' (fun r' => if r' = r then some x else g r') := by
  have hn : c.data.get? r = none := by rw [h.data, hr]
  refine ⟨_, Comp.incorporate_ok hn hp, rfl, Dict.wf_set h.wf _ _, fun r' => ?_, ?_⟩
  · simp only [Dict.get?_set, h.data]
  · simp only [Comp.vals_set_of_not_mem x hn, Family.statOf_append, h.stat]

theorem unincorporate (hF : F.Lawful) (h : Holds F c g) {r : Row} {x : O} (hr : g r = some x) :
    ∃ c', c.unincorporate F r = .ok c' ∧ c'.hyp = c.hyp ∧
      Holds F c' (fun r' => if r' = r then none else g r') := by
  have hn : c.data.get? r = some x := by rw [h.data, hr]
  refine ⟨_, Comp.unincorporate_ok hn, rfl, Dict.wf_erase h.wf _, fun r' => ?_, ?_⟩
  · simp only [Dict.get?_erase, h.data]
  · have hp := (Dict.perm_cons_erase h.wf hn).map Prod.snd
    have e : F.statOf c.data.vals = _ := hF.statOf_perm hp
    simp only [h.stat]
    rw [e, List.map_cons, hF.statOf_cons, hF.sub_add]; rfl

/-- The statistics are a function of the contents. -/
theorem stat_unique (hF : F.Lawful) (h : Holds F c g) {c' : Comp O S H} (h' : Holds F c' g) :
    c.data.Perm c'.data ∧ c.stat = c'.stat := by
  have hp : c.data.Perm c'.data :=
    Dict.perm_of_get? h.wf h'.wf (fun r => by rw [h.data, h'.data])
  exact ⟨hp, by rw [h.stat, h'.stat]; exact hF.statOf_perm (hp.map Prod.snd)⟩

end Comp.Holds

namespace Dim

/-- The state of the dim is that described by the filing `m` (hyperparameters aside). -/
structure Core (d : Dim C) (m : Filing C) : Prop where
  wfR : d.Zr.WF
  wfI : d.Zi.WF
  wfC : d.clusters.WF
  zr : ∀ r, d.Zr.get? r = zrOf (m r)
  zi : ∀ r, d.Zi.get? r = ziOf (m r)
  cl : ∀ k c, d.clusters.get? k = some c → c.Holds d.fam (fun r => valIn k (m r))
  present : ∀ r k o, m r = some (k, o) → k ∈ d.clusters.keys
  aux : d.aux.Holds d.fam (fun _ => none)

/-- Every component carries the column's hyperparameters. -/
structure Shared (d : Dim C) : Prop where
  cl : ∀ k c, d.clusters.get? k = some c → c.hyp = d.hyp
  aux : d.aux.hyp = d.hyp

theorem core_new (index : Col) (inputs : List Col) (kind : C.ι) (hyp : C.H) :
    Core (Dim.new index inputs kind hyp) (fun _ => none) :=
  ⟨Dict.wf_nil, Dict.wf_nil, Dict.wf_nil, fun _ => rfl, fun _ => rfl,
    fun k c h => by simp [Dim.new] at h, fun r k o h => by simp at h,
    Comp.Holds.init _ _⟩

theorem shared_new (index : Col) (inputs : List Col) (kind : C.ι) (hyp : C.H) :
    Shared (Dim.new (C := C) index inputs kind hyp) :=
  ⟨fun k c h => by simp [Dim.new] at h, rfl⟩

theorem Core.congr {d : Dim C} {m m' : Filing C} (h : Core d m) (e : ∀ r, m r = m' r) :
    Core d m' := by
  have : m = m' := funext e
  rwa [← this]

/-- `self.clusters[k] = self.aux_model` when `k` has no component yet. -/
def ensure (d : Dim C) (k : Tab) : Dim C :=
  if d.clusters.has k then d
  else { d with clusters := d.clusters.set k d.aux, aux := d.createAux }

@[simp] theorem ensure_fam (d : Dim C) (k : Tab) : (d.ensure k).fam = d.fam := by
  unfold ensure; split <;> rfl
@[simp] theorem ensure_kind (d : Dim C) (k : Tab) : (d.ensure k).kind = d.kind := by
  unfold ensure; split <;> rfl
@[simp] theorem ensure_index (d : Dim C) (k : Tab) : (d.ensure k).index = d.index := by
  unfold ensure; split <;> rfl
@[simp] theorem ensure_inputs (d : Dim C) (k : Tab) : (d.ensure k).inputs = d.inputs := by
  unfold ensure; split <;> rfl
@[simp] theorem ensure_hyp (d : Dim C) (k : Tab) : (d.ensure k).hyp = d.hyp := by
  unfold ensure; split <;> rfl
@[simp] theorem ensure_Zr (d : Dim C) (k : Tab) : (d.ensure k).Zr = d.Zr := by
  unfold ensure; split <;> rfl
@[simp] theorem ensure_Zi (d : Dim C) (k : Tab) : (d.ensure k).Zi = d.Zi := by
  unfold ensure; split <;> rfl

theorem mem_keys_ensure (d : Dim C) (k k' : Tab) :
    k' ∈ (d.ensure k).clusters.keys ↔ k' = k ∨ k' ∈ d.clusters.keys := by
  unfold ensure; split
  · rename_i h
    rw [Dict.has_iff] at h
    constructor
    · exact Or.inr
    · rintro (rfl | h')
      · exact h
      · exact h'
  · exact Dict.mem_keys_set _ _ _ _

theorem get?_ensure (d : Dim C) (k k' : Tab) (c : C.Cl)
    (h : (d.ensure k).clusters.get? k' = some c) :
    d.clusters.get? k' = some c ∨ (k' = k ∧ d.clusters.get? k = none ∧ c = d.aux) := by
  unfold ensure at h; split at h
  · exact Or.inl h
  · rename_i hk
    rw [Dict.get?_set] at h
    split at h
    · rename_i e
      refine Or.inr ⟨e, ?_, by simpa using h.symm⟩
      simpa [Dict.has] using hk
    · exact Or.inl h

/-- No row is filed under a cluster without a component. -/
theorem Core.valIn_none {d : Dim C} {m : Filing C} (h : Core d m) {k : Tab}
    (hk : d.clusters.get? k = none) (r : Row) : valIn k (m r) = none := by
  cases hm : m r with
  | none => rfl
  | some p =>
    obtain ⟨k', o⟩ := p
    cases o with
    | none => rfl
    | some o =>
      rw [valIn_val, if_neg]
      rintro rfl
      exact (Dict.get?_eq_none_iff _ _).mp hk (h.present r _ _ hm)

theorem Core.ensure {d : Dim C} {m : Filing C} (h : Core d m) (k : Tab) : Core (d.ensure k) m where
  wfR := by simpa using h.wfR
  wfI := by simpa using h.wfI
  wfC := by
    unfold Dim.ensure; split
    · exact h.wfC
    · exact Dict.wf_set h.wfC _ _
  zr := by simpa using h.zr
  zi := by simpa using h.zi
  cl := by
    intro k' c hc
    rw [ensure_fam]
    rcases get?_ensure d k k' c hc with hc | ⟨rfl, hn, rfl⟩
    · exact h.cl k' c hc
    · exact h.aux.congr (fun r => (h.valIn_none hn r).symm)
  present := fun r k' o hm => (mem_keys_ensure _ _ _).mpr (Or.inr (h.present r k' o hm))
  aux := by
    rw [ensure_fam]
    unfold Dim.ensure; split
    · exact h.aux
    · exact Comp.Holds.init _ _

theorem Shared.ensure {d : Dim C} (h : Shared d) (k : Tab) : Shared (d.ensure k) where
  cl := by
    intro k' c hc
    rw [ensure_hyp]
    rcases get?_ensure d k k' c hc with hc | ⟨rfl, hn, rfl⟩
    · exact h.cl k' c hc
    · exact h.aux
  aux := by
    rw [ensure_hyp]
    unfold Dim.ensure; split
    · exact h.aux
    · rfl

theorem Core.unfiled {d : Dim C} {m : Filing C} (h : Core d m) (r : Row) :
    (d.Zr.has r || d.Zi.has r) = false ↔ m r = none := by
  simp only [Bool.or_eq_false_iff, Dict.has_false_iff, h.zr, h.zi]
  cases hm : m r with
  | none => simp
  | some p =>
    obtain ⟨k, o⟩ := p
    cases o <;> simp

theorem incorporate_dup {d : Dim C} {m : Filing C} (h : Core d m) {r : Row} (hr : m r ≠ none)
    (k : Tab) (x : C.Cell) (ins : List C.Cell) :
    d.incorporate r k x ins = .err .valueError d := by
  have : (d.Zr.has r || d.Zi.has r) = true := by
    by_contra hn
    exact hr ((h.unfiled r).mp (by simpa using hn))
  simp [Dim.incorporate, this]

theorem incorporate_nan {d : Dim C} {m : Filing C} (h : Core d m) {r : Row} (hr : m r = none)
    {k : Tab} {x : C.Cell} {ins : List C.Cell} (hv : validObs x ins = none) :
    d.incorporate r k x ins = .ok { d.ensure k with Zi := d.Zi.set r k } := by
  have h1 := (h.unfiled r).mpr hr
  have e : (d.ensure k).Zi = d.Zi := ensure_Zi d k
  simp only [Dim.incorporate, h1, hv, Bool.false_eq_true, if_false]
  change Out.ok { d.ensure k with Zi := (d.ensure k).Zi.set r k } = _
  rw [e]

/-- What a successful `incorporate` does to everything but the filing. -/
structure Frame (d d' : Dim C) : Prop where
  index : d'.index = d.index
  inputs : d'.inputs = d.inputs
  kind : d'.kind = d.kind
  hyp : d'.hyp = d.hyp

theorem Frame.refl (d : Dim C) : Frame d d := ⟨rfl, rfl, rfl, rfl⟩

theorem Frame.trans {a b c : Dim C} (h : Frame a b) (h' : Frame b c) : Frame a c :=
  ⟨h'.index.trans h.index, h'.inputs.trans h.inputs, h'.kind.trans h.kind, h'.hyp.trans h.hyp⟩

theorem Frame.fam {a b : Dim C} (h : Frame a b) : b.fam = a.fam := by
  unfold Dim.fam; rw [h.kind]

/-- `incorporate` of a fresh row with an admissible (or missing) value. -/
theorem Core.incorporate {d : Dim C} {m : Filing C} (h : Core d m) {r : Row} (hr : m r = none)
    (k : Tab) (x : C.Cell) (ins : List C.Cell) (st : Option C.O)
    (hst : match validObs x ins with
      | none => st = none
      | some o => ∃ o', d.fam.prep o = .ok o' ∧ st = some o') :
    ∃ d', d.incorporate r k x ins = .ok d' ∧ Frame d d' ∧
      Core d' (fun r' => if r' = r then some (k, st) else m r') ∧
      (∀ k', k' ∈ d'.clusters.keys ↔ k' = k ∨ k' ∈ d.clusters.keys) ∧
      (Shared d → Shared d') := by
  have hE := h.ensure k
  have hmem : k ∈ (d.ensure k).clusters.keys := (mem_keys_ensure _ _ _).mpr (Or.inl rfl)
  cases hv : validObs x ins with
  | none =>
    rw [hv] at hst
    obtain rfl := hst
    refine ⟨_, incorporate_nan h hr hv, ⟨by simp, by simp, by simp, by simp⟩, ?_,
      fun k' => mem_keys_ensure _ _ _, fun hs => ⟨(hs.ensure k).cl, (hs.ensure k).aux⟩⟩
    refine ⟨hE.wfR, Dict.wf_set h.wfI _ _, hE.wfC, fun r' => ?_, fun r' => ?_, ?_, ?_, hE.aux⟩
    · simp only [hE.zr]
      by_cases e : r' = r
      · subst e; simp [hr]
      · simp [e]
    · simp only [Dict.get?_set, h.zi]
      by_cases e : r' = r
      · subst e; simp
      · simp [e]
    · intro k' c hc
      refine (hE.cl k' c hc).congr (fun r' => ?_)
      by_cases e : r' = r
      · subst e; simp [hr]
      · simp [e]
    · intro r' k' o hm
      simp only at hm ⊢
      split at hm
      · simp only [Option.some.injEq, Prod.mk.injEq] at hm
        rw [← hm.1]; exact hmem
      · exact hE.present r' k' o hm
  | some o =>
    rw [hv] at hst
    obtain ⟨o', hp, rfl⟩ := hst
    obtain ⟨c, hc⟩ := Dict.exists_of_mem_keys hmem
    have hcH := hE.cl k c hc
    rw [ensure_fam] at hcH
    obtain ⟨c', hc', hhyp, hH⟩ := hcH.incorporate (r := r) (by simp [hr]) hp
    have h1 := (h.unfiled r).mpr hr
    have hval : d.incorporate r k x ins = .ok
        { d.ensure k with
          clusters := (d.ensure k).clusters.set k c', Zr := (d.ensure k).Zr.set r k } := by
      simp only [Dim.incorporate, h1, hv, Bool.false_eq_true, if_false]
      change (match (d.ensure k).clusters.get? k with
        | none => Out.err Exn.keyError (d.ensure k)
        | some c =>
          match c.incorporate d.fam r o with
          | .err e c' => .err e { d.ensure k with clusters := (d.ensure k).clusters.set k c' }
          | .ok c' => .ok { d.ensure k with
              clusters := (d.ensure k).clusters.set k c', Zr := (d.ensure k).Zr.set r k }) = _
      rw [hc]
      simp only [hc']
    refine ⟨_, hval, ⟨by simp, by simp, by simp, by simp⟩, ?_, ?_, ?_⟩
    · refine ⟨Dict.wf_set hE.wfR _ _, hE.wfI, Dict.wf_set hE.wfC _ _, fun r' => ?_, fun r' => ?_,
        ?_, ?_, hE.aux⟩
      · simp only [Dict.get?_set, ensure_Zr, h.zr]
        by_cases e : r' = r
        · subst e; simp
        · simp [e]
      · simp only [hE.zi]
        by_cases e : r' = r
        · subst e; simp [hr]
        · simp [e]
      · intro k' c2 hc2
        simp only [Dict.get?_set] at hc2
        split at hc2
        · rename_i e; subst e
          obtain rfl : c' = c2 := by simpa using hc2
          change Comp.Holds (d.ensure k').fam c' _
          rw [ensure_fam]
          refine hH.congr (fun r' => ?_)
          by_cases e : r' = r
          · subst e; simp
          · simp [e]
        · rename_i hne
          refine (hE.cl k' c2 hc2).congr (fun r' => ?_)
          by_cases e : r' = r
          · subst e; simp [hr, Ne.symm hne]
          · simp [e]
      · intro r' k' o2 hm
        refine (Dict.mem_keys_set _ _ _ _).mpr ?_
        split at hm
        · simp only [Option.some.injEq, Prod.mk.injEq] at hm
          exact Or.inl hm.1.symm
        · exact Or.inr (hE.present r' k' o2 hm)
    · intro k'
      change k' ∈ ((d.ensure k).clusters.set k c').keys ↔ _
      rw [Dict.mem_keys_set, mem_keys_ensure]
      tauto
    · intro hs
      refine ⟨?_, (hs.ensure k).aux⟩
      intro k' c2 hc2
      simp only [Dict.get?_set] at hc2
      split at hc2
      · obtain rfl : c' = c2 := by simpa using hc2
        exact hhyp.trans ((hs.ensure k).cl k c hc)
      · exact (hs.ensure k).cl k' c2 hc2

/-- `incorporate` of a fresh row with a value the component refuses: an exception, and
at most an empty component has been created. -/
theorem Core.incorporate_refused {d : Dim C} {m : Filing C} (h : Core d m) {r : Row}
    (hr : m r = none) (k : Tab) (x : C.Cell) (ins : List C.Cell) {o : C.O} {e : Exn}
    (hv : validObs x ins = some o) (hp : d.fam.prep o = .error e) :
    d.incorporate r k x ins = .err e (d.ensure k) := by
  have hE := h.ensure k
  have hmem : k ∈ (d.ensure k).clusters.keys := (mem_keys_ensure _ _ _).mpr (Or.inl rfl)
  obtain ⟨c, hc⟩ := Dict.exists_of_mem_keys hmem
  have hcH := hE.cl k c hc
  have h1 := (h.unfiled r).mpr hr
  have hn : c.data.get? r = none := by rw [hcH.data]; simp [hr]
  have hc' := Comp.incorporate_refused hn hp
  simp only [Dim.incorporate, h1, hv, Bool.false_eq_true, if_false]
  change (match (d.ensure k).clusters.get? k with
        | none => Out.err Exn.keyError (d.ensure k)
        | some c =>
          match c.incorporate d.fam r o with
          | .err e c' => .err e { d.ensure k with clusters := (d.ensure k).clusters.set k c' }
          | .ok c' => .ok { d.ensure k with
              clusters := (d.ensure k).clusters.set k c', Zr := (d.ensure k).Zr.set r k }) = _
  rw [hc]
  simp only [hc', Dict.set_get? hc]

/-- `unincorporate` of a filed row. -/
theorem Core.unincorporate (hL : C.Lawful) {d : Dim C} {m : Filing C} (h : Core d m) {r : Row}
    (hr : m r ≠ none) :
    ∃ d', d.unincorporate r = .ok d' ∧ Frame d d' ∧
      Core d' (fun r' => if r' = r then none else m r') ∧
      (∀ k', k' ∈ d'.clusters.keys ↔ k' ∈ d.clusters.keys) ∧ d'.aux = d.aux ∧
      (Shared d → Shared d') := by
  obtain ⟨⟨k, o⟩, hm⟩ := Option.ne_none_iff_exists'.mp hr
  cases o with
  | none =>
    have hzi : d.Zi.has r = true := by
      rw [Dict.has_iff, ← Dict.get?_isSome_iff, h.zi, hm]; rfl
    refine ⟨{ d with Zi := d.Zi.erase r }, by simp [Dim.unincorporate, hzi], ⟨rfl, rfl, rfl, rfl⟩,
      ?_, fun _ => Iff.rfl, rfl, fun hs => ⟨hs.cl, hs.aux⟩⟩
    refine ⟨h.wfR, Dict.wf_erase h.wfI _, h.wfC, fun r' => ?_, fun r' => ?_, ?_, ?_, h.aux⟩
    · simp only [h.zr]
      by_cases e : r' = r
      · subst e; simp [hm]
      · simp [e]
    · simp only [Dict.get?_erase, h.zi]
      by_cases e : r' = r
      · subst e; simp
      · simp [e]
    · intro k' c hc
      refine (h.cl k' c hc).congr (fun r' => ?_)
      by_cases e : r' = r
      · subst e; simp [hm]
      · simp [e]
    · intro r' k' o hm'
      split at hm'
      · cases hm'
      · exact h.present r' k' o hm'
  | some o =>
    have hzi : d.Zi.has r = false := by rw [Dict.has_false_iff, h.zi, hm]; rfl
    have hzr : d.Zr.get? r = some k := by rw [h.zr, hm]; rfl
    obtain ⟨c, hc⟩ := Dict.exists_of_mem_keys (h.present r k _ hm)
    obtain ⟨c', hc', hhyp, hH⟩ := (h.cl k c hc).unincorporate (hL _) (r := r) (x := o)
      (by simp [hm])
    refine ⟨{ d with clusters := d.clusters.set k c', Zr := d.Zr.erase r },
      by simp only [Dim.unincorporate, hzi, hzr, hc, hc', Bool.false_eq_true, if_false],
      ⟨rfl, rfl, rfl, rfl⟩, ?_, ?_, rfl, ?_⟩
    · refine ⟨Dict.wf_erase h.wfR _, h.wfI, Dict.wf_set h.wfC _ _, fun r' => ?_, fun r' => ?_,
        ?_, ?_, h.aux⟩
      · simp only [Dict.get?_erase, h.zr]
        by_cases e : r' = r
        · subst e; simp
        · simp [e]
      · simp only [h.zi]
        by_cases e : r' = r
        · subst e; simp [hm]
        · simp [e]
      · intro k' c2 hc2
        simp only [Dict.get?_set] at hc2
        split at hc2
        · rename_i e; subst e
          obtain rfl : c' = c2 := by simpa using hc2
          refine hH.congr (fun r' => ?_)
          by_cases e : r' = r
          · subst e; simp
          · simp [e]
        · rename_i hne
          refine (h.cl k' c2 hc2).congr (fun r' => ?_)
          by_cases e : r' = r
          · subst e; simp [hm, Ne.symm hne]
          · simp [e]
      · intro r' k' o2 hm'
        refine (Dict.mem_keys_set _ _ _ _).mpr (Or.inr ?_)
        split at hm'
        · cases hm'
        · exact h.present r' k' o2 hm'
    · intro k'
      simp only [Dict.mem_keys_set]
      constructor
      · rintro (rfl | h')
        · exact Dict.mem_keys_of_get? hc
        · exact h'
      · exact Or.inr
    · intro hs
      refine ⟨?_, hs.aux⟩
      intro k' c2 hc2
      simp only [Dict.get?_set] at hc2
      split at hc2
      · obtain rfl : c' = c2 := by simpa using hc2
        exact hhyp.trans (hs.cl k c hc)
      · exact hs.cl k' c2 hc2

theorem unincorporate_missing {d : Dim C} {m : Filing C} (h : Core d m) {r : Row}
    (hr : m r = none) : d.unincorporate r = .err .valueError d := by
  have h1 : d.Zi.has r = false := by rw [Dict.has_false_iff, h.zi, hr]; rfl
  have h2 : d.Zr.get? r = none := by rw [h.zr, hr]; rfl
  simp [Dim.unincorporate, h1, h2]

/-- Dropping the component of a cluster without rows. -/
theorem Core.dropCluster {d : Dim C} {m : Filing C} (h : Core d m) {k : Tab}
    (hk : ∀ r o, m r ≠ some (k, o)) : Core { d with clusters := d.clusters.erase k } m where
  wfR := h.wfR
  wfI := h.wfI
  wfC := Dict.wf_erase h.wfC _
  zr := h.zr
  zi := h.zi
  cl := by
    intro k' c hc
    simp only [Dict.get?_erase] at hc
    split at hc
    · cases hc
    · exact h.cl k' c hc
  present := by
    intro r k' o hm
    refine (Dict.mem_keys_erase _ _ _).mpr ⟨?_, h.present r k' o hm⟩
    rintro rfl; exact hk r o hm
  aux := h.aux

theorem Shared.dropCluster {d : Dim C} (h : Shared d) (k : Tab) :
    Shared { d with clusters := d.clusters.erase k } where
  cl := by
    intro k' c hc
    simp only [Dict.get?_erase] at hc
    split at hc
    · cases hc
    · exact h.cl k' c hc
  aux := h.aux

theorem wf_map_val {W : Type} {d : Dict Tab C.Cl} (h : d.WF) (f : C.Cl → W) :
    Dict.WF (d.map (fun p => (p.1, f p.2))) := by
  unfold Dict.WF; rw [Dict.keys_map_val]; exact h

/-- Changing hyperparameters does not touch the filing. -/
theorem Core.mapHyp {d : Dim C} {m : Filing C} (h : Core d m) (hy : C.H) :
    Core { d with hyp := hy, clusters := d.clusters.map fun p => (p.1, p.2.withHyp hy) }
      m where
  wfR := h.wfR
  wfI := h.wfI
  wfC := wf_map_val h.wfC (fun c : C.Cl => c.withHyp hy)
  zr := h.zr
  zi := h.zi
  cl := by
    intro k c hc
    change Dict.get? (List.map (fun p : Tab × C.Cl => (p.1, p.2.withHyp hy)) d.clusters) k
      = some c at hc
    rw [Dict.get?_map_val (fun c : C.Cl => c.withHyp hy)] at hc
    obtain ⟨c0, hc0, rfl⟩ := Option.map_eq_some_iff.mp hc
    exact (h.cl k c0 hc0).setHyp hy
  present := by
    intro r k o hm
    change k ∈ Dict.keys (List.map (fun p : Tab × C.Cl => (p.1, p.2.withHyp hy)) d.clusters)
    rw [Dict.keys_map_val (fun c : C.Cl => c.withHyp hy)]
    exact h.present r k o hm
  aux := h.aux

theorem Core.transitionHypers {d : Dim C} {m : Filing C} (h : Core d m) (hy : C.H) :
    Core (d.transitionHypers hy) m :=
  { h.mapHyp hy with aux := Comp.Holds.init _ _ }

theorem shared_transitionHypers (d : Dim C) (hy : C.H) : Shared (d.transitionHypers hy) where
  cl := by
    intro k c hc
    change Dict.get? (List.map (fun p : Tab × C.Cl => (p.1, p.2.withHyp hy)) d.clusters) k
      = some c at hc
    rw [Dict.get?_map_val (fun c : C.Cl => c.withHyp hy)] at hc
    obtain ⟨c0, _, rfl⟩ := Option.map_eq_some_iff.mp hc
    rfl
  aux := rfl

theorem Core.setHypers {d : Dim C} {m : Filing C} (h : Core d m) (hy : C.H) :
    Core (d.setHypers hy).state m := by
  have h0 : Core { d with hyp := hy } m :=
    ⟨h.wfR, h.wfI, h.wfC, h.zr, h.zi, h.cl, h.present, h.aux⟩
  unfold Dim.setHypers
  simp only
  split
  · exact h0
  · split
    · exact h.mapHyp hy
    · exact h0

theorem equiv_of_core (hL : C.Lawful) {a b : Dim C} {m : Filing C} (ha : Core a m) (hb : Core b m)
    (sa : Shared a) (sb : Shared b) (hf : Frame a b)
    (hk : ∀ k, k ∈ a.clusters.keys ↔ k ∈ b.clusters.keys) : Equiv a b := by
  have hfam : b.fam = a.fam := hf.fam
  refine ⟨hf.index.symm, hf.inputs.symm, hf.kind.symm, hf.hyp.symm,
    Dict.perm_of_get? ha.wfR hb.wfR (fun r => by rw [ha.zr, hb.zr]),
    Dict.perm_of_get? ha.wfI hb.wfI (fun r => by rw [ha.zi, hb.zi]), ha.wfC, hb.wfC, fun k => ?_, ?_⟩
  · cases hA : a.clusters.get? k with
    | none =>
      have : b.clusters.get? k = none := by
        rw [Dict.get?_eq_none_iff, ← hk, ← Dict.get?_eq_none_iff]; exact hA
      rw [this]; exact Option.Rel.none
    | some c =>
      obtain ⟨c', hB⟩ := Dict.exists_of_mem_keys ((hk k).mp (Dict.mem_keys_of_get? hA))
      rw [hB]
      refine Option.Rel.some ?_
      have h1 := ha.cl k c hA
      have h2 := hb.cl k c' hB
      rw [hfam] at h2
      obtain ⟨hp, hs⟩ := h1.stat_unique (hL _) h2
      exact ⟨hp, hs, by rw [sa.cl k c hA, sb.cl k c' hB, hf.hyp]⟩
  · have h2 := hb.aux
    rw [hfam] at h2
    obtain ⟨hp, hs⟩ := ha.aux.stat_unique (hL _) h2
    exact ⟨hp, hs, by rw [sa.aux, sb.aux, hf.hyp]⟩

end Dim
end Cgpm
