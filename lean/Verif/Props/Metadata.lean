import Verif.Lemmas.Metadata
import Verif.Props.Composite
import Verif.Props.State

/-! Property C34: serialization round trips. -/
namespace Cgpm.Props
open Cgpm Cgpm.Net Cgpm.State
variable {C : Cat} {Ω : Type} {cfg : Cfg C} {ord : PyOrder} {beh : ViewBehaviour C Ω}
  {s0 : State C} {x : Composite C Ω} {ρ : Restoring}

/-! ### States -/

/-- **C34.** Every State that a history of calls produces can be restored from its metadata, whatever
the orders in which Python lists its dictionaries and sets; the restored State has the same data,
outputs, partitions, concentrations, hyperparameters, constraints and statistics, and is again a State
that a history of calls produces. -/
theorem C34_state (hL : C.Lawful) {s : State C} (h : StateReachable cfg s) (hρ : ρ.Lists) :
    ∃ m s', s.toMetadata = .ok m ∧ State.fromMetadata ρ m = .ok s' ∧ StateRestored s s' ∧
      StateReachable cfg s' := by
  have hI := h.inv hL
  obtain ⟨specs, hm, -⟩ := toMetadata_ok hI
  obtain ⟨s', h1, -, h3, X, n, schema, alpha, Zv, order, rows, Cd, Ci, h4, h5⟩ :=
    State.fromMetadata_ok hL hI hρ hm
  exact ⟨_, s', hm, h1, h3, .of X n schema alpha Zv order rows Cd Ci h4 s' h5 [] trivial⟩

theorem restored_zv {a b : State C} (hI : Inv a) (h : StateRestored a b) : a.Zv = b.Zv := by
  funext c
  exact Dict.get?_perm hI.crp.wfData h.columns.data c

theorem restored_seat {X : C.Tbl} {a b : View C} (hI : View.Inv X a) (h : View.Equiv a b) :
    a.seat = b.seat := by
  funext r
  exact Dict.get?_perm hI.crp.wfData h.crp.data r

theorem sum_restored {a b : Dict Nat (View C)} (ha : a.WF) (hp : a.keys.Perm b.keys)
    (h : ∀ v, Option.Rel View.Equiv (a.get? v) (b.get? v)) {f : View C → ℝ}
    (hf : ∀ x y, View.Equiv x y → f x = f y) : (a.vals.map f).sum = (b.vals.map f).sum := by
  have hb : b.WF := (hp.nodup_iff).mp ha
  have hq : (a.map fun p => (p.1, f p.2)).Perm (b.map fun p => (p.1, f p.2)) := by
    refine Dict.perm_of_get? (K := Nat) (V := ℝ) ?_ ?_ (fun c => ?_)
    · unfold Dict.WF; rw [Dict.keys_map_val]; exact ha
    · unfold Dict.WF; rw [Dict.keys_map_val]; exact hb
    · rw [Dict.get?_map_val, Dict.get?_map_val]
      have := h c
      revert this
      cases a.get? c <;> cases b.get? c <;> intro h <;> cases h
      · rfl
      · rename_i e; simp [hf _ _ e]
  have := (hq.map Prod.snd).sum_eq
  simpa [Dict.vals, Function.comp_def] using this

theorem viewFor_restored {a b : State C} (hI : Inv a) (h : StateRestored a b) (c : Col) :
    (∃ e, a.viewFor c = .error e ∧ b.viewFor c = .error e) ∨
    ∃ i v w, a.viewFor c = .ok (i, v) ∧ b.viewFor c = .ok (i, w) ∧ v.seat = w.seat := by
  unfold viewFor
  rw [← restored_zv hI h]
  cases a.Zv c with
  | none => exact .inl ⟨_, rfl, rfl⟩
  | some i =>
    simp only
    have := h.views i
    cases hv : a.views.get? i with
    | none =>
      rw [hv] at this
      cases hw : b.views.get? i with
      | none => exact .inl ⟨_, rfl, rfl⟩
      | some w => rw [hw] at this; cases this
    | some v =>
      rw [hv] at this
      cases hw : b.views.get? i with
      | none => rw [hw] at this; cases this
      | some w =>
        rw [hw] at this
        cases this with
        | some e => exact .inr ⟨i, v, w, rfl, rfl, restored_seat (hI.views.view i v hv).inv e⟩

/-- Same identifiers, same row partitions. -/
def SameSeats (p q : Nat × View C) : Prop := p.1 = q.1 ∧ p.2.seat = q.2.seat

theorem sameSeats_has {a b : Dict Nat (View C)} (h : List.Forall₂ SameSeats a b) (i : Nat) :
    Dict.has a i = Dict.has b i := by
  induction h with
  | nil => rfl
  | cons e _ ih =>
    rename_i p q l1 l2 _
    obtain ⟨i1, v1⟩ := p
    obtain ⟨i2, v2⟩ := q
    obtain ⟨e1, -⟩ := e
    simp only at e1
    subst e1
    unfold Dict.has at ih ⊢
    rw [Dict.get?_cons, Dict.get?_cons]
    split
    · rfl
    · exact ih

theorem viewSet_restored {a b : State C} (hI : Inv a) (h : StateRestored a b) (cs : List Col) :
    (∃ e, a.viewSet cs = .error e ∧ b.viewSet cs = .error e) ∨
    ∃ v w, a.viewSet cs = .ok v ∧ b.viewSet cs = .ok w ∧ List.Forall₂ SameSeats v w := by
  induction cs with
  | nil => exact .inr ⟨[], [], rfl, rfl, .nil⟩
  | cons c cs ih =>
    rcases viewFor_restored hI h c with ⟨e, h1, h2⟩ | ⟨i, v, w, h1, h2, h3⟩
    · exact .inl ⟨e, by simp [viewSet, h1], by simp [viewSet, h2]⟩
    · rcases ih with ⟨e, g1, g2⟩ | ⟨vs, ws, g1, g2, g3⟩
      · exact .inl ⟨e, by simp [viewSet, h1, g1], by simp [viewSet, h2, g2]⟩
      · refine .inr ⟨_, _, by simp only [viewSet, h1, g1]; rfl, by simp only [viewSet, h2, g2]; rfl, ?_⟩
        rw [sameSeats_has g3]
        split
        · exact g3
        · exact .cons ⟨rfl, h3⟩ g3

theorem collect_seats {r0 r1 : Row} {a b : List (Nat × View C)} (h : List.Forall₂ SameSeats a b) :
    Net.collect (fun v => sameCluster v r0 r1) (Dict.vals a) =
      Net.collect (fun v => sameCluster v r0 r1) (Dict.vals b) := by
  induction h with
  | nil => rfl
  | cons e _ ih =>
    simp only [Dict.vals, List.map_cons, Net.collect]
    unfold Dict.vals at ih
    rw [ih]
    unfold sameCluster
    rw [e.2]

/-- **C34.** A restored State gives the same answers: same data, scores and column partition, same
dependence probabilities and row similarities, and for each view the same predictive densities. -/
theorem C34_same_answers (hL : C.Lawful) {s s' : State C} (h : StateReachable cfg s)
    (hr : StateRestored s s') :
    s.score = s'.score ∧ s.likelihood = s'.likelihood ∧ s.tbl = s'.tbl ∧ s.nRows = s'.nRows ∧
    s.Zv = s'.Zv ∧
    (∀ limit hooked c0 c1, c0 ∈ s.outputs → c1 ∈ s.outputs →
      s.dependenceProbability limit beh hooked c0 c1 = s'.dependenceProbability limit beh hooked c0 c1) ∧
    (∀ r0 r1 cols, s.rowSimilarity r0 r1 cols = s'.rowSimilarity r0 r1 cols) ∧
    ∀ v a b, s.views.get? v = some a → s'.views.get? v = some b →
      a.seat = b.seat ∧ (∀ t, a.crp.logpdf none t = b.crp.logpdf none t) ∧
      (∀ c, c ∈ a.dims.keys ↔ c ∈ b.dims.keys) ∧
      ∀ c da db, a.dims.get? c = some da → b.dims.get? c = some db → ∀ k y ins,
        da.logpdf none k y ins = db.logpdf none k y ins := by
  have hI := h.inv hL
  have hz := restored_zv hI hr
  refine ⟨?_, ?_, by unfold tbl; rw [hr.data], by unfold State.nRows; rw [hr.data, hr.outputs], hz, ?_,
    ?_, ?_⟩
  · unfold State.score
    rw [hr.columns.score, sum_restored hr.distinct hr.ids hr.views fun _ _ e => e.score]
  · unfold State.likelihood
    exact sum_restored hr.distinct hr.ids hr.views fun _ _ e => (C12_same_answers e).2.1
  · intro limit hooked c0 c1 h0 h1
    have e0 : s.outputs.contains c0 = true := by simpa using h0
    have e1 : s.outputs.contains c1 = true := by simpa using h1
    unfold dependenceProbability
    rw [← hr.outputs, ← hz, e0, e1]
    rfl
  · intro r0 r1 cols
    unfold rowSimilarity
    rw [← hr.outputs]
    rcases viewSet_restored hI hr (cols.getD s.outputs) with ⟨e, h1, h2⟩ | ⟨v, w, h1, h2, h3⟩
    · rw [h1, h2]
    · rw [h1, h2]
      simp only [collect_seats (r0 := r0) (r1 := r1) h3]
  · intro v a b ha hb
    have hv := hr.views v
    rw [ha, hb] at hv
    cases hv with
    | some e =>
      obtain ⟨-, -, h3, h4⟩ := C12_same_answers e
      refine ⟨restored_seat (hI.views.view v a ha).inv e, h3, fun c => ?_, h4⟩
      have hd := e.dims c
      rw [← not_iff_not, ← Dict.get?_eq_none_iff, ← Dict.get?_eq_none_iff]
      revert hd
      cases a.dims.get? c <;> cases b.dims.get? c <;> intro hd <;> cases hd <;> simp

/-! ### Views -/

/-- **C34.** A view whose rows are numbered from 0 without gaps is restored from its metadata. (The
views of a State are such.) -/
theorem C34_view (hL : C.Lawful) {X : C.Tbl} {v : View C} (h : Reachable X v) {n : Nat}
    (hn : Contiguous v n) : ∃ v', View.fromMetadata X v.toMetadata = .ok v' ∧ View.Equiv v v' := by
  obtain ⟨v', h1, -, h3⟩ := View.fromMetadata_ok hL (h.inv hL) hn
  exact ⟨v', h1, h3⟩

theorem addDims_crp {X : C.Tbl} {schema : Col → ColSpec C} (cs : List Col) {v v' : View C}
    (h : addDims X schema cs v = .ok v') : v'.crp = v.crp := by
  induction cs generalizing v with
  | nil => cases h; rfl
  | cons c cs ih =>
    unfold addDims at h
    split at h
    · cases h
    · rename_i w hw
      rw [ih h]
      unfold View.incorporateDim at hw
      rw [if_pos rfl] at hw
      split at hw
      · cases hw
      · cases hw; rfl

/-- **C34** violated: a view with a gap in its row numbers is not restored. The metadata lists the
clusters in the order of the rows, but not the rows themselves, so the restored view numbers them from
0 again. -/
theorem C34_view_gap_violated (hL : C.Lawful) {X : C.Tbl} {v v' : View C} (h : Reachable X v)
    (hn : ∀ n, ¬ Contiguous v n) (hv : View.fromMetadata X v.toMetadata = .ok v') :
    ¬ View.Equiv v v' := by
  intro he
  have hI := h.inv hL
  have hs := restored_seat hI he
  obtain ⟨w, h1, h2, h3, h4, h5⟩ := State.newView_ok (C := C) hI.alpha v.rowLabels X
  have hc : v'.crp = w.crp := by
    unfold View.fromMetadata View.toMetadata at hv
    simp only [h1] at hv
    split at hv
    · cases hv; rfl
    · unfold withSchema at hv
      split at hv
      · cases hv
      · split at hv
        · cases hv
        · simp only at hv
          split at hv
          · cases hv
          · rename_i hd
            cases hv
            exact addDims_crp _ hd
  refine hn v.rowLabels.length fun r => ?_
  rw [hs]
  unfold View.seat
  rw [hc]
  show w.seat r ≠ none ↔ _
  rw [h5, ne_eq, List.getElem?_eq_none_iff, not_le]

/-! ### Compositions -/

open Classical in
theorem wellFormed_perm {R V Ω : Type} {l l' : List (NetCgpm R V Ω)} (h : WellFormed l)
    (hp : l.Perm l') : WellFormed l' := by
  have hnd : l.Nodup := by
    rw [List.nodup_iff_getElem?_ne_getElem?]
    intro i j hij hj he
    obtain ⟨b, hb⟩ : ∃ b, l[j]? = some b := ⟨_, List.getElem?_eq_getElem hj⟩
    obtain ⟨v, hv⟩ := List.exists_mem_of_ne_nil _ (h.nonempty b (List.mem_of_getElem? hb))
    have := h.unique i j b b (by rw [he, hb]) hb v hv hv
    omega
  have hnd' : l'.Nodup := hp.nodup_iff.mp hnd
  have hf : ∀ i c, l'[i]? = some c → l[l.idxOf c]? = some c := fun i c hc =>
    List.getElem?_idxOf (hp.mem_iff.mpr (List.mem_of_getElem? hc))
  have hinj : ∀ {i j : Nat} {c : NetCgpm R V Ω}, l'[i]? = some c → l'[j]? = some c → i = j := by
    intro i j c hi hj
    obtain ⟨hi', -⟩ := List.getElem?_eq_some_iff.mp hi
    obtain ⟨hj', -⟩ := List.getElem?_eq_some_iff.mp hj
    exact (List.getElem?_inj hi' hnd').mp (hi.trans hj.symm)
  refine ⟨fun c hc => h.nonempty c (hp.mem_iff.mpr hc), fun i j a b ha hb v h1 h2 => ?_, fun i hi => ?_⟩
  · have e := h.unique _ _ a b (hf i a ha) (hf j b hb) v h1 h2
    have : a = b := by
      have h1 := hf i a ha
      have h2 := hf j b hb
      rw [e, h2] at h1
      exact (Option.some.inj h1).symm
    subst this
    exact hinj ha hb
  · set g : Nat → Nat := fun i => match l'[i]? with
      | some c => l.idxOf c
      | none => 0 with hg
    have hg' : ∀ i c, l'[i]? = some c → l[g i]? = some c := by
      intro i c hc
      simp only [hg, hc]
      exact hf i c hc
    exact h.acyclic (g i) (Relation.TransGen.lift g (fun _ _ h => feeds_sub hg' h) _ _ hi)

theorem composeList_ok (hL : C.Lawful) (hord : ord.Lists) (cs : List (NetCgpm (Option Row) (Val C) Ω))
    {y : Composite C Ω} (hy : CInv y) (hw : WellFormed (y.st.buildCgpms beh y.hooked ++ cs))
    (hn : ∀ c ∈ cs, ∀ o ∈ c.outputs, o < 10 ^ 7) :
    ∃ z, Composite.composeList cfg ord beh cs y = .ok z ∧ z.st = y.st ∧
      z.hooked.vals = y.hooked.vals ++ cs ∧
      z.hooked.keys = y.hooked.keys ++ List.range' y.next cs.length ∧
      z.composite = (y.composite || !cs.isEmpty) := by
  induction cs generalizing y with
  | nil => exact ⟨y, rfl, rfl, by simp, by simp, by simp⟩
  | cons c cs ih =>
    have hw1 : WellFormed (y.st.buildCgpms beh y.hooked ++ [c]) := hw.sub (by simp)
    have e := (compose_eq (cfg := cfg) (beh := beh) hy hord c).1 hw1
    have hc := (cinv_apply (beh := beh) (cfg := cfg) hL hord hy (.compose c) (hn c (by simp))).1
    simp only [Composite.apply, e, Res.state_ok] at hc
    have hv : Dict.vals (y.hooked ++ [(y.next, c)]) = y.hooked.vals ++ [c] := by simp [Dict.vals]
    have hk : Dict.keys (y.hooked ++ [(y.next, c)]) = y.hooked.keys ++ [y.next] := by
      simp [Dict.keys]
    obtain ⟨z, h1, h2, h3, h4, h5⟩ := ih hc (by
      have : y.st.buildCgpms beh (y.hooked ++ [(y.next, c)]) ++ cs =
          y.st.buildCgpms beh y.hooked ++ c :: cs := by
        simp [State.buildCgpms, Dict.vals]
      rw [this]; exact hw) (fun c hc => hn c (by simp [hc]))
    refine ⟨z, by simp only [Composite.composeList, e, h1], h2, by rw [h3, hv]; simp, ?_, by simp [h5]⟩
    rw [h4, hk, List.length_cons, List.range'_succ]
    simp

/-- **C34.** A composition that a history of calls produces is restored from its metadata: the State is
restored, exactly the composed models are composed, under consecutive new tokens, and `is_composite` is
true exactly when something is composed. -/
theorem C34_composite (hL : C.Lawful) (hord : ord.Lists) (h : CompReachable cfg ord beh s0 x)
    (hρ : ρ.Lists)
    {hookOrder : Dict Nat (NetCgpm (Option Row) (Val C) Ω) → Dict Nat (NetCgpm (Option Row) (Val C) Ω)}
    (ho : ∀ d, (hookOrder d).Perm d) :
    ∃ m x', x.toMetadata = .ok m ∧ Composite.fromMetadata cfg ord beh ρ hookOrder m = .ok x' ∧
      StateRestored x.st x'.st ∧ x'.hooked.vals.Perm x.hooked.vals ∧
      x'.hooked.keys = List.range' 57481 x.hooked.length ∧
      (x'.isComposite = true ↔ x.hooked ≠ []) := by
  have hx := h.cinv hL hord
  obtain ⟨specs, hm, -⟩ := toMetadata_ok hx.inv
  obtain ⟨s', h1, h2, h3, -⟩ := State.fromMetadata_ok hL hx.inv hρ hm
  set cs := (hookOrder x.hooked).vals with hcs
  have hp : cs.Perm x.hooked.vals := (ho x.hooked).map _
  have hout : ∀ c ∈ s'.outputs, c ∈ x.st.outputs := by rw [← h3.outputs]; exact fun c hc => hc
  have hwx : WellFormed x.hooked.vals := (hx.wellFormed beh).sub (List.sublist_append_right _ _)
  have hwc : WellFormed cs := wellFormed_perm hwx hp.symm
  have hvals : Dict.vals ((List.range cs.length).zip cs) = cs := by
    unfold Dict.vals
    rw [List.map_snd_zip (by simp)]
  have hkeys : Dict.keys ((List.range cs.length).zip cs) = List.range cs.length := by
    unfold Dict.keys
    rw [List.map_fst_zip (by simp)]
  have hy : CInv (⟨s', (List.range cs.length).zip cs, cs.length, true⟩ : Composite C Ω) := by
    refine ⟨h2, fun c hc => hx.names c (hout c hc), ?_, ?_, ?_, ?_, ?_, ?_⟩
    · show Dict.WF _
      unfold Dict.WF
      rw [hkeys]; exact List.nodup_range
    · show ∀ t ∈ Dict.keys _, _
      rw [hkeys]; exact fun t ht => List.mem_range.mp ht
    · show ∀ t ∈ Dict.vals _, _
      rw [hvals]; exact hwc.nonempty
    · show List.Pairwise _ (Dict.vals _)
      rw [hvals]
      exact (hp.pairwise_iff (fun {a b} hab v hv hv' => hab v hv' hv)).mpr hx.disj
    · show ∀ t ∈ Dict.vals _, _
      rw [hvals]
      exact fun c hc o hoo => ⟨fun hm => (hx.foreign c (hp.mem_iff.mp hc) o hoo).1 (hout o hm),
        (hx.foreign c (hp.mem_iff.mp hc) o hoo).2⟩
    · show ∀ i, ¬ Relation.TransGen (Feeds (Dict.vals _)) i i
      rw [hvals]; exact hwc.acyclic
  have hw := hy.wellFormed beh
  have hwn : WellFormed ((Composite.new s' : Composite C Ω).st.buildCgpms beh
      (Composite.new s' : Composite C Ω).hooked ++ cs) := by
    unfold State.buildCgpms at hw ⊢
    simp only at hw
    rw [hvals] at hw
    simpa [Composite.new, Dict.vals] using hw
  obtain ⟨z, g1, g2, g3, g4, g5⟩ := composeList_ok (cfg := cfg) (beh := beh) hL hord cs
    (cinv_new h2 fun c hc => hx.names c (hout c hc)) hwn
    (fun c hc o hoo => (hx.foreign c (hp.mem_iff.mp hc) o hoo).2)
  have hlen : cs.length = x.hooked.length := by rw [hp.length_eq]; simp [Dict.vals]
  refine ⟨_, z, by simp only [Composite.toMetadata, hm]; rfl, ?_, by rw [g2]; exact h3, ?_, ?_, ?_⟩
  · simp only [Composite.fromMetadata, h1]
    exact g1
  · rw [g3]; simpa [Composite.new, Dict.vals] using hp
  · rw [g4, hlen]; simp [Composite.new, Dict.keys]
  · unfold Composite.isComposite
    rw [g5]
    have : cs = [] ↔ x.hooked = [] := by
      rw [← List.length_eq_zero_iff, hlen, List.length_eq_zero_iff]
    cases hcc : cs <;> simp_all [Composite.new]

/-- **C34** violated: the tokens are not restored. After a model other than the last has been removed,
the token of some composed model no longer names it, and `decompose_cgpm` raises KeyError. -/
theorem C34_tokens_violated (hL : C.Lawful) (hord : ord.Lists) (h : CompReachable cfg ord beh s0 x)
    (hρ : ρ.Lists)
    {hookOrder : Dict Nat (NetCgpm (Option Row) (Val C) Ω) → Dict Nat (NetCgpm (Option Row) (Val C) Ω)}
    (ho : ∀ d, (hookOrder d).Perm d) {t : Nat} (ht : t ∈ x.hooked.keys)
    (hgap : 57481 + x.hooked.length ≤ t) :
    ∃ m x', x.toMetadata = .ok m ∧ Composite.fromMetadata cfg ord beh ρ hookOrder m = .ok x' ∧
      (∃ y, x.decompose cfg ord beh t = .ok y) ∧ x'.decompose cfg ord beh t = .err .keyError x' := by
  obtain ⟨m, x', h1, h2, h3, h4, h5, h6⟩ := C34_composite (beh := beh) hL hord h hρ ho
  refine ⟨m, x', h1, h2, ⟨_, (decompose_eq (cfg := cfg) (beh := beh) (h.cinv hL hord) hord t).1 ht⟩, ?_⟩
  unfold Composite.decompose
  rw [if_neg]
  rw [Dict.has_iff, h5, List.mem_range']
  rintro ⟨i, hi, e⟩
  omega

/-- **C34** violated: the flag is not restored. A State that says that it is composite because of a
conditional column says that it is not after the round trip. -/
theorem C34_flag_violated (hL : C.Lawful) (hord : ord.Lists) (h : CompReachable cfg ord beh s0 x)
    (hρ : ρ.Lists)
    {hookOrder : Dict Nat (NetCgpm (Option Row) (Val C) Ω) → Dict Nat (NetCgpm (Option Row) (Val C) Ω)}
    (ho : ∀ d, (hookOrder d).Perm d) (hh : x.hooked = []) (hc : x.isComposite = true) :
    ∃ m x', x.toMetadata = .ok m ∧ Composite.fromMetadata cfg ord beh ρ hookOrder m = .ok x' ∧
      StateRestored x.st x'.st ∧ x.isComposite ≠ x'.isComposite := by
  obtain ⟨m, x', h1, h2, h3, h4, h5, h6⟩ := C34_composite (beh := beh) hL hord h hρ ho
  refine ⟨m, x', h1, h2, h3, ?_⟩
  rw [hc]
  intro e
  exact h6.mp e.symm hh

/-! ### Engines -/

theorem metas_ok {l : List (State C)} (h : ∀ s ∈ l, Inv s) :
    ∃ ms, Engine.metas l = .ok ms ∧ List.Forall₂ (fun s m => s.toMetadata = .ok m) l ms := by
  induction l with
  | nil => exact ⟨[], rfl, .nil⟩
  | cons s t ih =>
    obtain ⟨ms, h1, h2⟩ := ih fun s hs => h s (by simp [hs])
    obtain ⟨specs, hm, -⟩ := toMetadata_ok (h s (by simp))
    exact ⟨_ :: ms, by simp [Engine.metas, hm, h1, Except.map], .cons hm h2⟩

theorem restore_go (hL : C.Lawful) {multi : Bool} {ρ : Nat → Restoring} (hρ : ∀ i, (ρ i).Lists)
    {X : List (List C.Cell)} {ys : List (StateMeta C)} {l : List (State C)} {ms : List (StateMeta C)}
    (h : List.Forall₂ (fun s m => s.toMetadata = .ok m) l ms) (hI : ∀ s ∈ l, Inv s)
    (hX : ∀ s ∈ l, s.dataArray = X) (i : Nat) :
    ∃ l', Engine.fromMetadata.go multi ρ (X, ys) i (ms.map fun m => { m with X := [] }) = .ok l' ∧
      List.Forall₂ StateRestored l l' := by
  induction h generalizing i with
  | nil => exact ⟨[], rfl, .nil⟩
  | cons hm _ ih =>
    rename_i s m l ms _
    obtain ⟨l', h1, h2⟩ := ih (fun s hs => hI s (by simp [hs])) (fun s hs => hX s (by simp [hs])) (i + 1)
    have hs := hI s (by simp)
    obtain ⟨s', g1, -, g3, -⟩ := State.fromMetadata_ok hL hs (hρ i) hm
    have hmX : { ({ m with X := [] } : StateMeta C) with X := X } = m := by
      obtain ⟨specs, hm', -⟩ := toMetadata_ok hs
      rw [hm] at hm'
      cases hm'
      rw [← hX s (by simp)]
    refine ⟨s' :: l', ?_, .cons g3 h2⟩
    simp only [List.map_cons, Engine.fromMetadata.go, h1]
    rw [hmX, g1]

/-- **C34.** An Engine whose states share the data is restored state by state, with one process or
several. -/
theorem C34_engine (hL : C.Lawful) (multi : Bool) {ρ : Nat → Restoring} (hρ : ∀ i, (ρ i).Lists)
    {e : Engine (State C)} (hne : e.states ≠ []) (h : ∀ s ∈ e.states, StateReachable cfg s)
    (hX : ∀ s ∈ e.states, ∀ s' ∈ e.states, s.X = s'.X) :
    ∃ m e', e.toMetadata = .ok m ∧ Engine.fromMetadata multi ρ m = .ok e' ∧
      List.Forall₂ StateRestored e.states e'.states := by
  have hI : ∀ s ∈ e.states, Inv s := fun s hs => (h s hs).inv hL
  obtain ⟨states⟩ := e
  obtain ⟨s, t, rfl⟩ := List.exists_cons_of_ne_nil hne
  obtain ⟨ms, h1, h2⟩ := metas_ok hI
  have hd : ∀ s' ∈ s :: t, s'.dataArray = s.dataArray := by
    intro s' hs'
    have e1 : s'.X = s.X := hX s' hs' s (by simp)
    have e2 : s'.outputs = s.outputs := by
      rw [← (hI s' hs').data.keys, ← (hI s (by simp)).data.keys, e1]
    unfold dataArray State.nRows
    rw [e1, e2]
  obtain ⟨l', g1, g2⟩ := restore_go (multi := multi) (X := s.dataArray)
    (ys := ms.map fun m => { m with X := [] }) hL hρ h2 hI hd 0
  exact ⟨_, ⟨l'⟩, by simp only [Engine.toMetadata, h1]; rfl,
    by simp only [Engine.fromMetadata, g1]; rfl, g2⟩

theorem columnsOf_length {rows : List (List C.Cell)} {o : List Col} {X : Dict Col (List C.Cell)}
    (h : columnsOf rows o = .ok X) (c : Col) (l : List C.Cell) (hl : X.get? c = some l) :
    l.length = rows.length := by
  unfold columnsOf at h
  cases rows with
  | nil => cases h
  | cons row rest =>
    simp only at h
    generalize (if o = [] then List.range row.length else o) = o' at h
    split at h
    · cases h
    · cases h
      have := Dict.get?_update_nil_mem hl
      obtain ⟨p, -, hp⟩ := List.mem_map.mp this
      cases hp
      simp

theorem fromMetadata_data {m : StateMeta C} {s : State C} (h : State.fromMetadata ρ m = .ok s) :
    columnsOf m.X m.outputs = .ok s.X := by
  unfold State.fromMetadata at h
  split at h
  · cases h
  · rename_i X hX
    simp only at h
    split at h
    · unfold withSchema at h
      split at h
      · cases h
      · split at h
        · cases h
        · unfold State.init at h
          simp only at h
          split at h
          · cases h
          · split at h
            · cases h
            · split at h
              · cases h
              · cases h; exact hX
    · cases h

theorem go_data {multi : Bool} {ρ : Nat → Restoring} {X : List (List C.Cell)}
    {ys ms : List (StateMeta C)} {l : List (State C)} {i : Nat}
    (h : Engine.fromMetadata.go multi ρ (X, ys) i ms = .ok l) :
    ∀ s ∈ l, ∀ c v, s.X.get? c = some v → v.length = X.length := by
  induction ms generalizing i l with
  | nil => cases h; intro s hs; cases hs
  | cons m ms ih =>
    unfold Engine.fromMetadata.go at h
    split at h
    · rename_i s ss h1 h2
      cases h
      intro s' hs'
      rcases List.mem_cons.mp hs' with rfl | hs'
      · exact columnsOf_length (fromMetadata_data h1)
      · exact ih h2 s' hs'
    · cases h
    · cases h

/-- **C34** violated: the metadata of an Engine keeps the data of the first state only. If some state
has another number of rows, the Engine is not restored. (Such Engines arise when a call that adds or
removes a row fails for some of the states, see C33_inplace_violated.) -/
theorem C34_engine_data_violated (hL : C.Lawful) {a b : State C} {t : List (State C)}
    (h : ∀ s ∈ a :: t, StateReachable cfg s) (hbt : b ∈ t) (hn : a.nRows ≠ b.nRows) :
    ∃ m, Engine.toMetadata ⟨a :: t⟩ = .ok m ∧ ∀ multi ρ e', Engine.fromMetadata multi ρ m = .ok e' →
      ¬ List.Forall₂ StateRestored (a :: t) e'.states := by
  have hI : ∀ s ∈ a :: t, Inv s := fun s hs => (h s hs).inv hL
  obtain ⟨ms, hms, -⟩ := metas_ok hI
  refine ⟨(a.dataArray, ms.map fun m => { m with X := [] }),
    by simp only [Engine.toMetadata, hms], fun multi ρ e' he hf => ?_⟩
  have hIb := hI b (by simp [hbt])
  obtain ⟨b', hb', hr⟩ : ∃ b' ∈ e'.states, StateRestored b b' := by
    have hmem : b ∈ a :: t := by simp [hbt]
    clear he hI hms h
    generalize a :: t = l at hf hmem
    generalize e'.states = l' at hf
    induction hf with
    | nil => cases hmem
    | cons h1 _ ih =>
      rcases List.mem_cons.mp hmem with rfl | hm'
      · exact ⟨_, by simp, h1⟩
      · obtain ⟨b', h2, h3⟩ := ih hm'
        exact ⟨b', by simp [h2], h3⟩
  unfold Engine.fromMetadata at he
  simp only at he
  cases hg : Engine.fromMetadata.go multi ρ (a.dataArray, ms.map fun m => { m with X := [] }) 0
      (ms.map fun m => { m with X := [] }) with
  | error er => rw [hg] at he; cases he
  | ok l =>
    rw [hg] at he
    cases he
    obtain ⟨c, hc⟩ := List.exists_mem_of_ne_nil _ hIb.data.ne
    obtain ⟨v, hv⟩ := (hIb.data.mem c).mp hc
    have h3 := hIb.data.len c v hv
    have h4 := go_data hg b' hb' c v (by rw [← hr.data]; exact hv)
    refine hn ?_
    rw [← h3, h4]
    simp [dataArray]

/-! ### The hypotheses are met -/

/-- Orders that are allowed: as they are listed, and views in reverse. -/
def demoRestoring : Restoring := ⟨id, fun l => l.dedup.reverse, fun _ => 1⟩

theorem demoRestoring_lists : demoRestoring.Lists :=
  ⟨fun _ => List.Perm.refl _, fun l => ⟨by simpa [demoRestoring] using List.nodup_dedup l,
    fun v => by simp [demoRestoring]⟩⟩

/-- A State with two views, two rows and a missing value, and an Engine with it and another State on
the same data. -/
example : ∃ s s' : State libCat, StateReachable plainCfg s ∧ StateReachable plainCfg s' ∧
    s.X = s'.X ∧ s.views.keys = [0, 1] ∧ s'.views.keys = [1, 2] ∧ demoRestoring.Lists := by
  obtain ⟨s, h1, -, h2, -, -, -, -, h3, -⟩ :=
    stateDemo_init (normal_remembered 0) normal_hyp (a := 0) (b := 1) (by decide) [] []
  obtain ⟨s', g1, -, g2, -, -, -, -, g3, -⟩ :=
    stateDemo_init (normal_remembered 0) normal_hyp (a := 1) (b := 2) (by decide) [] []
  exact ⟨s, s', h1, g1, by rw [h2, g2], h3, g3, demoRestoring_lists⟩

/-- Two States with two rows; from the second a row is removed. -/
example : ∃ a b : State libCat, StateReachable plainCfg a ∧ StateReachable plainCfg b ∧
    a.nRows ≠ b.nRows := by
  have hl := stateDemo_legal (normal_remembered 0) normal_hyp (a := 0) (b := 1) (by decide)
  obtain ⟨s, h1, h2, -, -, h5, -⟩ := init_ok [] [] (initOk_of hl)
  obtain ⟨s', g1, -, g3, -⟩ := h2.unincorporate_ok (catOf_lawful _) (n := 1) h5 one_pos
  have hr : s.run plainCfg [.unc 1] = s' := by
    simp only [State.run, List.foldl_cons, List.foldl_nil, State.apply, g1, Out.state]
  refine ⟨s, s', .of _ _ _ _ _ _ _ [] [] hl s h1 [] trivial, ?_, by rw [h5, g3]; decide⟩
  rw [← hr]
  exact .of _ _ _ _ _ _ _ [] [] hl s h1 [.unc 1] ⟨trivial, trivial⟩

/-- A view with the rows 0 and 1; then row 0 is removed. -/
example : ∃ (X : libCat.Tbl) (v w : View libCat), Reachable X v ∧ Contiguous v 2 ∧ Reachable X w ∧
    ∀ n, ¬ Contiguous w n := by
  let X : libCat.Tbl := fun _ _ => none
  let ops : List (View.Op libCat) := [.inc 0 [] (some 0) 0, .inc 1 [] (some 0) 0]
  have hv : View.run (X, (View.empty 1 : View libCat)) ops =
      (X, ⟨⟨1, 2, [(0, 0), (1, 0)], [(0, 2)]⟩, []⟩) := by
    simp [ops, View.run, View.apply, View.empty, View.incorporate, View.incorporateAt, Crp.init,
      Dict.has, Dict.get?, Crp.incorporate, Dict.set, View.incDims, Out.state]
  have hw : View.run (X, (View.empty 1 : View libCat)) (ops ++ [.unc 0]) =
      (X, ⟨⟨1, 1, [(1, 0)], [(0, 1)]⟩, []⟩) := by
    simp [ops, View.run, View.apply, View.empty, View.incorporate, View.incorporateAt, Crp.init,
      Dict.has, Dict.get?, Crp.incorporate, Dict.set, View.incDims, Out.state, View.unincorporate,
      View.uncDims, Crp.unincorporate, Dict.erase]
  have hl : ∀ v : View libCat, v.dims = [] → legal (X, v) (.inc 0 [] (some 0) 0) ∧
      legal (X, v) (.inc 1 [] (some 0) 0) := by
    intro v hv
    constructor <;> intro _ c d hd <;> rw [hv] at hd <;> cases hd
  have h1 : legalRun (X, (View.empty 1 : View libCat)) (ops ++ [.unc 0]) := by
    refine ⟨(hl _ rfl).1, (hl _ ?_).2, trivial, trivial⟩
    simp [View.apply, View.empty, View.incorporate, View.incorporateAt, Crp.init,
      Dict.has, Dict.get?, Crp.incorporate, Dict.set, View.incDims, Out.state]
  have h0 : legalRun (X, (View.empty 1 : View libCat)) ops := ⟨h1.1, h1.2.1, trivial⟩
  have r1 := Reachable.of X 1 one_pos _ h0
  have r2 := Reachable.of X 1 one_pos _ h1
  rw [hv] at r1
  rw [hw] at r2
  refine ⟨X, _, _, r1, ?_, r2, ?_⟩
  · intro r
    rcases r with _ | _ | r <;> simp [View.seat, Dict.get?]
  · intro n hn
    have a0 := hn 0
    have a1 := hn 1
    have h1 : 1 < n := a1.mp (by simp [View.seat, Dict.get?])
    have h0 : 0 < n := by omega
    exact a0.mpr h0 (by simp [View.seat, Dict.get?])

/-- A composition from which the first of two models was removed. -/
example : ∃ s : State libCat, ∃ x : Composite libCat Unit,
    CompReachable plainCfg idOrder noBehaviour s x ∧ 57482 ∈ x.hooked.keys ∧
    57481 + x.hooked.length ≤ 57482 := by
  obtain ⟨s, x, h1, h2, -⟩ := compDemo
  refine ⟨s, x, h1, by simp [h2], ?_⟩
  have : x.hooked.length = x.hooked.keys.length := by simp [Dict.keys]
  rw [this, h2]
  simp

/-- A State with a conditional column, to which a model was composed and removed. -/
example : ∃ (cfg : Cfg libCat) (s : State libCat) (x : Composite libCat Unit),
    CompReachable cfg idOrder noBehaviour s x ∧ x.hooked = [] ∧ x.isComposite = true := by
  have hl := stateDemo_legal (normal_remembered 0) normal_hyp (a := 0) (b := 1) (by decide)
  obtain ⟨s, h1, h2, h3, h4, -⟩ := init_ok [] [] (initOk_of hl)
  have ho : s.outputs = [0, 1] := h4
  have hn : ∀ c ∈ s.outputs, c < 10 ^ 7 := by rw [ho]; simp
  let cfg : Cfg libCat := ⟨fun _ => true, fun _ => true⟩
  have hlegal : compLegalRun cfg idOrder noBehaviour (.new s)
      [.compose (foreignModel [7] [0]), .decompose 57481] :=
    ⟨by simp [compLegal, foreignModel], trivial, trivial⟩
  have hc0 : CInv (Composite.new s : Composite libCat Unit) := cinv_new h2 hn
  have hw : WellFormed ((Composite.new s : Composite libCat Unit).st.buildCgpms noBehaviour
      (Composite.new s : Composite libCat Unit).hooked ++ [foreignModel [7] [0]]) := by
    have := h2.wellFormed noBehaviour (hooked := [(0, foreignModel [7] [0])]) id hn
      (by simp [foreignModel, Dict.vals]) (by simp [Dict.vals])
      (by simp [foreignModel, Dict.vals, ho]) (by simp [foreignModel, Dict.vals])
    simpa [State.buildCgpms, Dict.vals, Composite.new] using this
  have e1 := (compose_eq (cfg := cfg) (beh := noBehaviour) hc0 idOrder_lists _).1 hw
  have hc1 := (cinv_apply (beh := noBehaviour) (cfg := cfg) (catOf_lawful fun _ => True) idOrder_lists
    hc0 _ hlegal.1).1
  have a1 : (Composite.new s : Composite libCat Unit).apply cfg idOrder noBehaviour
      (.compose (foreignModel [7] [0])) = ⟨s, [(57481, foreignModel [7] [0])], 57482, true⟩ := by
    simp only [Composite.apply, e1, Res.state_ok]; rfl
  rw [a1] at hc1
  have e2 := (decompose_eq (cfg := cfg) (beh := noBehaviour) hc1 idOrder_lists 57481).1 (by
    simp [Dict.keys])
  have hx : Composite.run cfg idOrder noBehaviour (.new s)
      [.compose (foreignModel [7] [0]), .decompose 57481] =
      Composite.updateIsComposite cfg ⟨s, [], 57482, true⟩ := by
    simp only [Composite.run, List.foldl_cons, List.foldl_nil, a1]
    simp only [Composite.apply, e2, Out.state]
    rfl
  refine ⟨cfg, s, _, CompReachable.of _ _ _ _ _ _ _ [] [] hl (by rw [← h4]; exact hn) h1 _ hlegal, ?_⟩
  rw [hx]
  refine ⟨rfl, ?_⟩
  have hm : (0 : Col) ∈ s.outputs := by rw [ho]; simp
  obtain ⟨v, view, d, g1, g2, g3, g4, -⟩ := h2.dim hm
  show (!([] : List (Nat × NetCgpm (Option Row) (Val libCat) Unit)).isEmpty ||
    s.anyConditional cfg) = true
  rw [Bool.or_eq_true]
  exact .inr (anyConditional_iff.mpr ⟨0, hm, d, g4, rfl⟩)

end Cgpm.Props
