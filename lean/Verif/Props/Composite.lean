import Verif.Spec.Composite
import Verif.Lemmas.Composite
import Verif.Props.StateQuery
import Verif.Lemmas.StateDemo

/-! Property C43: composition with foreign models is transactional. -/
namespace Cgpm.Props
open Cgpm Cgpm.Net Cgpm.State
variable {C : Cat} {Ω : Type} {cfg : Cfg C} {ord : PyOrder} {beh : ViewBehaviour C Ω}
  {s0 : State C} {x : Composite C Ω}

/-! ### The invariant -/

/-- The invariant of a composition. -/
structure CInv (x : Composite C Ω) : Prop where
  inv : Inv x.st
  names : ∀ c ∈ x.st.outputs, c < 10 ^ 7
  wf : x.hooked.WF
  fresh : ∀ t ∈ x.hooked.keys, t < x.next
  ne : ∀ c ∈ x.hooked.vals, c.outputs ≠ []
  disj : x.hooked.vals.Pairwise fun a b => ∀ v ∈ a.outputs, v ∉ b.outputs
  foreign : ∀ c ∈ x.hooked.vals, ∀ o ∈ c.outputs, o ∉ x.st.outputs ∧ o < 10 ^ 7
  acyclic : ∀ i, ¬ Relation.TransGen (Feeds x.hooked.vals) i i

theorem CInv.wellFormed (h : CInv x) (beh : ViewBehaviour C Ω) :
    WellFormed (x.st.buildCgpms beh x.hooked) := by
  have hv := (validate_ok_iff _).mp (h.inv.validated beh h.names h.ne h.disj h.foreign)
  refine ⟨hv.1, hv.2, acyclic_append (fun c hc => ?_) h.acyclic⟩
  obtain ⟨p, -, rfl⟩ := List.mem_map.mp hc
  rfl

theorem hooked_add (h : CInv x) (c : NetCgpm (Option Row) (Val C) Ω) :
    x.hooked.set x.next c = x.hooked ++ [(x.next, c)] :=
  Dict.set_of_not_mem c ((Dict.get?_eq_none_iff _ _).mpr fun hm => absurd (h.fresh _ hm) (by omega))

theorem erase_sublist {K S : Type} [DecidableEq K] (d : Dict K S) (t : K) :
    (d.erase t).Sublist d := by
  induction d with
  | nil => exact List.Sublist.refl _
  | cons p d ih =>
    obtain ⟨k, v⟩ := p
    unfold Dict.erase
    split
    · exact ih.trans (List.sublist_cons_self _ _)
    · exact ih.cons_cons _

theorem hooked_drop (h : CInv x) (c : NetCgpm (Option Row) (Val C) Ω) :
    (x.hooked.set x.next c).erase x.next = x.hooked := by
  exact Dict.erase_set_of_not_mem c
    ((Dict.get?_eq_none_iff _ _).mpr fun hm => absurd (h.fresh _ hm) (by omega))

theorem build_add (h : CInv x) (c : NetCgpm (Option Row) (Val C) Ω) :
    x.st.buildCgpms beh (x.hooked.set x.next c) = x.st.buildCgpms beh x.hooked ++ [c] := by
  rw [hooked_add h]
  simp [State.buildCgpms, Dict.vals]

/-- What `compose` does. -/
theorem compose_eq (h : CInv x) (hord : ord.Lists) (c : NetCgpm (Option Row) (Val C) Ω) :
    (WellFormed (x.st.buildCgpms beh x.hooked ++ [c]) → x.compose cfg ord beh c = .ok x.next
      ⟨x.st, x.hooked ++ [(x.next, c)], x.next + 1, true⟩) ∧
    (¬ WellFormed (x.st.buildCgpms beh x.hooked ++ [c]) → x.compose cfg ord beh c =
      .err .valueError ⟨x.st, x.hooked, x.next + 1, x.composite⟩) := by
  have hb := C26_accepted_iff ord hord (x.st.buildCgpms beh x.hooked ++ [c]) (some 1)
  constructor
  · intro hw
    obtain ⟨net, hn⟩ := hb.1 hw
    unfold Composite.compose Composite.buildNetwork
    simp only [build_add h, hn]
    unfold Composite.updateIsComposite
    simp only [hooked_add h]
    congr 2
    simp
  · intro hw
    have hn := hb.2 hw
    unfold Composite.compose Composite.buildNetwork
    simp only [build_add h, hn, hooked_drop h]

theorem vals_erase_sublist {S : Type} (d : Dict Nat S) (t : Nat) :
    (d.erase t).vals.Sublist d.vals := by
  exact (erase_sublist d t).map _

/-- What `decompose` does. -/
theorem decompose_eq (h : CInv x) (hord : ord.Lists) (t : Nat) :
    (t ∈ x.hooked.keys → x.decompose cfg ord beh t = .ok
      (Composite.updateIsComposite cfg { x with hooked := x.hooked.erase t })) ∧
    (t ∉ x.hooked.keys → x.decompose cfg ord beh t = .err .keyError x) := by
  constructor
  · intro ht
    have h1 : x.hooked.has t = true := (Dict.has_iff _ _).mpr ht
    have hw : WellFormed (x.st.buildCgpms beh (x.hooked.erase t)) :=
      (h.wellFormed beh).sub (List.Sublist.append_left (vals_erase_sublist _ _) _)
    obtain ⟨net, hn⟩ := (C26_accepted_iff ord hord _ (some 1)).1 hw
    unfold Composite.decompose Composite.buildNetwork
    rw [if_pos h1]
    simp only [Composite.updateIsComposite, hn]
  · intro ht
    unfold Composite.decompose
    rw [if_neg fun hh => ht ((Dict.has_iff _ _).mp hh)]

theorem not_column_of_wf (h : CInv x) {c : NetCgpm (Option Row) (Val C) Ω}
    (hw : WellFormed (x.st.buildCgpms beh x.hooked ++ [c])) {o : Nat} (ho : o ∈ c.outputs) :
    o ∉ x.st.outputs := by
  intro hin
  obtain ⟨v, hz⟩ := Option.ne_none_iff_exists'.mp ((h.inv.cols o).mpr hin)
  obtain ⟨view, -, g1, g2⟩ := h.inv.produced beh x.hooked hz
  obtain ⟨i, hi⟩ := List.mem_iff_getElem?.mp g1
  have hi' : i < (x.st.buildCgpms beh x.hooked).length := (List.getElem?_eq_some_iff.mp hi).1
  have := hw.unique i (x.st.buildCgpms beh x.hooked).length (viewCgpm beh v view) c
    (by rw [List.getElem?_append_left hi']; exact hi) (by simp) o g2 ho
  omega

theorem cinv_apply (hL : C.Lawful) (hord : ord.Lists) (h : CInv x) (op : Composite.Op C Ω)
    (hl : compLegal cfg x op) : CInv (x.apply cfg ord beh op) ∧ x.next ≤ (x.apply cfg ord beh op).next := by
  cases op with
  | compose c =>
    by_cases hw : WellFormed (x.st.buildCgpms beh x.hooked ++ [c])
    · simp only [Composite.apply, (compose_eq (cfg := cfg) h hord c).1 hw, Res.state_ok]
      have hv : Dict.vals (x.hooked ++ [(x.next, c)]) = x.hooked.vals ++ [c] := by simp [Dict.vals]
      have hk : Dict.keys (x.hooked ++ [(x.next, c)]) = x.hooked.keys ++ [x.next] := by
        simp [Dict.keys]
      have hsub : WellFormed (x.hooked.vals ++ [c]) := hw.sub (by
        unfold State.buildCgpms
        rw [List.append_assoc]
        exact List.sublist_append_right _ _)
      have hpair : (x.hooked.vals ++ [c]).Pairwise fun a b => ∀ v ∈ a.outputs, v ∉ b.outputs := by
        rw [List.pairwise_iff_getElem]
        intro i j hi hj hij v h1 h2
        have := hsub.unique i j _ _ (List.getElem?_eq_getElem hi) (List.getElem?_eq_getElem hj) v h1 h2
        omega
      refine ⟨⟨h.inv, h.names, ?_, ?_, ?_, ?_, ?_, ?_⟩, Nat.le_succ _⟩
      · rw [← hooked_add h]; exact Dict.wf_set h.wf _ _
      · intro t ht
        have ht' : t ∈ x.hooked.keys ++ [x.next] := hk ▸ ht
        show t < x.next + 1
        rcases List.mem_append.mp ht' with h1 | h1
        · exact Nat.lt_succ_of_lt (h.fresh t h1)
        · rw [List.mem_singleton] at h1; omega
      · show ∀ c' ∈ Dict.vals (x.hooked ++ [(x.next, c)]), _
        rw [hv]; exact hsub.nonempty
      · show (Dict.vals (x.hooked ++ [(x.next, c)])).Pairwise _
        rw [hv]; exact hpair
      · show ∀ c' ∈ Dict.vals (x.hooked ++ [(x.next, c)]), _
        rw [hv]
        intro c' hc' o ho
        rcases List.mem_append.mp hc' with h1 | h1
        · exact h.foreign c' h1 o ho
        · rw [List.mem_singleton] at h1
          subst h1
          refine ⟨fun hin => ?_, hl o ho⟩
          exact not_column_of_wf h hw ho hin
      · show ∀ i, ¬ Relation.TransGen (Feeds (Dict.vals (x.hooked ++ [(x.next, c)]))) i i
        rw [hv]; exact hsub.acyclic
    · simp only [Composite.apply, (compose_eq (cfg := cfg) h hord c).2 hw, Res.state_err]
      exact ⟨⟨h.inv, h.names, h.wf, fun t ht => Nat.lt_succ_of_lt (h.fresh t ht), h.ne, h.disj,
        h.foreign, h.acyclic⟩, Nat.le_succ _⟩
  | decompose t =>
    by_cases ht : t ∈ x.hooked.keys
    · simp only [Composite.apply, (decompose_eq (cfg := cfg) (beh := beh) h hord t).1 ht, Out.state]
      have hs := vals_erase_sublist x.hooked t
      refine ⟨⟨h.inv, h.names, Dict.wf_erase h.wf _, fun t' ht' => ?_, fun c hc => h.ne c (hs.subset hc),
        h.disj.sublist hs, fun c hc => h.foreign c (hs.subset hc), ?_⟩, le_refl _⟩
      · have : t' ∈ (x.hooked.erase t).keys := ht'
        exact h.fresh t' (((erase_sublist x.hooked t).map _).subset this)
      · have hw : WellFormed x.hooked.vals := (h.wellFormed (beh := beh)).sub (List.sublist_append_right _ _)
        exact (hw.sub hs).acyclic
    · simp only [Composite.apply, (decompose_eq (cfg := cfg) (beh := beh) h hord t).2 ht, Out.state]
      exact ⟨h, le_refl _⟩
  | state op =>
    have hst : ((x.onState cfg op).state).st = (x.st.apply cfg op).state ∧
        ((x.onState cfg op).state).hooked = x.hooked ∧ ((x.onState cfg op).state).next = x.next := by
      unfold Composite.onState
      cases x.st.apply cfg op with
      | err e s => exact ⟨rfl, rfl, rfl⟩
      | ok s => simp only [Out.state]; split <;> exact ⟨rfl, rfl, rfl⟩
    obtain ⟨e1, e2, e3⟩ := hst
    have hc : ∀ c ∈ (x.st.apply cfg op).state.outputs, c ∈ x.st.outputs ∨
        c < 10 ^ 7 ∧ ∀ c' ∈ x.hooked.vals, c ∉ c'.outputs := fun c hc =>
      (outputs_apply hL h.inv hl.1 hc).imp id fun ⟨T, kind, v, ω, e⟩ => hl.2 T c kind v ω e
    refine ⟨⟨?_, ?_, ?_, ?_, ?_, ?_, ?_, ?_⟩, ?_⟩ <;> simp only [Composite.apply, e1, e2, e3]
    · exact inv_apply hL h.inv op hl.1
    · exact fun c hc' => (hc c hc').elim (h.names c) fun h => h.1
    · exact h.wf
    · exact h.fresh
    · exact h.ne
    · exact h.disj
    · exact fun c hc' o ho => ⟨fun hin => (hc o hin).elim (h.foreign c hc' o ho).1
        fun hh => hh.2 c hc' ho, (h.foreign c hc' o ho).2⟩
    · exact h.acyclic
    · exact le_refl _

theorem cinv_run (hL : C.Lawful) (hord : ord.Lists) (h : CInv x) {ops : List (Composite.Op C Ω)}
    (hl : compLegalRun cfg ord beh x ops) : CInv (x.run cfg ord beh ops) := by
  induction ops generalizing x with
  | nil => exact h
  | cons op ops ih => exact ih (cinv_apply hL hord h op hl.1).1 hl.2

theorem cinv_new {s : State C} (h : Inv s) (hn : ∀ c ∈ s.outputs, c < 10 ^ 7) :
    CInv (Composite.new s : Composite C Ω) where
  inv := h
  names := hn
  wf := Dict.wf_nil
  fresh := by intro t ht; cases ht
  ne := by intro t ht; cases ht
  disj := List.Pairwise.nil
  foreign := by intro t ht; cases ht
  acyclic := by
    intro i hi
    cases hi with
    | single h1 => obtain ⟨a, b, ha, -⟩ := h1; cases ha
    | tail _ h1 => obtain ⟨a, b, ha, -⟩ := h1; cases ha

theorem CompReachable.cinv (hL : C.Lawful) (hord : ord.Lists)
    (h : CompReachable cfg ord beh s0 x) : CInv x := by
  obtain ⟨X, n, schema, alpha, Zv, order, rows, Cd, Ci, hi, hX, hs, ops, hl⟩ := h
  obtain ⟨s, h1, h2, h3, h4, -⟩ := init_ok Cd Ci (initOk_of hi)
  rw [hs] at h1; cases h1
  exact cinv_run hL hord (cinv_new h2 (by rw [h4]; exact hX)) hl

theorem somethingComposed_iff (x : Composite C Ω) :
    (!x.hooked.isEmpty || x.st.anyConditional cfg) = true ↔ SomethingComposed cfg x := by
  unfold SomethingComposed
  rw [Bool.or_eq_true, anyConditional_iff]
  constructor
  · rintro (h | ⟨c, h1, d, h2, h3⟩)
    · exact .inl (by simpa using h)
    · exact .inr ⟨c, d, h1, h2, h3⟩
  · rintro (h | ⟨c, d, h1, h2, h3⟩)
    · exact .inl (by simpa using h)
    · exact .inr ⟨c, h1, d, h2, h3⟩

/-! ### C43 -/

/-- **C43.** `compose_cgpm` accepts a model exactly when the network of the views, the models
composed before and the new one is well formed: then it returns a token and adds the model under it.
Otherwise it raises ValueError and leaves the State, the composition and `is_composite` as they
were. -/
theorem C43_compose (hL : C.Lawful) (hord : ord.Lists) (h : CompReachable cfg ord beh s0 x)
    (c : NetCgpm (Option Row) (Val C) Ω) :
    (WellFormed (x.st.buildCgpms beh x.hooked ++ [c]) → ∃ t x', x.compose cfg ord beh c = .ok t x' ∧
      t ∉ x.hooked.keys ∧ x'.st = x.st ∧ x'.hooked = x.hooked ++ [(t, c)] ∧ x'.isComposite = true) ∧
    (¬ WellFormed (x.st.buildCgpms beh x.hooked ++ [c]) →
      ∃ x', x.compose cfg ord beh c = .err .valueError x' ∧ x'.st = x.st ∧ x'.hooked = x.hooked ∧
        x'.isComposite = x.isComposite) := by
  have hc := compose_eq (cfg := cfg) (beh := beh) (h.cinv hL hord) hord c
  exact ⟨fun hw => ⟨x.next, _, hc.1 hw, fun hm => absurd ((h.cinv hL hord).fresh _ hm) (by omega),
    rfl, rfl, rfl⟩, fun hw => ⟨_, hc.2 hw, rfl, rfl, rfl⟩⟩

/-- **C43.** Hence a refused composition does not change the answer to any query. -/
theorem C43_refused_answers (hL : C.Lawful) (hord : ord.Lists)
    (h : CompReachable cfg ord beh s0 x) {c : NetCgpm (Option Row) (Val C) Ω} {e : Exn}
    {x' : Composite C Ω} (he : x.compose cfg ord beh c = .err e x') (close : C.V → C.V → Bool)
    (ωj ωm : Nat → Nat → Ω) (rowid : Option Row) (targets constraints inputs : Dict Col C.Cell)
    (accuracy : Option Nat) :
    x'.logpdf close ord beh ωj ωm rowid targets constraints inputs accuracy =
      x.logpdf close ord beh ωj ωm rowid targets constraints inputs accuracy := by
  have hc := C43_compose hL hord h c
  by_cases hw : WellFormed (x.st.buildCgpms beh x.hooked ++ [c])
  · obtain ⟨t, y, h1, -⟩ := hc.1 hw
    rw [he] at h1; cases h1
  · obtain ⟨y, h1, h2, h3, h4⟩ := hc.2 hw
    rw [he] at h1; cases h1
    have h4' : x'.composite = x.composite := h4
    unfold Composite.logpdf
    rw [h2, h3, h4']

/-- **C43.** The tokens returned in a history increase: no token is returned twice. -/
theorem C43_tokens (hL : C.Lawful) (hord : ord.Lists) (h : CompReachable cfg ord beh s0 x)
    (ops : List (Composite.Op C Ω)) (hl : compLegalRun cfg ord beh x ops) :
    (x.tokens cfg ord beh ops).Pairwise (· < ·) ∧
    ∀ t ∈ x.tokens cfg ord beh ops, ∀ t' ∈ x.hooked.keys, t' < t := by
  have key : ∀ (ops : List (Composite.Op C Ω)) (x : Composite C Ω), CInv x →
      compLegalRun cfg ord beh x ops → (x.tokens cfg ord beh ops).Pairwise (· < ·) ∧
      ∀ t ∈ x.tokens cfg ord beh ops, x.next ≤ t := by
    intro ops
    induction ops with
    | nil => exact fun x _ _ => ⟨List.Pairwise.nil, by intro t ht; cases ht⟩
    | cons op ops ih =>
      intro x hi hl
      obtain ⟨h1, h2⟩ := cinv_apply (beh := beh) hL hord hi op hl.1
      obtain ⟨h3, h4⟩ := ih _ h1 hl.2
      cases op with
      | compose c =>
        by_cases hw : WellFormed (x.st.buildCgpms beh x.hooked ++ [c])
        · have hc := (compose_eq (cfg := cfg) (beh := beh) hi hord c).1 hw
          have hnext : (x.apply cfg ord beh (.compose c)).next = x.next + 1 := by
            simp only [Composite.apply, hc, Res.state_ok]
          rw [hnext] at h4
          have e : x.tokens cfg ord beh (.compose c :: ops) =
              x.next :: (x.apply cfg ord beh (.compose c)).tokens cfg ord beh ops := by
            simp only [Composite.tokens, hc]
          rw [e]
          refine ⟨List.pairwise_cons.mpr ⟨fun t ht => h4 t ht, h3⟩, fun t ht => ?_⟩
          rcases List.mem_cons.mp ht with rfl | ht
          · exact le_refl _
          · exact Nat.le_of_succ_le (h4 t ht)
        · have hc := (compose_eq (cfg := cfg) (beh := beh) hi hord c).2 hw
          have e : x.tokens cfg ord beh (.compose c :: ops) =
              (x.apply cfg ord beh (.compose c)).tokens cfg ord beh ops := by
            simp only [Composite.tokens, hc]
          rw [e]
          exact ⟨h3, fun t ht => le_trans h2 (h4 t ht)⟩
      | decompose t0 => exact ⟨h3, fun t ht => le_trans h2 (h4 t ht)⟩
      | state op => exact ⟨h3, fun t ht => le_trans h2 (h4 t ht)⟩
  obtain ⟨h1, h2⟩ := key ops x (h.cinv hL hord) hl
  exact ⟨h1, fun t ht t' ht' => lt_of_lt_of_le ((h.cinv hL hord).fresh t' ht') (h2 t ht)⟩

/-- **C43.** `decompose_cgpm` of the token of a composed model removes exactly that model; of any
other token it raises KeyError and changes nothing. -/
theorem C43_decompose (hL : C.Lawful) (hord : ord.Lists) (h : CompReachable cfg ord beh s0 x)
    (t : Nat) :
    (t ∈ x.hooked.keys → ∃ x', x.decompose cfg ord beh t = .ok x' ∧ x'.st = x.st ∧
      (∀ t', x'.hooked.get? t' = if t' = t then none else x.hooked.get? t') ∧
      (x'.isComposite = true ↔ SomethingComposed cfg x')) ∧
    (t ∉ x.hooked.keys → x.decompose cfg ord beh t = .err .keyError x) := by
  have hd := decompose_eq (cfg := cfg) (beh := beh) (h.cinv hL hord) hord t
  refine ⟨fun ht => ⟨_, hd.1 ht, rfl, fun t' => ?_, ?_⟩, hd.2⟩
  · show (x.hooked.erase t).get? t' = _
    exact Dict.get?_erase _ _ _
  · exact somethingComposed_iff _

/-- **C43.** Composing a model and removing it restores the composition; `is_composite` then says
whether something is composed. -/
theorem C43_restore (hL : C.Lawful) (hord : ord.Lists) (h : CompReachable cfg ord beh s0 x)
    {c : NetCgpm (Option Row) (Val C) Ω} {t : Nat} {x' : Composite C Ω}
    (hc : x.compose cfg ord beh c = .ok t x') :
    ∃ x'', x'.decompose cfg ord beh t = .ok x'' ∧ x''.st = x.st ∧ x''.hooked = x.hooked ∧
      (x''.isComposite = true ↔ SomethingComposed cfg x) := by
  have hI := h.cinv hL hord
  by_cases hw : WellFormed (x.st.buildCgpms beh x.hooked ++ [c])
  · have he := (compose_eq (cfg := cfg) (beh := beh) hI hord c).1 hw
    rw [hc] at he
    cases he
    have hwf := hI.wellFormed beh
    obtain ⟨net, hn⟩ := (C26_accepted_iff ord hord _ (some 1)).1 hwf
    have e : Dict.erase (x.hooked ++ [(x.next, c)]) x.next = x.hooked := by
      rw [← hooked_add hI, hooked_drop hI]
    refine ⟨Composite.updateIsComposite cfg ⟨x.st, x.hooked, x.next + 1, true⟩, ?_, rfl, rfl,
      somethingComposed_iff _⟩
    have hh : Dict.has (x.hooked ++ [(x.next, c)]) x.next = true := by
      rw [Dict.has_iff]; simp [Dict.keys]
    unfold Composite.decompose Composite.buildNetwork
    simp only [hh, if_true, e, Composite.updateIsComposite, hn]
  · rw [(compose_eq (cfg := cfg) (beh := beh) hI hord c).2 hw] at hc
    cases hc

/-- **C43.** In every history of legal calls the network of the composition stays well formed, so
no query fails for want of a network. -/
theorem C43_network (hL : C.Lawful) (hord : ord.Lists) (h : CompReachable cfg ord beh s0 x) :
    ∃ net, x.buildNetwork ord beh = .ok net :=
  (C26_accepted_iff ord hord _ (some 1)).1 ((h.cinv hL hord).wellFormed beh)

/-- **C43 (partial).** For a State constructed without conditional columns, after every history
`is_composite` is true exactly when something is composed or some column is conditional.  Missing:
States constructed with conditional columns, see C43_flag_violated. -/
theorem C43_flag_partial (hL : C.Lawful) (hord : ord.Lists) (h : CompReachable cfg ord beh s0 x)
    (h0 : ∀ c d, s0.dimFor c = .ok d → cfg.conditional d.kind = false) :
    x.isComposite = true ↔ SomethingComposed cfg x := by
  have key : ∀ (ops : List (Composite.Op C Ω)) (x : Composite C Ω), CInv x →
      compLegalRun cfg ord beh x ops →
      x.composite = (!x.hooked.isEmpty || x.st.anyConditional cfg) →
      (x.run cfg ord beh ops).composite = (!(x.run cfg ord beh ops).hooked.isEmpty ||
        (x.run cfg ord beh ops).st.anyConditional cfg) := by
    intro ops
    induction ops with
    | nil => exact fun x _ _ hf => hf
    | cons op ops ih =>
      intro x hi hl hf
      refine ih _ (cinv_apply (beh := beh) hL hord hi op hl.1).1 hl.2 ?_
      cases op with
      | compose c =>
        by_cases hw : WellFormed (x.st.buildCgpms beh x.hooked ++ [c])
        · simp only [Composite.apply, (compose_eq (cfg := cfg) (beh := beh) hi hord c).1 hw,
            Res.state_ok]
          simp
        · simp only [Composite.apply, (compose_eq (cfg := cfg) (beh := beh) hi hord c).2 hw,
            Res.state_err]
          exact hf
      | decompose t =>
        by_cases ht : t ∈ x.hooked.keys
        · simp only [Composite.apply, (decompose_eq (cfg := cfg) (beh := beh) hi hord t).1 ht,
            Out.state]
          rfl
        · simp only [Composite.apply, (decompose_eq (cfg := cfg) (beh := beh) hi hord t).2 ht,
            Out.state]
          exact hf
      | state op =>
        simp only [Composite.apply, Composite.onState]
        cases ha : x.st.apply cfg op with
        | err e s =>
          simp only [Out.state]
          rw [refused_conditional hL hi.inv hl.1.1 ha]
          exact hf
        | ok s =>
          simp only [Out.state]
          split
          · rfl
          · rename_i hr
            have hst := steady_apply hL hi.inv hl.1.1 (Bool.eq_false_iff.mpr hr)
            have hI' := inv_apply hL hi.inv op hl.1.1
            rw [ha] at hst hI'
            show x.composite = (!x.hooked.isEmpty || s.anyConditional cfg)
            have e : s.anyConditional cfg = x.st.anyConditional cfg :=
              hst.anyConditional hi.inv hI' cfg
            rw [e]
            exact hf
  obtain ⟨X, n, schema, alpha, Zv, order, rows, Cd, Ci, hi, hX, hs, ops, hl⟩ := h
  obtain ⟨s, h1, h2, h3, h4, -⟩ := init_ok Cd Ci (initOk_of hi)
  rw [hs] at h1; cases h1
  rw [← somethingComposed_iff]
  unfold Composite.isComposite
  rw [key ops _ (cinv_new h2 (by rw [h4]; exact hX)) hl]
  show false = (!([] : Dict Nat (NetCgpm (Option Row) (Val C) Ω)).isEmpty || s0.anyConditional cfg)
  have : s0.anyConditional cfg = false := by
    rw [Bool.eq_false_iff]
    intro hh
    obtain ⟨c, -, d, hd, hk⟩ := anyConditional_iff.mp hh
    rw [h0 c d hd] at hk; cases hk
  rw [this]
  rfl

/-- **C43** violated: a State constructed with a conditional column says that it is not composite,
until the next call that refreshes the flag. -/
theorem C43_flag_violated {X : Dict Col (List C.Cell)} {n : Nat} {schema : Col → State.ColSpec C}
    {alpha : ℝ} {Zv : Dict Col Nat} {order : List Nat} {rows : Nat → ℝ × List Tab} {Cd : Blocks}
    {Ci : Pairs} (h : LegalInit X n schema alpha Zv order rows)
    (hs : State.init X schema alpha Zv order rows Cd Ci = .ok s0)
    (hc : ∃ c ∈ X.keys, cfg.conditional (schema c).kind = true) :
    (Composite.new s0 : Composite C Ω).isComposite = false ∧
      SomethingComposed cfg (Composite.new s0 : Composite C Ω) := by
  refine ⟨rfl, .inr ?_⟩
  obtain ⟨s, h1, h2, h3, h4, h5, h6, h7, h8, h9, h10, h11⟩ := init_ok Cd Ci (initOk_of h)
  rw [hs] at h1; cases h1
  obtain ⟨c, hc1, hc2⟩ := hc
  have hc' : c ∈ s0.outputs := h4 ▸ hc1
  obtain ⟨v, view, d, g1, g2, g3, g4, -⟩ := h2.dim hc'
  refine ⟨c, d, hc', g4, ?_⟩
  rw [((h11 v view g2).2.2 c d g3).kind]
  exact hc2

/-- The hypotheses are met: a State with two views, to which two models are composed and one of them
removed; then a third model that reads both kinds of variables is acceptable, and one that produces a
column of the State, one that reads what it produces, and one that closes a cycle are not. -/
theorem compDemo : ∃ s : State libCat, ∃ x : Composite libCat Unit,
    CompReachable plainCfg idOrder noBehaviour s x ∧ x.hooked.keys = [57482] ∧
    (∀ c d, s.dimFor c = .ok d → plainCfg.conditional d.kind = false) ∧
    WellFormed (x.st.buildCgpms noBehaviour x.hooked ++ [foreignModel [7] [0, 8]]) ∧
    ¬ WellFormed (x.st.buildCgpms noBehaviour x.hooked ++ [foreignModel [1] []]) ∧
    ¬ WellFormed (x.st.buildCgpms noBehaviour x.hooked ++ [foreignModel [7] [7]]) ∧
    ¬ WellFormed (x.st.buildCgpms noBehaviour x.hooked ++ [foreignModel [9] [8]]) := by
  have hl := stateDemo_legal (normal_remembered 0) normal_hyp (a := 0) (b := 1) (by decide)
  obtain ⟨s, h1, h2, h3, h4, -⟩ := init_ok [] [] (initOk_of hl)
  have ho : s.outputs = [0, 1] := h4
  have hn : ∀ c ∈ s.outputs, c < 10 ^ 7 := by rw [ho]; simp
  have hlegal : compLegalRun plainCfg idOrder noBehaviour (.new s)
      [.compose (foreignModel [7] [0]), .compose (foreignModel [8] [1, 9]), .decompose 57481] :=
    ⟨by simp [compLegal, foreignModel], by simp [compLegal, foreignModel], trivial, trivial⟩
  have hwf : ∀ hooked : Dict Nat (NetCgpm (Option Row) (Val libCat) Unit),
      (∀ c ∈ hooked.vals, c.outputs ≠ [] ∧ ∀ o ∈ c.outputs, o ≠ 0 ∧ o ≠ 1 ∧ o < 10 ^ 7) →
      (hooked.vals.Pairwise fun a b => ∀ v ∈ a.outputs, v ∉ b.outputs) →
      ∀ rank : Nat → Nat, (∀ c ∈ hooked.vals, ∀ i ∈ c.inputs, ∀ o ∈ c.outputs, rank i < rank o) →
      WellFormed (s.buildCgpms noBehaviour hooked) := by
    intro hooked k1 k2 rank k3
    refine h2.wellFormed noBehaviour rank hn (fun c hc => (k1 c hc).1) k2 (fun c hc o ho' => ?_) k3
    have := (k1 c hc).2 o ho'
    exact ⟨by rw [ho]; simp [this.1, this.2.1], this.2.2⟩
  have hadd : ∀ (hooked : Dict Nat (NetCgpm (Option Row) (Val libCat) Unit)) t c,
      s.buildCgpms noBehaviour hooked ++ [c] = s.buildCgpms noBehaviour (hooked ++ [(t, c)]) := by
    intro hooked t c
    simp [State.buildCgpms, Dict.vals]
  have hc0 : CInv (Composite.new s : Composite libCat Unit) := cinv_new h2 hn
  have e1 := (compose_eq (cfg := plainCfg) (beh := noBehaviour) hc0 idOrder_lists
    (foreignModel [7] [0])).1 (by
      refine (hadd _ 0 _) ▸ hwf _ ?_ ?_ id ?_ <;> simp [Composite.new, foreignModel, Dict.vals])
  have hc1 := (cinv_apply (beh := noBehaviour) (catOf_lawful fun _ => True) idOrder_lists hc0 _ hlegal.1).1
  have a1 : (Composite.new s : Composite libCat Unit).apply plainCfg idOrder noBehaviour
      (.compose (foreignModel [7] [0])) = ⟨s, [(57481, foreignModel [7] [0])], 57482, true⟩ := by
    simp only [Composite.apply, e1, Res.state_ok]; rfl
  have hl2 := hlegal.2
  rw [a1] at hc1 hl2
  have e2 := (compose_eq (cfg := plainCfg) (beh := noBehaviour) hc1 idOrder_lists
    (foreignModel [8] [1, 9])).1 (by
      refine (hadd _ 0 _) ▸ hwf _ ?_ ?_ (fun n => if n = 8 then 20 else n) ?_ <;>
        simp [foreignModel, Dict.vals])
  have hc2 := (cinv_apply (beh := noBehaviour) (catOf_lawful fun _ => True) idOrder_lists hc1 _ hl2.1).1
  have a2 : (⟨s, [(57481, foreignModel [7] [0])], 57482, true⟩ : Composite libCat Unit).apply plainCfg
      idOrder noBehaviour (.compose (foreignModel [8] [1, 9])) =
      ⟨s, [(57481, foreignModel [7] [0]), (57482, foreignModel [8] [1, 9])], 57483, true⟩ := by
    simp only [Composite.apply, e2, Res.state_ok]; rfl
  have hl3 := hl2.2
  rw [a2] at hc2 hl3
  have e3 := (decompose_eq (cfg := plainCfg) (beh := noBehaviour) hc2 idOrder_lists 57481).1 (by
    simp [Dict.keys])
  have hc3 := (cinv_apply (beh := noBehaviour) (catOf_lawful fun _ => True) idOrder_lists hc2 _ hl3.1).1
  have a3 : ∃ b, (⟨s, [(57481, foreignModel [7] [0]), (57482, foreignModel [8] [1, 9])], 57483,
      true⟩ : Composite libCat Unit).apply plainCfg idOrder noBehaviour (.decompose 57481) =
      ⟨s, [(57482, foreignModel [8] [1, 9])], 57483, b⟩ := by
    simp only [Composite.apply, e3, Out.state]
    exact ⟨_, rfl⟩
  obtain ⟨b, a3⟩ := a3
  rw [a3] at hc3
  have hx : Composite.run plainCfg idOrder noBehaviour (.new s)
      [.compose (foreignModel [7] [0]), .compose (foreignModel [8] [1, 9]), .decompose 57481] =
      ⟨s, [(57482, foreignModel [8] [1, 9])], 57483, b⟩ := by
    simp only [Composite.run, List.foldl_cons, List.foldl_nil, a1, a2, a3]
  have hsub : ∀ c : NetCgpm (Option Row) (Val libCat) Unit,
      WellFormed (s.buildCgpms noBehaviour [(57482, foreignModel [8] [1, 9])] ++ [c]) →
      ∀ i, ¬ Relation.TransGen (Feeds [foreignModel [8] [1, 9], c]) i i := fun c hw =>
    (hw.sub (by
      unfold State.buildCgpms
      rw [List.append_assoc]
      exact List.sublist_append_right _ _)).acyclic
  refine ⟨s, _, CompReachable.of _ _ _ _ _ _ _ [] [] hl (by rw [← h4]; exact hn) h1 _ hlegal, ?_⟩
  rw [hx]
  refine ⟨rfl, fun c d _ => rfl, ?_, ?_, ?_, ?_⟩
  · refine (hadd _ 0 _) ▸ hwf _ ?_ ?_ (fun n => if n = 8 then 20 else if n = 7 then 21 else n) ?_ <;>
      simp [foreignModel, Dict.vals]
  · exact fun hw => not_column_of_wf hc3 hw (o := 1) (by simp [foreignModel]) (by
      show 1 ∈ s.outputs
      rw [ho]; simp)
  · intro hw
    exact hsub _ hw 1 (.single ⟨_, _, rfl, rfl, 7, by simp [foreignModel], by simp [foreignModel]⟩)
  · intro hw
    exact hsub _ hw 1 (.tail (b := 0)
      (.single ⟨_, _, rfl, rfl, 9, by simp [foreignModel], by simp [foreignModel]⟩)
      ⟨_, _, rfl, rfl, 8, by simp [foreignModel], by simp [foreignModel]⟩)

end Cgpm.Props
