import Verif.Lemmas.Relevance
import Verif.Props.ViewQuery
import Verif.Spec.Relevance

/-! The terms of the relevance computation are joint densities. -/
namespace Cgpm.Props
open Cgpm Cgpm.View Cgpm.Net

variable {C : Cat} {Ω : Type}

/-- The density of a cell is the gain of score when it is filed. -/
theorem cellDensity_chain (hCh : C.Chain) {X : C.Tbl} {v : View C} (hI : Inv X v)
    {p : Col × Dim C} (hp : p ∈ v.dims) {d' : Dim C} {r : Row} (hr : v.seat r = none) {k : Tab}
    (hd : p.2.incorporate r k (X p.1 r) (inputsOf X p.2 r) = .ok d') :
    cellDensity p.2 k (X p.1 r) (inputsOf X p.2 r) =
      ENNReal.ofReal (Real.exp (d'.score - p.2.score)) := by
  have h := hI.dim p hp
  have hn : filing X v.seat p.2 r = none := by simp [filing, hr]
  have e1 := h.core.chain hCh h.shared h.hyp (stored_isStored _ _ _) hn hd
  obtain ⟨w, hw, hm⟩ := dim_logpdf_mass hI hp (rowid := some r)
    (fun r' e => by cases e; exact hr) k (X p.1 r) (inputsOf X p.2 r)
  rw [e1] at hw
  rw [← hm, ← Except.ok.inj hw]; rfl

theorem incDims_chain (hCh : C.Chain) {X : C.Tbl} {v : View C} (hI : Inv X v) (hc : ClosedInputs v)
    {D : Dict Col C.Cell} {r : Row} (hD : ∀ c ∈ v.dims.keys, D.get? c = some (X c r))
    (hr : v.seat r = none) {k : Tab} {ds ds' : Dict Col (Dim C)} (hs : ∀ p ∈ ds, p ∈ v.dims)
    (h : incDims X r k D ds = .ok ds') :
    (ds.map fun p => match D.get? p.1 with
      | none => 1
      | some x => cellDensity p.2 k x (p.2.inputs.map fun i => (D.get? i).getD none)).prod =
      ENNReal.ofReal (Real.exp (lik ds' - lik ds)) := by
  induction ds generalizing ds' with
  | nil =>
    cases h
    simp [lik, Dict.vals]
  | cons p t ih =>
    obtain ⟨c, d⟩ := p
    have hp := hs (c, d) (by simp)
    have hg := Dict.get?_of_mem hI.wf hp
    have hx : D.get? c = some (X c r) := hD c (Dict.mem_keys_of_get? hg)
    simp only [incDims, hx] at h
    cases hd : d.incorporate r k (X c r) (inputsOf X d r) with
    | err e d' => rw [hd] at h; cases h
    | ok d' =>
      rw [hd] at h
      simp only at h
      cases ht : incDims X r k D t with
      | err e t' => rw [ht] at h; cases h
      | ok t' =>
        rw [ht] at h
        simp only at h
        cases h
        have hin : (d.inputs.map fun i => (D.get? i).getD none) = inputsOf X d r := by
          refine List.map_congr_left fun i hi => ?_
          rw [hD i (hc c d hg i hi)]; rfl
        rw [List.map_cons, List.prod_cons, ih (fun p hp => hs p (by simp [hp])) ht]
        simp only [hx, hin]
        have e := cellDensity_chain hCh hI hp hr hd
        simp only at e
        rw [e, ← ENNReal.ofReal_mul (Real.exp_pos _).le, ← Real.exp_add, lik_cons, lik_cons]
        congr 2
        ring

/-- Joining cluster `k`: prior times density is the gain of the joint score. -/
theorem join_chain (hCh : C.Chain) {X : C.Tbl} {v u : View C} (hI : Inv X v) (hc : ClosedInputs v)
    {D : Dict Col C.Cell} {r : Row} (hD : ∀ c ∈ v.dims.keys, D.get? c = some (X c r))
    (hr : v.seat r = none) {k : Tab} (h : v.incorporateAt X r D k = .ok u) :
    prior v k * rowDensity v k D.get? = ENNReal.ofReal (Real.exp (u.score - v.score)) := by
  unfold incorporateAt at h
  have hh : v.crp.data.has r = false := (Dict.has_false_iff _ _).mpr hr
  simp only [hh, Bool.false_eq_true, if_false] at h
  cases hcr : v.crp.incorporate r k with
  | err e c' => rw [hcr] at h; cases h
  | ok c' =>
    rw [hcr] at h
    simp only at h
    cases hds : incDims X r k D v.dims with
    | err e c' => rw [hds] at h; cases h
    | ok ds' =>
      rw [hds] at h
      simp only at h
      cases h
      have h1 := incDims_chain hCh hI hc hD hr (fun p hp => hp) hds
      have h2 := score_incorporate hI.crp hI.alpha (x := k) hr
      rw [hcr, Out.state_ok] at h2
      have h3 : rowDensity v k D.get? = ENNReal.ofReal (Real.exp (lik ds' - lik v.dims)) := h1
      rw [h3, ← prior_eq hI]
      change ENNReal.ofReal (Real.exp _) * _ = _
      rw [← ENNReal.ofReal_mul (Real.exp_pos _).le, ← Real.exp_add]
      congr 2
      unfold View.score likelihood
      simp only [h2]
      unfold lik
      ring

theorem At.closed {X : C.Tbl} {v0 u : View C} {s : Row → Option Tab} (h : At X v0 s u)
    (hc : ClosedInputs v0) : ClosedInputs u := by
  intro c d hd i hi
  obtain ⟨d0, h1, h2⟩ := State.same_get h.same hd
  rw [h2.inputs] at hi
  exact (State.same_keys h.same i).mpr (hc c d0 h1 i hi)

theorem At.schema {X : C.Tbl} {v0 u : View C} {s : Row → Option Tab} (h : At X v0 s u) {z : Nat}
    (hs : Schema v0 z) : Schema u z := by
  have hin : ∀ c d, u.dims.get? c = some d → ∃ d0, v0.dims.get? c = some d0 ∧
      d.inputs = d0.inputs := by
    intro c d hd
    obtain ⟨d0, h1, h2⟩ := State.same_get h.same hd
    exact ⟨d0, h1, h2.inputs⟩
  refine ⟨fun hz => hs.token ((State.same_keys h.same z).mp hz), fun c d hd hz => ?_, fun c hc => ?_⟩
  · obtain ⟨d0, h1, h2⟩ := hin c d hd
    rw [h2] at hz
    exact hs.tokenInput c d0 h1 hz
  · refine hs.acyclic c (Relation.TransGen.mono ?_ _ _ hc)
    rintro a b ⟨d, hd, ha⟩
    obtain ⟨d0, h1, h2⟩ := hin b d hd
    exact ⟨d0, h1, h2 ▸ ha⟩

theorem fresh_sup (S : Finset Tab) : S.sup id + 1 ∉ S := by
  intro h
  have : id (S.sup id + 1) ≤ S.sup id := Finset.le_sup h
  exact absurd this (Nat.not_succ_le_self _)

theorem sum_choices {M : Type} [AddCommMonoid M] (S : Finset Tab) (f : Tab → M) :
    ∑ k ∈ choices S, f k = f (S.sup id + 1) + ∑ k ∈ S, f k := by
  unfold choices
  rw [Finset.sum_insert (fresh_sup S)]

theorem mixture_choices (v : View C) (f : Tab → ENNReal) :
    mixture v f = ∑ k ∈ choices (occupied v), prior v k * f k := by
  rw [sum_choices, add_comm]; rfl

/-- The predictive density of a row is the sum over its choices of the gains of the joint score. -/
theorem predictive_sum (hCh : C.Chain) {X : C.Tbl} {v0 u : View C} {s : Row → Option Tab}
    (hwf : v0.dims.WF) (h : At X v0 s u) (hc : ClosedInputs v0) {z : Nat} (hs : Schema v0 z) {ord : PyOrder}
    (hord : ord.Lists) {close : C.V → C.V → Bool} {sim : Simulator C Ω} {ω : Draws Ω}
    (hne : ∃ r, s r ≠ none) {r : Row} (hr : s r = none) {w : Tab → View C}
    (hw : ∀ k, u.incorporate X r (v0.rowValues X r) (some k) 0 = .ok (w k)) :
    ∃ x : ℝ, u.logpdf close X ord sim ω z none
        ((v0.rowValues X r).map fun p => (p.1, .cell p.2)) [] [] = .ok (.fin x) ∧
      Real.exp x = ∑ k ∈ choices (occupied u), Real.exp ((w k).score - u.score) := by
  have hI := h.inv
  have hcu := At.closed h hc
  have hk0 : Dict.keys ([] : Dict Col C.Cell) = [] := rfl
  have hkeys : (v0.rowValues X r).keys = v0.dims.keys := rowValues_keys X v0 r
  have hwf0 : (v0.rowValues X r).keys.Nodup := by
    rw [hkeys]; exact hwf
  have hD : ∀ c ∈ u.dims.keys, (v0.rowValues X r).get? c = some (X c r) := fun c hcc =>
    rowValues_get? X v0 r ((State.same_keys h.same c).mp hcc)
  have hboth : both (v0.rowValues X r) [] = (v0.rowValues X r).get? := by
    funext c; simp only [both, Dict.get?, Option.or_none]
  have hq : NewRowQuery u z none (v0.rowValues X r) [] := by
    refine ⟨by simp, hwf0, List.nodup_nil, by simp [hk0], ⟨?_, by simp [hk0]⟩, ?_, ?_⟩
    · rw [hkeys]; exact hs.token
    · intro c d _ hn; exact absurd rfl hn
    · rw [hboth]
      intro c d hd _ i hi
      rw [hD i (hcu c d hd i hi)]; simp
  have hask := ask_new (close := close) (ord := ord) (sim := sim) (ω := ω) hI hq
    (T' := cellsOf (v0.rowValues X r)) (E' := []) (by simp [Dict.keys])
  have hcore := (core_enum hord sim hI (At.schema h hs) (hyp_of_new hI hq.row).2 ω
    (cellsOf_wf hq.targets) (fun c _ => cellsOf_get? (v0.rowValues X r) c)
    (cellsOf_wf (D := []) hq.evidence) (fun c _ => cellsOf_get? [] c) hq.disj hq.inputsE
    hq.inputs (by rw [h.seat]; exact hne)
    (by rw [cellsOf_get?, (Dict.get?_eq_none_iff _ _).mpr hq.token.1]; rfl) rfl).1
    (fun k => by rw [show Dict.get? ([] : Dict Col C.Cell) = fun _ => none from rfl,
      rowDensity_empty]; exact one_ne_zero)
  obtain ⟨y, hy1, hy2, hy3⟩ := hcore
  have hm : mass y = ENNReal.ofReal
      (∑ k ∈ choices (occupied u), Real.exp ((w k).score - u.score)) := by
    rw [hy3, show Dict.get? ([] : Dict Col C.Cell) = fun _ => none from rfl]
    simp only [rowDensity_empty, Option.or_none]
    rw [prior_sum hI, div_one, mixture_choices, ENNReal.ofReal_sum_of_nonneg
      fun k _ => (Real.exp_pos _).le]
    exact Finset.sum_congr rfl fun k _ => join_chain hCh hI hcu hD (by rw [h.seat]; exact hr) (hw k)
  have hpos : 0 < ∑ k ∈ choices (occupied u), Real.exp ((w k).score - u.score) :=
    Finset.sum_pos (fun k _ => Real.exp_pos _) ⟨_, Finset.mem_insert_self _ _⟩
  cases y with
  | nan => exact absurd rfl hy2
  | ninf => exact absurd hm.symm (by simpa [mass] using hpos)
  | pinf => exact absurd hm.symm (by simp [mass])
  | fin x =>
    refine ⟨x, hask.trans hy1, ?_⟩
    exact (ENNReal.ofReal_eq_ofReal_iff (Real.exp_pos _).le hpos.le).mp hm

/-! ### One term per cluster -/

theorem overTables_ok {f : Tab → View C → Res (View C) Fl} {R : View C → Prop} {P : Tab → Fl → Prop}
    {l : List Tab} (h : ∀ k ∈ l, ∀ u, R u → ∃ a u', f k u = .ok a u' ∧ R u' ∧ P k a) {u : View C}
    (hu : R u) : ∃ as u', overTables f l u = .ok as u' ∧ R u' ∧ List.Forall₂ P l as := by
  induction l generalizing u with
  | nil => exact ⟨[], u, rfl, hu, .nil⟩
  | cons k t ih =>
    obtain ⟨a, u1, h1, h2, h3⟩ := h k (by simp) u hu
    obtain ⟨as, u2, h4, h5, h6⟩ := ih (fun k hk => h k (by simp [hk])) h2
    exact ⟨a :: as, u2, by simp only [overTables, h1, h4], h5, .cons h3 h6⟩

theorem lse_terms {l : List Tab} (hl : l ≠ []) {as : List Fl} {base : Tab → ℝ} {A : Tab → ℝ}
    (h : List.Forall₂ (fun k a => ∃ m, a = .fin m ∧ Real.exp (m - base k) = A k) l as) :
    ∃ y : ℝ, logsumexp (List.zipWith Fl.sub as ((l.map base).map Fl.fin)) = .ok (.fin y) ∧
      Real.exp y = (l.map A).sum := by
  have key : ∀ a ∈ List.zipWith Fl.sub as ((l.map base).map Fl.fin), ∃ x, a = .fin x := by
    clear hl
    induction h with
    | nil => simp
    | @cons k a t as' h1 _ ih =>
      obtain ⟨m, rfl, -⟩ := h1
      intro b hb
      simp only [List.map_cons, List.zipWith_cons_cons, List.mem_cons] at hb
      rcases hb with rfl | hb
      · exact ⟨m - base k, by simp [Fl.sub, Fl.neg, Fl.add, sub_eq_add_neg]⟩
      · exact ih b hb
  have htot : total (List.zipWith Fl.sub as ((l.map base).map Fl.fin)) =
      ENNReal.ofReal (l.map A).sum ∧ ∀ k ∈ l, 0 < A k := by
    clear hl key
    induction h with
    | nil => simp [total]
    | @cons k a t as' h1 _ ih =>
      obtain ⟨m, rfl, hm⟩ := h1
      have hA : 0 < A k := hm ▸ Real.exp_pos _
      have hsub : (Fl.fin m).sub (.fin (base k)) = .fin (m - base k) := by
        simp [Fl.sub, Fl.neg, Fl.add, sub_eq_add_neg]
      refine ⟨?_, fun k' hk' => (List.mem_cons.mp hk').elim (fun e => e ▸ hA) (ih.2 k')⟩
      simp only [List.map_cons, List.zipWith_cons_cons, total, List.sum_cons] at ih ⊢
      rw [ih.1, hsub, ENNReal.ofReal_add hA.le (List.sum_nonneg fun x hx => by
        obtain ⟨k', hk', rfl⟩ := List.mem_map.mp hx; exact (ih.2 k' hk').le)]
      congr 1
      simp only [mass, hm]
  obtain ⟨r, h1, h2, h3⟩ := logsumexp_spec
    (l := List.zipWith Fl.sub as ((l.map base).map Fl.fin))
    (fun hn => by obtain ⟨x, hx⟩ := key _ hn; cases hx)
    (fun hn => by obtain ⟨x, hx⟩ := key _ hn.1; cases hx)
  have hpos : 0 < (l.map A).sum := by
    cases l with
    | nil => exact absurd rfl hl
    | cons k t =>
      rw [List.map_cons, List.sum_cons]
      exact add_pos_of_pos_of_nonneg (htot.2 k (by simp)) (List.sum_nonneg fun x hx => by
        obtain ⟨k', hk', rfl⟩ := List.mem_map.mp hx; exact (htot.2 k' (by simp [hk'])).le)
  rw [htot.1] at h3
  cases r with
  | nan => exact absurd rfl h2
  | ninf => exact absurd h3.symm (by simpa [mass] using hpos)
  | pinf => exact absurd h3.symm (by simp [mass])
  | fin y =>
    exact ⟨y, h1, (ENNReal.ofReal_eq_ofReal_iff (Real.exp_pos _).le hpos.le).mp h3⟩

theorem pyMax_sup {l : List Nat} (hl : l ≠ []) : pyMax l = l.toFinset.sup id := by
  cases l with
  | nil => exact absurd rfl hl
  | cons x t =>
    have : ∀ (t : List Nat) (x : Nat), t.foldl max x = max x (t.toFinset.sup id) := by
      intro t
      induction t with
      | nil => intro x; simp
      | cons y t ih =>
        intro x
        rw [List.foldl_cons, ih]
        simp only [List.toFinset_cons, Finset.sup_insert, id_eq]
        exact max_assoc x y _
    rw [pyMax, this]
    simp only [List.toFinset_cons, Finset.sup_insert, id_eq]

/-! ### The rows are taken out and put together -/

section
variable {X : C.Tbl} {v : View C} {T : Row} {Q : List Row}

/-- Without the target and the query rows. -/
noncomputable def outSeat (v : View C) (T : Row) (Q : List Row) : Row → Option Tab :=
  put v.seat (T :: Q) fun _ => none

/-- The query rows together in cluster `k`. -/
noncomputable def querySeat (v : View C) (T : Row) (Q : List Row) (k : Tab) : Row → Option Tab :=
  put (outSeat v T Q) Q fun _ => some k

/-- The query rows together in cluster `k`, the target in cluster `t`. -/
noncomputable def jointSeat (v : View C) (T : Row) (Q : List Row) (k t : Tab) :
    Row → Option Tab := upd (querySeat v T Q k) T (some t)

theorem outSeat_mem {r : Row} (h : r = T ∨ r ∈ Q) : outSeat v T Q r = none := by
  unfold outSeat put
  rw [if_pos (List.mem_cons.mpr h)]

theorem outSeat_of_not {r : Row} (h : r ≠ T) (h' : r ∉ Q) : outSeat v T Q r = v.seat r := by
  unfold outSeat put
  rw [if_neg (by simp [h, h'])]

theorem querySeat_mem {r : Row} {k : Tab} (h : r ∈ Q) : querySeat v T Q k r = some k := by
  unfold querySeat put
  rw [if_pos h]

theorem querySeat_of_not {r : Row} {k : Tab} (h : r ∉ Q) :
    querySeat v T Q k r = outSeat v T Q r := by
  unfold querySeat put
  rw [if_neg h]

theorem off_query (k : Tab) : Off k (outSeat v T Q) (querySeat v T Q k) := by
  intro t ht r
  by_cases h : r ∈ Q
  · rw [outSeat_mem (Or.inr h), querySeat_mem h]
    simp [Ne.symm ht]
  · rw [querySeat_of_not h]

theorem off_joint (k : Tab) : Off k (outSeat v T Q) (jointSeat v T Q k k) := by
  intro t ht r
  unfold jointSeat upd
  by_cases h : r = T
  · subst h
    rw [if_pos rfl, outSeat_mem (Or.inl rfl)]
    simp [Ne.symm ht]
  · rw [if_neg h]; exact off_query k t ht r

end

end Cgpm.Props
