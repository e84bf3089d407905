import Verif.Lemmas.Engine
import Verif.Props.ParallelMap

/-
C33: what the operations of an Engine do to its states.
-/
namespace Cgpm.Props
open Cgpm Cgpm.Spec Cgpm.Engine
variable {σ α β : Type}

/-! ### Queries -/

theorem calls_returns {f : σ → Res σ α} {L : List σ} {ks : List Nat} {as : List α}
    (h : Answers f L ks as) : List.Forall₂ (Returns L) (ks.map fun i => (i, f)) as := by
  rw [List.forall₂_map_left_iff]
  exact h

/-- **C33.** A query returns one answer per requested state, in the order of the request, and leaves
the Engine as it was. In the same process this needs that the states' own query does not change
them. -/
theorem C33_query (multi : Bool) {f : σ → Res σ α} {e : Engine σ} {statenos : Option (List Int)}
    {ks : List Nat} {as : List α} (hr : Requested e.states.length statenos ks)
    (ha : Answers f e.states ks as) (hro : multi = true ∨ ∀ x ∈ e.states, ReadOnly f x) :
    e.evaluate multi f statenos = .ok as e := by
  have hF := calls_returns ha
  unfold evaluate
  rw [resolve_requested hr]
  simp only [runCalls]
  cases multi with
  | true => simp only [if_true, forked_ok.mpr hF]
  | false =>
    rw [if_neg Bool.false_ne_true, inPlace_readonly hF]
    intro c hc x hx
    obtain ⟨i, hi, rfl⟩ := List.mem_map.mp hc
    exact (hro.resolve_left Bool.false_ne_true) x (List.mem_of_getElem? hx)

/-- **C33.** A query that raises in one of the requested states raises (RuntimeError when it was run
in other processes) and leaves the Engine as it was. -/
theorem C33_query_raises (multi : Bool) {f : σ → Res σ α} {e : Engine σ}
    {statenos : Option (List Int)} {ks : List Nat} (hr : Requested e.states.length statenos ks)
    (hx : ∃ k ∈ ks, ∃ x, e.states[k]? = some x ∧ Raises f x)
    (hro : multi = true ∨ ∀ x ∈ e.states, ReadOnly f x) :
    ∃ er, e.evaluate multi f statenos = .err er e ∧ (multi = true → er = .runtime) := by
  unfold evaluate
  rw [resolve_requested hr]
  simp only [runCalls]
  cases multi with
  | true =>
    cases hfk : forked e.states (ks.map fun i => (i, f)) with
    | error er =>
      simp only [if_true, forked_error hfk]
      exact ⟨.runtime, rfl, fun _ => rfl⟩
    | ok as =>
      exfalso
      obtain ⟨k, hk, x, hx, er, x', hf⟩ := hx
      have hF := forked_ok.mp hfk
      rw [List.forall₂_map_left_iff] at hF
      obtain ⟨j, hj, rfl⟩ := List.getElem_of_mem hk
      obtain ⟨y, y', e1, e2⟩ := (List.forall₂_iff_get.mp hF).2 j hj (hF.length_eq ▸ hj)
      simp only [List.get_eq_getElem] at e1 e2
      rw [e1] at hx
      cases hx
      rw [hf] at e2
      cases e2
  | false =>
    obtain ⟨k, hk, x, hx, hf⟩ := hx
    obtain ⟨er, he⟩ := inPlace_readonly_raises (L := e.states) (calls := ks.map fun i => (i, f))
      (by
        intro c hc
        obtain ⟨i, hi, rfl⟩ := List.mem_map.mp hc
        exact requested_lt hr i hi)
      ⟨(k, f), List.mem_map.mpr ⟨k, hk, rfl⟩, x, hx, hf⟩
      (by
        intro c hc x hx
        obtain ⟨i, hi, rfl⟩ := List.mem_map.mp hc
        exact (hro.resolve_left Bool.false_ne_true) x (List.mem_of_getElem? hx))
    rw [if_neg Bool.false_ne_true, he]
    exact ⟨er, rfl, fun h => absurd h Bool.false_ne_true⟩

/-- **C33.** A request with an index that denotes no state raises IndexError before anything has
been done, in queries and in updates. -/
theorem C33_bad_index (multi : Bool) (f : σ → Res σ α) (g : σ → Out σ)
    (funcs : List (σ → Except Exn σ)) {e : Engine σ} {l : List Int}
    (h : ∃ i ∈ l, ¬ ∃ k, Denotes e.states.length i k) :
    e.evaluate multi f (some l) = .err .indexError e ∧
    e.modify multi g (some l) = .err .indexError e ∧
    e.alter multi funcs (some l) = .err .indexError e := by
  have hs : resolve e.states.length (e.selection (some l)) = .error .indexError := by
    cases l with
    | nil => obtain ⟨i, hi, -⟩ := h; cases hi
    | cons i t => exact resolve_error h
  simp only [evaluate, Engine.modify, Engine.alter, hs, and_self]

/-! ### Updates -/

theorem runCalls_modify (multi : Bool) {L : List σ} {calls : List (Nat × (σ → Out σ))} {xs : List σ}
    (hnd : (calls.map Prod.fst).Nodup)
    (h : List.Forall₂ (fun c x' => ∃ x, L[c.1]? = some x ∧ c.2 x = .ok x') calls xs) :
    runCalls multi (calls.map fun c => (c.1, modified c.2)) L =
      .ok xs (if multi then L else assign (calls.map Prod.fst) xs L) := by
  unfold runCalls
  cases multi with
  | false => exact inPlace_modify hnd h
  | true =>
    have : forked L (calls.map fun c => (c.1, modified c.2)) = .ok xs := by
      rw [forked_ok, List.forall₂_map_left_iff]
      refine h.imp fun c x' ⟨x, h1, h2⟩ => ⟨x, x', h1, ?_⟩
      simp only [modified, h2]
    simp only [if_true, this]

/-- **C33.** An update that succeeds in all requested states replaces exactly these by the updated
ones: each requested state is the result of the method on the state that was at its position, the
others are the same, and there are as many as before; in the same process and in others. -/
theorem C33_update (multi : Bool) {f : σ → Out σ} {e : Engine σ} {statenos : Option (List Int)}
    {ks : List Nat} (hr : Requested e.states.length statenos ks) (hnd : ks.Nodup)
    (hok : ∀ k ∈ ks, ∀ x, e.states[k]? = some x → ∃ x', f x = .ok x') :
    ∃ e', e.modify multi f statenos = .ok e' ∧ e'.states.length = e.states.length ∧
      (∀ k ∈ ks, ∃ x x', e.states[k]? = some x ∧ f x = .ok x' ∧ e'.states[k]? = some x') ∧
      ∀ k, k ∉ ks → e'.states[k]? = e.states[k]? := by
  have hlt := requested_lt hr
  have : ∃ xs, List.Forall₂ (fun (k : Nat) x' => ∃ x, e.states[k]? = some x ∧ f x = .ok x') ks xs := by
    clear hnd hr
    induction ks with
    | nil => exact ⟨[], .nil⟩
    | cons k t ih =>
      obtain ⟨xs, hxs⟩ := ih (fun k hk => hok k (by simp [hk])) fun k hk => hlt k (by simp [hk])
      have hk := hlt k (by simp)
      obtain ⟨x', hx'⟩ := hok k (by simp) _ (List.getElem?_eq_getElem hk)
      exact ⟨x' :: xs, .cons ⟨_, List.getElem?_eq_getElem hk, hx'⟩ hxs⟩
  obtain ⟨xs, hxs⟩ := this
  have hrun := runCalls_modify multi (L := e.states) (calls := ks.map fun i => (i, f)) (xs := xs)
    (by simpa [List.map_map, Function.comp_def] using hnd)
    (by rw [List.forall₂_map_left_iff]; exact hxs)
  simp only [List.map_map, Function.comp_def, List.map_id'] at hrun
  have hres : e.modify multi f statenos = .ok ⟨assign ks xs e.states⟩ := by
    unfold Engine.modify
    rw [resolve_requested hr]
    simp only [hrun]
    cases multi with
    | true => rfl
    | false =>
      simp only [Bool.false_eq_true, if_false]
      rw [assign_assign hnd hlt hxs.length_eq]
  refine ⟨_, hres, assign_length _ _ _, fun k hk => ?_, fun k hk => assign_not_mem hk⟩
  obtain ⟨j, hj, rfl⟩ := List.getElem_of_mem hk
  have hj' : j < xs.length := hxs.length_eq ▸ hj
  obtain ⟨x, h1, h2⟩ := (List.forall₂_iff_get.mp hxs).2 j hj hj'
  exact ⟨x, _, h1, h2, assign_mem hnd hlt j (List.getElem?_eq_getElem hj)
    (List.getElem?_eq_getElem hj')⟩

theorem range_forall₂ {R : σ → σ → Prop} {L xs : List σ} (h : List.Forall₂ R L xs) :
    List.Forall₂ (fun k x' => ∃ x, L[k]? = some x ∧ R x x') (List.range L.length) xs := by
  refine List.forall₂_iff_get.mpr ⟨by simpa using h.length_eq, fun j hj hj' => ?_⟩
  have hj2 : j < L.length := by simpa using hj
  refine ⟨L[j], ?_, ?_⟩
  · simp [List.getElem?_eq_getElem hj2]
  · exact (List.forall₂_iff_get.mp h).2 j hj2 hj'

/-- **C33.** An update of all states that succeeds in all of them replaces each by its update, in
order. -/
theorem C33_update_all (multi : Bool) {f : σ → Out σ} {e : Engine σ} {xs : List σ}
    (h : List.Forall₂ (fun x x' => f x = .ok x') e.states xs) :
    e.modifyAll multi f = .ok ⟨xs⟩ := by
  have hrun := runCalls_modify multi (L := e.states)
    (calls := (List.range e.states.length).map fun i => (i, f)) (xs := xs)
    (by simpa [List.map_map, Function.comp_def] using List.nodup_range)
    (by rw [List.forall₂_map_left_iff]; exact range_forall₂ h)
  simp only [List.map_map, Function.comp_def] at hrun
  unfold modifyAll
  rw [hrun]

/-- **C33.** An update, run in other processes, that raises in one of the requested states raises
RuntimeError and changes nothing. -/
theorem C33_update_raises {f : σ → Out σ} {e : Engine σ} {statenos : Option (List Int)}
    {ks : List Nat} (hr : Requested e.states.length statenos ks) {k : Nat} (hk : k ∈ ks) {x x' : σ}
    {er : Exn} (hx : e.states[k]? = some x) (hf : f x = .err er x') :
    e.modify true f statenos = .err .runtime e := by
  unfold Engine.modify
  rw [resolve_requested hr]
  simp only [runCalls, if_true]
  cases hfk : forked e.states (ks.map fun i => (i, modified f)) with
  | error er => simp only [forked_error hfk]
  | ok as =>
    exfalso
    have hF := forked_ok.mp hfk
    rw [List.forall₂_map_left_iff] at hF
    obtain ⟨j, hj, rfl⟩ := List.getElem_of_mem hk
    obtain ⟨y, y', e1, e2⟩ := (List.forall₂_iff_get.mp hF).2 j hj (hF.length_eq ▸ hj)
    simp only [List.get_eq_getElem] at e1 e2
    rw [e1] at hx
    cases hx
    rw [(modified_ok e2).1] at hf
    cases hf

/-- **C33.** The same for an update of all states. -/
theorem C33_update_all_raises {f : σ → Out σ} {e : Engine σ} {x x' : σ} {er : Exn}
    (hx : x ∈ e.states) (hf : f x = .err er x') : e.modifyAll true f = .err .runtime e := by
  unfold modifyAll
  simp only [runCalls, if_true]
  cases hfk : forked e.states ((List.range e.states.length).map fun i => (i, modified f)) with
  | error er => simp only [forked_error hfk]
  | ok as =>
    exfalso
    have hF := forked_ok.mp hfk
    rw [List.forall₂_map_left_iff] at hF
    obtain ⟨j, hj, rfl⟩ := List.getElem_of_mem hx
    obtain ⟨y, y', e1, e2⟩ := (List.forall₂_iff_get.mp hF).2 j (by simpa using hj)
      (hF.length_eq ▸ (by simpa using hj))
    simp only [List.get_eq_getElem, List.getElem_range] at e1 e2
    rw [List.getElem?_eq_getElem hj] at e1
    cases e1
    rw [(modified_ok e2).1] at hf
    cases hf

/-- **C33.** Composition: with at least as many models as states, the `i`-th state is composed with
the `i`-th model; with fewer nothing happens but IndexError. -/
theorem C33_compose (multi : Bool) {compose : β → σ → Out σ} {cgpms : List β} {e : Engine σ} :
    (∀ xs : List σ, e.states.length ≤ cgpms.length → xs.length = e.states.length →
      (∀ i (h : i < e.states.length) c, cgpms[i]? = some c →
        ∃ x', compose c e.states[i] = .ok x' ∧ xs[i]? = some x') →
      e.composeAll multi compose cgpms = .ok ⟨xs⟩) ∧
    (cgpms.length < e.states.length → e.composeAll multi compose cgpms = .err .indexError e) := by
  constructor
  · intro xs hlen hxs h
    have hfst : (((List.range e.states.length).zip cgpms).map
        fun p : Nat × β => (p.1, compose p.2)).map Prod.fst = List.range e.states.length := by
      rw [List.map_map]
      exact List.map_fst_zip (by simpa using hlen)
    have hrun := runCalls_modify multi (L := e.states)
      (calls := ((List.range e.states.length).zip cgpms).map fun p => (p.1, compose p.2)) (xs := xs)
      (by rw [hfst]; exact List.nodup_range)
      (by
        rw [List.forall₂_map_left_iff]
        refine List.forall₂_iff_get.mpr ⟨by simp [hxs, hlen], fun j hj hj' => ?_⟩
        have hj2 : j < e.states.length := hxs ▸ hj'
        have hj3 : j < cgpms.length := by omega
        obtain ⟨x', h1, h2⟩ := h j hj2 _ (List.getElem?_eq_getElem hj3)
        rw [List.getElem?_eq_getElem hj'] at h2
        refine ⟨e.states[j], ?_, ?_⟩
        · simp [List.getElem?_eq_getElem hj2]
        · simp only [List.get_eq_getElem, List.getElem_zip]
          rw [h1, ← Option.some.inj h2])
    simp only [List.map_map, Function.comp_def] at hrun
    unfold composeAll
    rw [if_neg (by omega), hrun]
  · intro h
    unfold composeAll
    rw [if_pos h]

/-- The functions applied one after the other. -/
def AppliedInOrder : List (σ → Except Exn σ) → σ → σ → Prop
  | [], x, y => y = x
  | g :: t, x, y => ∃ z, g x = .ok z ∧ AppliedInOrder t z y

theorem alterOne_ok {funcs : List (σ → Except Exn σ)} {x y : σ} :
    alterOne funcs x = .ok y ↔ AppliedInOrder funcs x y := by
  induction funcs generalizing x with
  | nil =>
    simp only [alterOne, AppliedInOrder, Except.ok.injEq]
    exact eq_comm
  | cons g t ih =>
    unfold alterOne AppliedInOrder
    cases hg : g x with
    | error er =>
      constructor
      · intro h; cases h
      · rintro ⟨z, hz, -⟩; cases hz
    | ok z =>
      simp only [ih]
      constructor
      · intro h; exact ⟨z, rfl, h⟩
      · rintro ⟨z', hz, h⟩; cases hz; exact h

/-- **C33.** `alter` applies its functions in order to each requested state, and puts the results
at their places; if one of them raises, nothing changes. -/
theorem C33_alter (multi : Bool) {funcs : List (σ → Except Exn σ)} {e : Engine σ}
    {statenos : Option (List Int)} {ks : List Nat} (hr : Requested e.states.length statenos ks)
    (hnd : ks.Nodup) :
    (∀ xs : List σ, List.Forall₂ (fun (k : Nat) y => ∃ x, e.states[k]? = some x ∧
        AppliedInOrder funcs x y) ks xs →
      ∃ e', e.alter multi funcs statenos = .ok e' ∧ e'.states.length = e.states.length ∧
        (∀ (j k : Nat) (y : σ), ks[j]? = some k → xs[j]? = some y → e'.states[k]? = some y) ∧
        ∀ k, k ∉ ks → e'.states[k]? = e.states[k]?) ∧
    ((∃ k ∈ ks, ∃ x, e.states[k]? = some x ∧ ¬ ∃ y, AppliedInOrder funcs x y) →
      ∃ er, e.alter multi funcs statenos = .err er e) := by
  have hlt := requested_lt hr
  have hro : ∀ x : σ, (altered funcs x).state = x := by
    intro x; unfold altered; split <;> rfl
  constructor
  · intro xs h
    have hF : List.Forall₂ (Returns e.states) (ks.map fun i => (i, altered funcs)) xs := by
      rw [List.forall₂_map_left_iff]
      refine h.imp fun k y ⟨x, h1, h2⟩ => ⟨x, x, h1, ?_⟩
      simp only [altered, alterOne_ok.mpr h2]
    have hrun : runCalls multi (ks.map fun i => (i, altered funcs)) e.states = .ok xs e.states := by
      unfold runCalls
      cases multi with
      | true => simp only [if_true, forked_ok.mpr hF]
      | false =>
        rw [if_neg Bool.false_ne_true]
        refine inPlace_readonly hF fun c hc x _ => ?_
        obtain ⟨i, -, rfl⟩ := List.mem_map.mp hc
        exact hro x
    refine ⟨⟨assign ks xs e.states⟩, ?_, assign_length _ _ _, fun j k y h1 h2 => ?_,
      fun k hk => assign_not_mem hk⟩
    · unfold alter
      rw [resolve_requested hr]
      simp only [hrun]
    · exact assign_mem hnd hlt j h1 h2
  · rintro ⟨k, hk, x, hx, hno⟩
    have hra : Raises (altered funcs) x := by
      cases ha : alterOne funcs x with
      | ok y => exact absurd ⟨y, alterOne_ok.mp ha⟩ hno
      | error er => exact ⟨er, x, by simp only [altered, ha]⟩
    obtain ⟨er, he, -⟩ := C33_query_raises multi (f := altered funcs) hr ⟨k, hk, x, hx, hra⟩
      (.inr fun x _ => hro x)
    refine ⟨er, ?_⟩
    unfold evaluate at he
    unfold alter
    rw [resolve_requested hr] at he ⊢
    simp only at he ⊢
    split at he
    · cases he
    · rename_i h; simp only [h]; rw [← (Res.err.inj he).1, ← (Res.err.inj he).2]

/-! ### The list of states -/

theorem construct_ok {multi : Bool} {make : Nat → Except Exn σ} {seeds : List Nat} {xs : List σ} :
    construct multi make seeds = .ok xs ↔ List.Forall₂ (fun s x => make s = .ok x) seeds xs := by
  induction seeds generalizing xs with
  | nil =>
    constructor
    · intro h; cases h; exact .nil
    · intro h; cases h; rfl
  | cons s t ih =>
    unfold construct
    cases hs : make s with
    | error er =>
      constructor
      · intro h; cases h
      · intro h
        cases h with
        | cons h1 h2 => rw [hs] at h1; cases h1
    | ok x =>
      cases ht : construct multi make t with
      | error er =>
        constructor
        · intro h; cases h
        · intro h
          cases h with
          | cons h1 h2 => rw [ih.mpr h2] at ht; cases ht
      | ok xs' =>
        constructor
        · intro h; cases h; exact .cons hs (ih.mp ht)
        · intro h
          cases h with
          | cons h1 h2 =>
            rw [ih.mpr h2] at ht
            rw [hs] at h1
            cases ht; cases h1
            rfl

/-- **C33.** An Engine is made of one State per seed. -/
theorem C33_init (multi : Bool) {make : Nat → Except Exn σ} {seeds : List Nat} {xs : List σ} :
    Engine.init multi make seeds = .ok ⟨xs⟩ ↔
      List.Forall₂ (fun s x => make s = .ok x) seeds xs := by
  rw [← construct_ok (multi := multi)]
  unfold Engine.init
  cases construct multi make seeds with
  | error er =>
    constructor <;> intro h <;> cases h
  | ok ys =>
    constructor
    · intro h; cases h; rfl
    · intro h; cases h; rfl

/-- **C33.** `add_state` appends the new States, made from the first one, and keeps the others at
their places; it changes nothing when it raises, and it raises when the first State is composite,
when data or schema are given, and when there is no State to take them from. -/
theorem C33_add_state (multi : Bool) {composite : σ → Bool} {forbidden : Bool}
    {make : σ → Nat → Except Exn σ} {seeds : List Nat} {e : Engine σ} :
    (∀ x L new, e.states = x :: L → composite x = false → forbidden = false →
      List.Forall₂ (fun s y => make x s = .ok y) seeds new →
      e.addState composite forbidden make multi seeds = .ok ⟨e.states ++ new⟩) ∧
    ((e.states = [] ∨ (∃ x L, e.states = x :: L ∧ (composite x = true ∨
        ∃ s ∈ seeds, ∀ y, make x s ≠ .ok y)) ∨ forbidden = true) →
      ∃ er, e.addState composite forbidden make multi seeds = .err er e) := by
  constructor
  · intro x L new he hc hf hn
    unfold addState
    rw [he]
    simp only [hc, hf, construct_ok.mpr hn, Bool.false_eq_true, if_false]
  · intro h
    unfold addState
    cases he : e.states with
    | nil => exact ⟨_, rfl⟩
    | cons x L =>
      simp only
      split
      · exact ⟨_, rfl⟩
      · rename_i hc
        split
        · exact ⟨_, rfl⟩
        · rename_i hf
          rcases h with h | ⟨y, L', h, h'⟩ | h
          · rw [he] at h; cases h
          · rw [he] at h
            cases h
            rcases h' with h' | ⟨s, hs, hno⟩
            · exact absurd h' hc
            · cases hcs : construct multi (make x) seeds with
              | error er => exact ⟨er, rfl⟩
              | ok new =>
                exfalso
                obtain ⟨j, hj, rfl⟩ := List.getElem_of_mem hs
                have hF := construct_ok.mp hcs
                exact hno _ ((List.forall₂_iff_get.mp hF).2 j hj (hF.length_eq ▸ hj))
          · exact absurd h hf

/-- **C33.** `drop_state` removes exactly the State that the index denotes: those before it keep
their places, those after it move up by one. -/
theorem C33_drop_state {e : Engine σ} {i : Int} {k : Nat} (h : Denotes e.states.length i k) :
    ∃ e', e.dropState i = .ok e' ∧ e'.states.length + 1 = e.states.length ∧
      (∀ j, j < k → e'.states[j]? = e.states[j]?) ∧
      ∀ j, k ≤ j → e'.states[j]? = e.states[j + 1]? := by
  refine ⟨⟨e.states.eraseIdx k⟩, ?_, ?_, ?_, ?_⟩
  · unfold dropState
    rw [pyIndex_iff.mpr h]
  · rw [List.length_eraseIdx_of_lt h.1]
    have := h.1
    omega
  · intro j hj
    exact List.getElem?_eraseIdx_of_lt hj
  · intro j hj
    exact List.getElem?_eraseIdx_of_ge hj

/-- **C33.** `get_state` returns the State that the index denotes; both raise IndexError when it
denotes none, and nothing changes. -/
theorem C33_get_state {e : Engine σ} {i : Int} :
    (∀ k, Denotes e.states.length i k → ∃ x, e.states[k]? = some x ∧ e.getState i = .ok x) ∧
    ((¬ ∃ k, Denotes e.states.length i k) →
      e.getState i = .error .indexError ∧ e.dropState i = .err .indexError e) := by
  constructor
  · intro k hk
    refine ⟨e.states[k]'hk.1, List.getElem?_eq_getElem hk.1, ?_⟩
    unfold getState
    rw [pyIndex_iff.mpr hk]
    simp only [List.getElem?_eq_getElem hk.1]
  · intro h
    cases hi : pyIndex e.states.length i with
    | ok k => exact absurd ⟨k, pyIndex_iff.mp hi⟩ h
    | error er =>
      have := (pyIndex_error hi).1
      subst this
      simp only [getState, dropState, hi, and_self]

/-! ### Histories -/

/-- An operation on an Engine. -/
inductive EngineOp (σ : Type) where
  | query (multi : Bool) (f : σ → Res σ Unit) (statenos : Option (List Int))
  | update (multi : Bool) (f : σ → Out σ) (statenos : Option (List Int))
  | updateAll (multi : Bool) (f : σ → Out σ)
  | compose (multi : Bool) (fs : List (σ → Out σ))
  | alter (multi : Bool) (funcs : List (σ → Except Exn σ)) (statenos : Option (List Int))
  | drop (i : Int)
  | add (composite : σ → Bool) (forbidden : Bool) (make : σ → Nat → Except Exn σ) (multi : Bool)
      (seeds : List Nat)

/-- What the operation leaves, whether or not it raises. -/
def EngineOp.apply : EngineOp σ → Engine σ → Engine σ
  | .query multi f st, e => (e.evaluate multi f st).state
  | .update multi f st, e => (e.modify multi f st).state
  | .updateAll multi f, e => (e.modifyAll multi f).state
  | .compose multi fs, e => (e.composeAll multi (fun f => f) fs).state
  | .alter multi funcs st, e => (e.alter multi funcs st).state
  | .drop i, e => (e.dropState i).state
  | .add c fb make multi seeds, e => (e.addState c fb make multi seeds).state

/-- The methods and functions of the operation keep `P`, whether or not they raise. -/
def EngineOp.Keeps (P : σ → Prop) : EngineOp σ → Prop
  | .query _ f _ => ∀ x, P x → P (f x).state
  | .update _ f _ => ∀ x, P x → P (f x).state
  | .updateAll _ f => ∀ x, P x → P (f x).state
  | .compose _ fs => ∀ f ∈ fs, ∀ x, P x → P (f x).state
  | .alter _ funcs _ => ∀ g ∈ funcs, ∀ x y, P x → g x = .ok y → P y
  | .drop _ => True
  | .add _ _ make _ _ => ∀ x s y, P x → make x s = .ok y → P y

theorem modified_keeps {P : σ → Prop} {f : σ → Out σ} (hf : ∀ x, P x → P (f x).state) (x : σ)
    (hx : P x) : P (modified f x).state ∧ ∀ a y, modified f x = .ok a y → P a := by
  have := hf x hx
  unfold modified
  cases h : f x with
  | ok x' => rw [h] at this; exact ⟨this, fun a y e => by cases e; exact this⟩
  | err er x' => rw [h] at this; exact ⟨this, fun a y e => by cases e⟩

theorem altered_keeps {P : σ → Prop} {funcs : List (σ → Except Exn σ)}
    (hf : ∀ g ∈ funcs, ∀ x y, P x → g x = .ok y → P y) (x : σ) (hx : P x) :
    P (altered funcs x).state ∧ ∀ a y, altered funcs x = .ok a y → P a := by
  have key : ∀ y, AppliedInOrder funcs x y → P y := by
    induction funcs generalizing x with
    | nil => rintro y rfl; exact hx
    | cons g t ih =>
      rintro y ⟨z, h1, h2⟩
      exact ih (fun g hg => hf g (by simp [hg])) z (hf g (by simp) x z hx h1) y h2
  unfold altered
  cases h : alterOne funcs x with
  | ok x' => exact ⟨hx, fun a y e => by cases e; exact key _ (alterOne_ok.mp h)⟩
  | error er => exact ⟨hx, fun a y e => by cases e⟩

/-- **C33.** What the methods of the States keep, every history of operations of the Engine keeps in
every one of its States: also when operations raise, in the same process and in others. -/
theorem C33_histories {P : σ → Prop} (ops : List (EngineOp σ)) {e : Engine σ}
    (h0 : ∀ x ∈ e.states, P x) (hk : ∀ op ∈ ops, op.Keeps P) :
    ∀ x ∈ (ops.foldl (fun e op => op.apply e) e).states, P x := by
  induction ops generalizing e with
  | nil => exact h0
  | cons op t ih =>
    refine ih ?_ fun op hop => hk op (by simp [hop])
    have hop := hk op (by simp)
    cases op with
    | query multi f st =>
      simp only [EngineOp.apply, evaluate]
      split
      · exact h0
      · rename_i idx hidx
        have hf : ∀ c ∈ idx.map fun i => (i, f), ∀ x, P x → P (c.2 x).state := by
          intro c hc
          obtain ⟨i, -, rfl⟩ := List.mem_map.mp hc
          exact hop
        have := runCalls_all (multi := multi) h0 hf
        split
        · rename_i h; rw [h] at this; exact this
        · rename_i h; rw [h] at this; exact this
    | update multi f st =>
      simp only [EngineOp.apply, Engine.modify]
      split
      · exact h0
      · rename_i idx hidx
        have hf : ∀ c ∈ idx.map fun i => (i, modified f), ∀ x, P x →
            P (c.2 x).state ∧ ∀ a y, c.2 x = .ok a y → P a := by
          intro c hc
          obtain ⟨i, -, rfl⟩ := List.mem_map.mp hc
          exact modified_keeps hop
        have := runCalls_all (multi := multi) h0 fun c hc x hx => (hf c hc x hx).1
        split
        · rename_i h
          have hv := runCalls_values h0 hf h
          rw [h] at this
          exact assign_all hv this
        · rename_i h; rw [h] at this; exact this
    | updateAll multi f =>
      simp only [EngineOp.apply, modifyAll]
      have hf : ∀ c ∈ (List.range e.states.length).map fun i => (i, modified f), ∀ x, P x →
          P (c.2 x).state ∧ ∀ a y, c.2 x = .ok a y → P a := by
        intro c hc
        obtain ⟨i, -, rfl⟩ := List.mem_map.mp hc
        exact modified_keeps hop
      have := runCalls_all (multi := multi) h0 fun c hc x hx => (hf c hc x hx).1
      split
      · rename_i h; exact runCalls_values h0 hf h
      · rename_i h; rw [h] at this; exact this
    | compose multi fs =>
      simp only [EngineOp.apply, composeAll]
      split
      · exact h0
      · have hf : ∀ c ∈ ((List.range e.states.length).zip fs).map
            fun p => (p.1, modified p.2), ∀ x, P x →
            P (c.2 x).state ∧ ∀ a y, c.2 x = .ok a y → P a := by
          intro c hc
          obtain ⟨p, hp, rfl⟩ := List.mem_map.mp hc
          exact modified_keeps (hop _ (List.of_mem_zip hp).2)
        have := runCalls_all (multi := multi) h0 fun c hc x hx => (hf c hc x hx).1
        split
        · rename_i h; exact runCalls_values h0 hf h
        · rename_i h; rw [h] at this; exact this
    | alter multi funcs st =>
      simp only [EngineOp.apply, Engine.alter]
      split
      · exact h0
      · rename_i idx hidx
        have hf : ∀ c ∈ idx.map fun i => (i, altered funcs), ∀ x, P x →
            P (c.2 x).state ∧ ∀ a y, c.2 x = .ok a y → P a := by
          intro c hc
          obtain ⟨i, -, rfl⟩ := List.mem_map.mp hc
          exact altered_keeps hop
        have := runCalls_all (multi := multi) h0 fun c hc x hx => (hf c hc x hx).1
        split
        · rename_i h
          have hv := runCalls_values h0 hf h
          rw [h] at this
          exact assign_all hv this
        · rename_i h; rw [h] at this; exact this
    | drop i =>
      simp only [EngineOp.apply, dropState]
      split
      · exact h0
      · exact fun x hx => h0 x ((List.eraseIdx_sublist _ _).mem hx)
    | add c fb make multi seeds =>
      simp only [EngineOp.apply, addState]
      split
      · exact h0
      · rename_i x L he
        split
        · exact h0
        · split
          · exact h0
          · split
            · exact h0
            · rename_i new hn
              intro y hy
              simp only [Out.state_ok, List.mem_append] at hy
              rcases hy with hy | hy
              · exact h0 y hy
              · obtain ⟨j, hj, rfl⟩ := List.getElem_of_mem hy
                have hF := construct_ok.mp hn
                exact hop x _ _ (h0 x (by rw [he]; simp))
                  ((List.forall₂_iff_get.mp hF).2 j (hF.length_eq ▸ hj) hj)

/-! ### The processes -/

/-- **C33.** The parallel mapper of this model is what the processes of `parallel_map` compute: in
any schedule, when nothing can happen any more, the parent has returned the list that `forked` gives,
or has raised if it gives none. -/
theorem C33_parallel {L : List σ} {calls : List (Nat × (σ → Res σ α))} {ncpu cap : Nat}
    {fits : Nat → Bool} (hn : 0 < ncpu) (hcap : 0 < cap)
    {call : Nat × (σ → Res σ α) → PMap.Outcome α}
    (hv : ∀ c ∈ calls, ∀ a, call c = .value a ↔ Returns L c a)
    (he : ∀ c ∈ calls, call c ≠ .exits) {s : PMap.St α}
    (h : PMap.Reach call calls ncpu cap fits s)
    (hstuck : ∀ s', ¬ PMap.Step call calls ncpu cap fits s s') :
    (∀ as, forked L calls = .ok as → s.parent = .done ∧ s.fl = as.map some) ∧
    (∀ er, forked L calls = .error er → s.parent = .raised) := by
  obtain ⟨h1, h2⟩ := C31_parallel_map hn hcap he h hstuck
  constructor
  · intro as has
    refine h1 as ?_
    have hF := forked_ok.mp has
    clear h1 h2 h hstuck he has
    induction hF with
    | nil => rfl
    | cons a b ih =>
      simp only [List.map_cons]
      rw [(hv _ (by simp) _).mpr a, ih fun c hc => hv c (by simp [hc])]
  · intro er her
    refine h2 ?_
    by_contra hno
    push Not at hno
    have : ∃ as, List.Forall₂ (Returns L) calls as := by
      clear h1 h2 h hstuck her
      induction calls with
      | nil => exact ⟨[], .nil⟩
      | cons c t ih =>
        obtain ⟨as, has⟩ := ih (fun c hc => hv c (by simp [hc])) (fun c hc => he c (by simp [hc]))
          fun c hc => hno c (by simp [hc])
        cases hc : call c with
        | value a => exact ⟨a :: as, .cons ((hv c (by simp) a).mp hc) has⟩
        | raises => exact absurd hc (hno c (by simp))
        | exits => exact absurd hc (he c (by simp))
    obtain ⟨as, has⟩ := this
    rw [forked_ok.mpr has] at her
    cases her

/-! ### Where the claim fails -/

/-- **C33 does not hold for an empty request.** `statenos=[]` means all states, in queries and
updates alike. -/
theorem C33_empty_violated (multi : Bool) (f : σ → Res σ α) (g : σ → Out σ)
    (funcs : List (σ → Except Exn σ)) (e : Engine σ) :
    e.evaluate multi f (some []) = e.evaluate multi f none ∧
    e.modify multi g (some []) = e.modify multi g none ∧
    e.alter multi funcs (some []) = e.alter multi funcs none := ⟨rfl, rfl, rfl⟩

/-- An update of numbers that fails for 0, after having spoilt the object. -/
def fussy (n : Nat) : Out Nat := if n = 0 then .err .valueError 77 else .ok (n + 1)

/-- **C33 does not hold when an update raises in the same process.** The states before the one that
raised keep their update, those after it have none: the states of an Engine come apart. -/
theorem C33_inplace_violated :
    (⟨[1, 0, 2]⟩ : Engine Nat).modifyAll false fussy = .err .valueError ⟨[2, 77, 2]⟩ ∧
    (⟨[1, 0, 2]⟩ : Engine Nat).modifyAll true fussy = .err .runtime ⟨[1, 0, 2]⟩ := ⟨rfl, rfl⟩

/-- **C33 does not hold for a state requested twice.** It is updated twice in the same process, and
once in others. -/
theorem C33_twice_violated :
    (⟨[5, 9]⟩ : Engine Nat).modify false fussy (some [0, -2]) = .ok ⟨[7, 9]⟩ ∧
    (⟨[5, 9]⟩ : Engine Nat).modify true fussy (some [0, -2]) = .ok ⟨[6, 9]⟩ := ⟨rfl, rfl⟩

/-! ### The hypotheses can be met -/

example : Requested 3 (some [-1, 0]) [2, 0] :=
  ⟨by simp, .cons ⟨by decide, .inr (by decide)⟩ (.cons ⟨by decide, .inl rfl⟩ .nil)⟩

example : (⟨[5, 6, 7]⟩ : Engine Nat).evaluate false (fun n => .ok (n * n) n) (some [-1, 0]) =
    .ok [49, 25] ⟨[5, 6, 7]⟩ :=
  C33_query false (ks := [2, 0])
    ⟨by simp, .cons ⟨by decide, .inr (by decide)⟩ (.cons ⟨by decide, .inl rfl⟩ .nil)⟩
    (.cons ⟨7, 7, rfl, rfl⟩ (.cons ⟨5, 5, rfl, rfl⟩ .nil)) (.inr fun _ _ => rfl)

example : (⟨[5, 6, 7]⟩ : Engine Nat).modify true fussy (some [-1, 0]) = .ok ⟨[6, 6, 8]⟩ := rfl
example : (⟨[5, 6, 7]⟩ : Engine Nat).modifyAll false fussy = .ok ⟨[6, 7, 8]⟩ :=
  C33_update_all false (.cons rfl (.cons rfl (.cons rfl .nil)))
example : ¬ ∃ k, Denotes 3 (-4) k := by rintro ⟨k, h⟩; unfold Denotes at h; omega
example : (⟨[5, 6, 7]⟩ : Engine Nat).dropState (-1) = .ok ⟨[5, 6]⟩ := rfl
example : (⟨[5, 6, 7]⟩ : Engine Nat).alter false [fun n => .ok (n + 1), fun n => .ok (n * 2)]
    (some [1]) = .ok ⟨[5, 14, 7]⟩ := rfl
/-- Numbers stay below a bound that the operations keep. -/
example : (EngineOp.updateAll false fussy).Keeps fun n => n ≠ 0 := by
  intro x hx
  unfold fussy
  split
  · exact absurd ‹x = 0› hx
  · simp

end Cgpm.Props
