import Verif.Spec.Engine
import Mathlib.Data.List.Forall2
import Mathlib.Data.List.Nodup

namespace Cgpm.Engine
open Cgpm Cgpm.Spec
variable {σ α β : Type}

theorem pyIndex_iff {n : Nat} {i : Int} {k : Nat} : pyIndex n i = .ok k ↔ Denotes n i k := by
  unfold pyIndex Denotes
  split
  · rename_i h
    constructor
    · intro e; cases e; omega
    · intro e; congr 1; omega
  · split
    · constructor
      · intro e; cases e; omega
      · intro e; congr 1; omega
    · constructor
      · intro e; cases e
      · intro e; omega

theorem pyIndex_error {n : Nat} {i : Int} {e : Exn} (h : pyIndex n i = .error e) :
    e = .indexError ∧ ¬ ∃ k, Denotes n i k := by
  refine ⟨?_, ?_⟩
  · unfold pyIndex at h
    split at h
    · cases h
    · split at h <;> cases h
      rfl
  · rintro ⟨k, hk⟩
    rw [pyIndex_iff.mpr hk] at h
    cases h

theorem resolve_iff {n : Nat} {l : List Int} {ks : List Nat} :
    resolve n l = .ok ks ↔ List.Forall₂ (Denotes n) l ks := by
  induction l generalizing ks with
  | nil =>
    constructor
    · intro h; cases h; exact .nil
    · intro h; cases h; rfl
  | cons i t ih =>
    unfold resolve
    cases hi : pyIndex n i with
    | error e =>
      constructor
      · intro h; cases h
      · intro h
        cases h with
        | cons h1 h2 => exact absurd ⟨_, h1⟩ (pyIndex_error hi).2
    | ok k =>
      have hk := pyIndex_iff.mp hi
      cases ht : resolve n t with
      | error e =>
        constructor
        · intro h; cases h
        · intro h
          cases h with
          | cons h1 h2 => rw [ih.mpr h2] at ht; cases ht
      | ok ks' =>
        constructor
        · intro h; cases h; exact .cons hk (ih.mp ht)
        · intro h
          cases h with
          | cons h1 h2 =>
            rw [ih.mpr h2] at ht
            rw [pyIndex_iff.mpr h1] at hi
            cases ht; cases hi
            rfl

theorem resolve_error {n : Nat} {l : List Int} (h : ∃ i ∈ l, ¬ ∃ k, Denotes n i k) :
    resolve n l = .error .indexError := by
  induction l with
  | nil => obtain ⟨i, hi, -⟩ := h; cases hi
  | cons i t ih =>
    unfold resolve
    cases hi : pyIndex n i with
    | error e => rw [(pyIndex_error hi).1]
    | ok k =>
      obtain ⟨j, hj, hd⟩ := h
      rcases List.mem_cons.mp hj with rfl | hj
      · exact absurd ⟨k, pyIndex_iff.mp hi⟩ hd
      · rw [ih ⟨j, hj, hd⟩]; rfl

theorem resolve_range (n : Nat) : resolve n ((List.range n).map Int.ofNat) = .ok (List.range n) := by
  rw [resolve_iff, List.forall₂_map_left_iff, List.forall₂_same]
  intro k hk
  exact ⟨List.mem_range.mp hk, .inl rfl⟩

theorem resolve_requested {e : Engine σ} {statenos : Option (List Int)} {ks : List Nat}
    (h : Requested e.states.length statenos ks) :
    resolve e.states.length (e.selection statenos) = .ok ks := by
  cases statenos with
  | none => cases h; exact resolve_range _
  | some l =>
    obtain ⟨h1, h2⟩ := h
    cases l with
    | nil => exact absurd rfl h1
    | cons i t => exact resolve_iff.mpr h2

theorem denotes_lt {n : Nat} {l : List Int} {ks : List Nat} (h : List.Forall₂ (Denotes n) l ks) :
    ∀ k ∈ ks, k < n := by
  induction h with
  | nil => simp
  | cons h1 _ ih =>
    intro k hk
    rcases List.mem_cons.mp hk with rfl | hk
    · exact h1.1
    · exact ih k hk

theorem requested_lt {n : Nat} {statenos : Option (List Int)} {ks : List Nat}
    (h : Requested n statenos ks) : ∀ k ∈ ks, k < n := by
  cases statenos with
  | none => cases h; intro k hk; exact List.mem_range.mp hk
  | some l => exact denotes_lt h.2

/-! ### The mappers -/

/-- The value a call returns. -/
def Returns (L : List σ) (c : Nat × (σ → Res σ α)) (a : α) : Prop :=
  ∃ x x', L[c.1]? = some x ∧ c.2 x = .ok a x'

theorem forked_ok {L : List σ} {calls : List (Nat × (σ → Res σ α))} {as : List α} :
    forked L calls = .ok as ↔ List.Forall₂ (Returns L) calls as := by
  induction calls generalizing as with
  | nil =>
    constructor
    · intro h; cases h; exact .nil
    · intro h; cases h; rfl
  | cons c t ih =>
    obtain ⟨i, f⟩ := c
    unfold forked
    constructor
    · intro h
      split at h
      · rename_i a x' as' h1 h2
        cases h
        cases hL : L[i]? with
        | none => rw [hL] at h1; cases h1
        | some x =>
          rw [hL] at h1
          exact .cons ⟨x, x', hL, Option.some.inj h1⟩ (ih.mp h2)
      · cases h
    · intro h
      cases h with
      | cons h1 h2 =>
        obtain ⟨x, x', e1, e2⟩ := h1
        simp only at e1 e2
        rw [e1, Option.map_some, e2, ih.mpr h2]

theorem forked_error {L : List σ} {calls : List (Nat × (σ → Res σ α))} {e : Exn}
    (h : forked L calls = .error e) : e = .runtime := by
  cases calls with
  | nil => cases h
  | cons c t =>
    unfold forked at h
    split at h <;> cases h
    rfl

/-- In the same process: read-only calls. -/
theorem inPlace_readonly {L : List σ} {calls : List (Nat × (σ → Res σ α))} {as : List α}
    (h : List.Forall₂ (Returns L) calls as)
    (hro : ∀ c ∈ calls, ∀ x, L[c.1]? = some x → (c.2 x).state = x) : inPlace calls L = .ok as L := by
  induction h with
  | nil => rfl
  | cons h1 h2 ih =>
    rename_i c a t as'
    obtain ⟨i, f⟩ := c
    obtain ⟨x, x', e1, e2⟩ := h1
    simp only at e1 e2
    have hx : x' = x := by
      have := hro (i, f) (by simp) x e1
      simp only [e2] at this
      exact this
    subst hx
    have hL : L.set i x' = L := by
      obtain ⟨hi, rfl⟩ := List.getElem?_eq_some_iff.mp e1
      exact List.set_getElem_self hi
    unfold inPlace
    rw [e1, Option.map_some, e2]
    simp only [hL]
    rw [ih fun c hc => hro c (by simp [hc])]

theorem inPlace_readonly_raises {L : List σ} {calls : List (Nat × (σ → Res σ α))}
    (hlt : ∀ c ∈ calls, c.1 < L.length)
    (h : ∃ c ∈ calls, ∃ x, L[c.1]? = some x ∧ Raises c.2 x)
    (hro : ∀ c ∈ calls, ∀ x, L[c.1]? = some x → (c.2 x).state = x) :
    ∃ e, inPlace calls L = .err e L := by
  induction calls with
  | nil => obtain ⟨c, hc, -⟩ := h; cases hc
  | cons c t ih =>
    obtain ⟨i, f⟩ := c
    have hi : i < L.length := hlt (i, f) (by simp)
    unfold inPlace
    rw [List.getElem?_eq_getElem hi, Option.map_some]
    have hr : (f L[i]).state = L[i] := hro (i, f) (by simp) _ (List.getElem?_eq_getElem hi)
    cases hf : f L[i] with
    | err e x' =>
      rw [hf] at hr
      simp only [Res.state_err] at hr
      simp only [hr, List.set_getElem_self]
      exact ⟨e, rfl⟩
    | ok a x' =>
      rw [hf] at hr
      simp only [Res.state_ok] at hr
      simp only [hr, List.set_getElem_self]
      obtain ⟨c', hc', x, hx, e, x'', hfx⟩ := h
      rcases List.mem_cons.mp hc' with rfl | hc'
      · simp only [List.getElem?_eq_getElem hi, Option.some.injEq] at hx hfx
        subst hx
        rw [hf] at hfx
        cases hfx
      · obtain ⟨e, he⟩ := ih (fun c hc => hlt c (by simp [hc]))
          ⟨c', hc', x, hx, e, x'', hfx⟩ fun c hc => hro c (by simp [hc])
        rw [he]
        exact ⟨e, rfl⟩

/-- In the same process: updates of distinct states. -/
theorem inPlace_modify {L : List σ} {calls : List (Nat × (σ → Out σ))} {xs : List σ}
    (hnd : (calls.map Prod.fst).Nodup)
    (h : List.Forall₂ (fun c x' => ∃ x, L[c.1]? = some x ∧ c.2 x = .ok x') calls xs) :
    inPlace (calls.map fun c => (c.1, modified c.2)) L =
      .ok xs (assign (calls.map Prod.fst) xs L) := by
  induction calls generalizing L xs with
  | nil => cases h; rfl
  | cons c t ih =>
    cases h with
    | cons h1 h2 =>
      rename_i x' xs'
      obtain ⟨i, f⟩ := c
      obtain ⟨x, e1, e2⟩ := h1
      simp only [List.map_cons, List.nodup_cons] at hnd e1 e2
      simp only [List.map_cons]
      unfold inPlace
      have hm : modified f x = .ok x' x' := by unfold modified; rw [e2]
      simp only [e1, Option.map_some, hm]
      rw [ih hnd.2 (L := L.set i x') (xs := xs') ?_]
      · rfl
      · refine (List.forall₂_iff_get.mpr ⟨h2.length_eq, fun j hj hj' => ?_⟩)
        obtain ⟨x, a1, a2⟩ := (List.forall₂_iff_get.mp h2).2 j hj hj'
        refine ⟨x, ?_, a2⟩
        rw [List.getElem?_set_ne, a1]
        rintro rfl
        exact hnd.1 (List.mem_map.mpr ⟨_, List.get_mem _ _, rfl⟩)

theorem assign_length (ks : List Nat) (xs L : List σ) : (assign ks xs L).length = L.length := by
  induction ks generalizing xs L with
  | nil => rfl
  | cons k t ih =>
    cases xs with
    | nil => rfl
    | cons x xs => unfold assign; rw [ih, List.length_set]

theorem assign_not_mem {ks : List Nat} {xs L : List σ} {k : Nat} (h : k ∉ ks) :
    (assign ks xs L)[k]? = L[k]? := by
  induction ks generalizing xs L with
  | nil => rfl
  | cons j t ih =>
    cases xs with
    | nil => rfl
    | cons x xs =>
      unfold assign
      rw [ih fun hm => h (by simp [hm]), List.getElem?_set_ne]
      rintro rfl
      exact h (by simp)

/-- Assignments to distinct positions. -/
theorem assign_mem {ks : List Nat} {xs L : List σ} (hnd : ks.Nodup) (hlt : ∀ k ∈ ks, k < L.length)
    (j : Nat) {k : Nat} {x : σ} (hk : ks[j]? = some k) (hx : xs[j]? = some x) :
    (assign ks xs L)[k]? = some x := by
  induction ks generalizing xs L j with
  | nil => simp at hk
  | cons i t ih =>
    cases xs with
    | nil => simp at hx
    | cons y ys =>
      obtain ⟨hn1, hn2⟩ := List.nodup_cons.mp hnd
      unfold assign
      cases j with
      | zero =>
        simp only [List.getElem?_cons_zero, Option.some.injEq] at hk hx
        subst hk hx
        rw [assign_not_mem hn1, List.getElem?_set_self (hlt i (by simp))]
      | succ j =>
        simp only [List.getElem?_cons_succ] at hk hx
        exact ih hn2 (fun k hk => by rw [List.length_set]; exact hlt k (by simp [hk])) j hk hx

/-- Assigning the same values twice is assigning them once. -/
theorem assign_assign {ks : List Nat} {xs L : List σ} (hnd : ks.Nodup)
    (hlt : ∀ k ∈ ks, k < L.length) (hlen : ks.length = xs.length) :
    assign ks xs (assign ks xs L) = assign ks xs L := by
  apply List.ext_getElem?
  intro k
  by_cases hk : k ∈ ks
  · obtain ⟨j, hj, rfl⟩ := List.getElem_of_mem hk
    have hj' : j < xs.length := hlen ▸ hj
    rw [assign_mem hnd (by rw [assign_length]; exact hlt) j (List.getElem?_eq_getElem hj)
        (List.getElem?_eq_getElem hj'),
      assign_mem hnd hlt j (List.getElem?_eq_getElem hj) (List.getElem?_eq_getElem hj')]
  · rw [assign_not_mem hk]

theorem modified_ok {f : σ → Out σ} {x x' y : σ} (h : modified f x = .ok x' y) :
    f x = .ok x' ∧ y = x' := by
  unfold modified at h
  split at h <;> cases h
  rename_i h
  exact ⟨h, rfl⟩

/-- A property kept by every call is kept by the mapper, also when it raises. -/
theorem inPlace_all {P : σ → Prop} {calls : List (Nat × (σ → Res σ α))} {L : List σ}
    (hL : ∀ x ∈ L, P x) (hf : ∀ c ∈ calls, ∀ x, P x → P (c.2 x).state) :
    ∀ x ∈ (inPlace calls L).state, P x := by
  induction calls generalizing L with
  | nil => exact hL
  | cons c t ih =>
    obtain ⟨i, f⟩ := c
    unfold inPlace
    cases hi : L[i]? with
    | none => exact hL
    | some x =>
      have hx : P (f x).state := hf (i, f) (by simp) x (hL x (List.mem_of_getElem? hi))
      rw [Option.map_some]
      cases hfx : f x with
      | err e x' =>
        rw [hfx] at hx
        intro y hy
        rcases List.mem_or_eq_of_mem_set hy with hy | rfl
        · exact hL y hy
        · exact hx
      | ok a x' =>
        rw [hfx] at hx
        have := ih (L := L.set i x') (fun y hy => by
          rcases List.mem_or_eq_of_mem_set hy with hy | rfl
          · exact hL y hy
          · exact hx) fun c hc => hf c (by simp [hc])
        simp only
        split
        · rename_i h; rw [h] at this; exact this
        · rename_i h; rw [h] at this; exact this

theorem runCalls_all {P : σ → Prop} {multi : Bool} {calls : List (Nat × (σ → Res σ α))} {L : List σ}
    (hL : ∀ x ∈ L, P x) (hf : ∀ c ∈ calls, ∀ x, P x → P (c.2 x).state) :
    ∀ x ∈ (runCalls multi calls L).state, P x := by
  unfold runCalls
  cases multi with
  | false => exact inPlace_all hL hf
  | true =>
    simp only [if_true]
    split <;> exact hL

/-- A property kept by every call holds of the values of updates. -/
theorem inPlace_values {P : σ → Prop} {calls : List (Nat × (σ → Res σ α))} {Q : α → Prop}
    {L L' : List σ} {as : List α} (hL : ∀ x ∈ L, P x)
    (hf : ∀ c ∈ calls, ∀ x, P x → P (c.2 x).state ∧ ∀ a y, c.2 x = .ok a y → Q a)
    (h : inPlace calls L = .ok as L') : ∀ a ∈ as, Q a := by
  induction calls generalizing L as with
  | nil => cases h; simp
  | cons c t ih =>
    obtain ⟨i, f⟩ := c
    unfold inPlace at h
    cases hi : L[i]? with
    | none => rw [hi] at h; cases h
    | some x =>
      rw [hi] at h
      simp only [Option.map_some] at h
      obtain ⟨h1, h2⟩ := hf (i, f) (by simp) x (hL x (List.mem_of_getElem? hi))
      cases hfx : f x with
      | err e x' => rw [hfx] at h; cases h
      | ok a x' =>
        rw [hfx] at h
        simp only at h h1 h2
        rw [hfx] at h1
        cases ht : inPlace t (L.set i x') with
        | err e L' => rw [ht] at h; cases h
        | ok as' L'' =>
          rw [ht] at h
          cases h
          intro b hb
          rcases List.mem_cons.mp hb with rfl | hb
          · exact h2 _ _ hfx
          · refine ih (L := L.set i x') (fun y hy => ?_) (fun c hc => hf c (by simp [hc])) ht b hb
            rcases List.mem_or_eq_of_mem_set hy with hy | rfl
            · exact hL y hy
            · exact h1

theorem runCalls_values {P : σ → Prop} {multi : Bool} {calls : List (Nat × (σ → Res σ α))}
    {Q : α → Prop} {L L' : List σ} {as : List α} (hL : ∀ x ∈ L, P x)
    (hf : ∀ c ∈ calls, ∀ x, P x → P (c.2 x).state ∧ ∀ a y, c.2 x = .ok a y → Q a)
    (h : runCalls multi calls L = .ok as L') : ∀ a ∈ as, Q a := by
  unfold runCalls at h
  cases multi with
  | false => exact inPlace_values hL hf h
  | true =>
    simp only [if_true] at h
    cases hfk : forked L calls with
    | error e => rw [hfk] at h; cases h
    | ok as' =>
      rw [hfk] at h
      cases h
      intro a ha
      obtain ⟨j, hj, rfl⟩ := List.getElem_of_mem ha
      have hF := forked_ok.mp hfk
      have hj' : j < calls.length := by rw [hF.length_eq]; exact hj
      obtain ⟨x, x', e1, e2⟩ := (List.forall₂_iff_get.mp hF).2 j hj' hj
      exact (hf _ (List.get_mem _ _) x (hL x (List.mem_of_getElem? e1))).2 _ _ e2

theorem assign_all {P : σ → Prop} {ks : List Nat} {xs L : List σ} (hx : ∀ x ∈ xs, P x)
    (hL : ∀ x ∈ L, P x) : ∀ x ∈ assign ks xs L, P x := by
  induction ks generalizing xs L with
  | nil => exact hL
  | cons k t ih =>
    cases xs with
    | nil => exact hL
    | cons y ys =>
      unfold assign
      refine ih (fun x h => hx x (by simp [h])) fun x h => ?_
      rcases List.mem_or_eq_of_mem_set h with h | rfl
      · exact hL x h
      · exact hx _ (by simp)

end Cgpm.Engine
