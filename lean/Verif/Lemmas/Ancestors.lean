import Verif.Spec.Ancestors
import Verif.Props.Network

/-! The ancestors and descendents of a variable. -/
namespace Cgpm
namespace Net
variable {R V Ω : Type}

/-- Components can be ranked. -/
theorem WellFormed.rank {cgpms : List (NetCgpm R V Ω)} (h : WellFormed cgpms) :
    ∃ rk : Nat → Nat, (∀ i, i < cgpms.length → rk i < cgpms.length) ∧
      ∀ i j, Feeds cgpms i j → rk i < rk j := by
  obtain ⟨net, hn⟩ := (Props.C26_accepted_iff Props.idOrder Props.idOrder_lists cgpms none).1 h
  obtain ⟨-, -, -, hp, hf, -⟩ := Props.C26_accepted_network _ Props.idOrder_lists cgpms none net hn
  refine ⟨fun i => net.topo.idxOf i, fun i hi => ?_, hf⟩
  have : i ∈ net.topo := hp.mem_iff.mpr (List.mem_range.mpr hi)
  have := List.idxOf_lt_length_iff.mpr this
  rwa [hp.length_eq, List.length_range] at this

theorem mem_parentsOf {cgpms : List (NetCgpm R V Ω)} (h : WellFormed cgpms) (a v : Nat) :
    a ∈ parentsOf cgpms (variableToCgpm cgpms) v ↔ Parent cgpms a v := by
  have hu := vToC_iff h.unique v
  unfold parentsOf Parent
  constructor
  · intro ha
    split at ha
    · cases ha
    · rename_i i hi
      obtain ⟨c, hc, hv⟩ := (hu i).mp hi
      rw [hc] at ha
      exact ⟨c, List.mem_of_getElem? hc, hv, ha⟩
  · rintro ⟨c, hc, hv, ha⟩
    obtain ⟨i, hi, e⟩ := List.getElem_of_mem hc
    have hc' : cgpms[i]? = some c := by rw [List.getElem?_eq_getElem hi, e]
    rw [(hu i).mpr ⟨c, hc', hv⟩]
    simpa [hc'] using ha

theorem mem_childrenOf (cgpms : List (NetCgpm R V Ω)) (v b : Nat) :
    b ∈ childrenOf cgpms v ↔ Parent cgpms v b := by
  unfold childrenOf Parent
  simp only [List.mem_flatMap, List.mem_filter, List.contains_iff_mem]
  constructor
  · rintro ⟨c, ⟨h1, h2⟩, h3⟩; exact ⟨c, h1, h3, h2⟩
  · rintro ⟨c, h1, h3, h2⟩; exact ⟨c, ⟨h1, h2⟩, h3⟩

theorem transGen_head_iff {α : Type} {r : α → α → Prop} (a b : α) :
    Relation.TransGen r a b ↔ ∃ p, r p b ∧ (a = p ∨ Relation.TransGen r a p) := by
  constructor
  · intro h
    cases h with
    | single h => exact ⟨a, h, .inl rfl⟩
    | tail h1 h2 => exact ⟨_, h2, .inr h1⟩
  · rintro ⟨p, hp, rfl | h⟩
    · exact .single hp
    · exact .tail h hp

theorem transGen_tail_iff {α : Type} {r : α → α → Prop} (a b : α) :
    Relation.TransGen r a b ↔ ∃ p, r a p ∧ (b = p ∨ Relation.TransGen r p b) := by
  constructor
  · intro h
    rcases Relation.TransGen.head'_iff.mp h with ⟨p, h1, h2⟩
    rcases Relation.reflTransGen_iff_eq_or_transGen.mp h2 with e | h2
    · exact ⟨p, h1, .inl e⟩
    · exact ⟨p, h1, .inr h2⟩
  · rintro ⟨p, hp, rfl | h⟩
    · exact .single hp
    · exact .head hp h

/-- A traversal of the graph with parents given by `next`. -/
theorem mapM_some {α β : Type} {f : α → Option β} {P : α → β → Prop} {l : List α}
    (h : ∀ a ∈ l, ∃ b, f a = some b ∧ P a b) : ∃ m, l.mapM f = some m ∧ List.Forall₂ P l m := by
  induction l with
  | nil => exact ⟨[], rfl, .nil⟩
  | cons a t ih =>
    obtain ⟨b, hb, hp⟩ := h a (by simp)
    obtain ⟨m, hm, hf⟩ := ih fun a ha => h a (by simp [ha])
    exact ⟨b :: m, by simp [List.mapM_cons, hb, hm], .cons hp hf⟩

theorem mem_flatten_forall₂ {α β : Type} {Q : α → β → Prop} {l : List α} {m : List (List β)}
    (h : List.Forall₂ (fun a x => ∀ b, b ∈ x ↔ Q a b) l m) (b : β) :
    b ∈ m.flatten ↔ ∃ a ∈ l, Q a b := by
  induction h with
  | nil => simp
  | cons h1 _ ih => simp [h1, ih]

theorem ancestorsGo_spec {cgpms : List (NetCgpm R V Ω)} (h : WellFormed cgpms) {rk : Nat → Nat}
    (hrk : ∀ i j, Feeds cgpms i j → rk i < rk j) (limit : Nat) (v : Nat)
    (hl : ∀ i, (variableToCgpm cgpms).get? v = some i → rk i + 1 < limit) (h0 : 0 < limit) :
    ∃ l, ancestorsGo cgpms (variableToCgpm cgpms) limit v = some l ∧
      ∀ a, a ∈ l ↔ Ancestor cgpms a v := by
  induction limit generalizing v with
  | zero => omega
  | succ n ih =>
    have hpar : ∀ p ∈ parentsOf cgpms (variableToCgpm cgpms) v,
        ∃ l, ancestorsGo cgpms (variableToCgpm cgpms) n p = some l ∧
          ∀ a, a ∈ l ↔ Ancestor cgpms a p := by
      intro p hp
      obtain ⟨c, hc, hv, hpc⟩ := (mem_parentsOf h p v).mp hp
      obtain ⟨j, hj, e⟩ := List.getElem_of_mem hc
      have hc' : cgpms[j]? = some c := by rw [List.getElem?_eq_getElem hj, e]
      have hvj := (vToC_iff h.unique v j).mpr ⟨c, hc', hv⟩
      have := hl j hvj
      refine ih p (fun i hi => ?_) (by omega)
      obtain ⟨b, hb, hpb⟩ := vToC_some hi
      have := hrk i j ⟨b, c, hb, hc', p, hpb, hpc⟩
      omega
    obtain ⟨m, hm, hf⟩ := mapM_some hpar
    refine ⟨m.flatten ++ parentsOf cgpms (variableToCgpm cgpms) v, by
      simp only [ancestorsGo, hm, Option.map_some], fun a => ?_⟩
    rw [List.mem_append, mem_flatten_forall₂ hf]
    unfold Ancestor
    rw [transGen_head_iff]
    constructor
    · rintro (⟨p, hp, ha⟩ | ha)
      · exact ⟨p, (mem_parentsOf h p v).mp hp, .inr ha⟩
      · exact ⟨a, (mem_parentsOf h a v).mp ha, .inl rfl⟩
    · rintro ⟨p, hp, rfl | ha⟩
      · exact .inr ((mem_parentsOf h _ v).mpr hp)
      · exact .inl ⟨p, (mem_parentsOf h p v).mpr hp, ha⟩

theorem descendentsGo_spec {cgpms : List (NetCgpm R V Ω)} (h : WellFormed cgpms) {rk : Nat → Nat}
    (hrk : ∀ i j, Feeds cgpms i j → rk i < rk j) {n : Nat} (hn : ∀ i, i < cgpms.length → rk i < n)
    (limit : Nat) (v : Nat)
    (hl : ∀ i, (variableToCgpm cgpms).get? v = some i → n - rk i < limit)
    (hl' : (variableToCgpm cgpms).get? v = none → n + 1 < limit) (h0 : 0 < limit) :
    ∃ l, descendentsGo cgpms limit v = some l ∧ ∀ b, b ∈ l ↔ Ancestor cgpms v b := by
  induction limit generalizing v with
  | zero => omega
  | succ m ih =>
    have hpar : ∀ p ∈ childrenOf cgpms v,
        ∃ l, descendentsGo cgpms m p = some l ∧ ∀ b, b ∈ l ↔ Ancestor cgpms p b := by
      intro p hp
      obtain ⟨c, hc, hv, hpc⟩ := (mem_childrenOf cgpms v p).mp hp
      obtain ⟨j, hj, e⟩ := List.getElem_of_mem hc
      have hc' : cgpms[j]? = some c := by rw [List.getElem?_eq_getElem hj, e]
      have hvj := (vToC_iff h.unique p j).mpr ⟨c, hc', hv⟩
      have hjn := hn j hj
      have hm : n - rk j < m := by
        cases hv' : (variableToCgpm cgpms).get? v with
        | none => have := hl' hv'; omega
        | some i =>
          obtain ⟨b, hb, hpb⟩ := vToC_some hv'
          have := hrk i j ⟨b, c, hb, hc', v, hpb, hpc⟩
          have := hl i hv'
          omega
      refine ih p (fun i hi => ?_) (fun hno => ?_) (by omega)
      · rw [hvj] at hi; cases hi; exact hm
      · rw [hvj] at hno; cases hno
    obtain ⟨q, hq, hf⟩ := mapM_some hpar
    refine ⟨q.flatten ++ childrenOf cgpms v, by
      simp only [descendentsGo, hq, Option.map_some], fun b => ?_⟩
    rw [List.mem_append, mem_flatten_forall₂ hf]
    unfold Ancestor
    rw [transGen_tail_iff]
    constructor
    · rintro (⟨p, hp, ha⟩ | ha)
      · exact ⟨p, (mem_childrenOf cgpms v p).mp hp, .inr ha⟩
      · exact ⟨b, (mem_childrenOf cgpms v b).mp ha, .inl rfl⟩
    · rintro ⟨p, hp, rfl | ha⟩
      · exact .inr ((mem_childrenOf cgpms v _).mpr hp)
      · exact .inl ⟨p, (mem_childrenOf cgpms v p).mpr hp, ha⟩

/-- `retrieve_ancestors` on a well formed network. -/
theorem retrieveAncestors_ok {cgpms : List (NetCgpm R V Ω)} (h : WellFormed cgpms) {limit : Nat}
    (hl : cgpms.length < limit) {q : Nat} (hq : Produced cgpms q) :
    ∃ l, retrieveAncestors limit cgpms q = .ok l ∧ ∀ a, a ∈ l ↔ Ancestor cgpms a q := by
  obtain ⟨rk, h1, h2⟩ := h.rank
  obtain ⟨l, h3, h4⟩ := ancestorsGo_spec h h2 limit q (fun i hi => by
    obtain ⟨c, hc, -⟩ := vToC_some hi
    have := h1 i (List.getElem?_eq_some_iff.mp hc).1
    omega) (by omega)
  refine ⟨l, ?_, h4⟩
  unfold retrieveAncestors
  rw [if_pos ((vToC_has cgpms q).mpr hq), h3]

theorem retrieveAncestors_unknown {cgpms : List (NetCgpm R V Ω)} {limit : Nat} {q : Nat}
    (hq : ¬ Produced cgpms q) : retrieveAncestors limit cgpms q = .error .valueError := by
  unfold retrieveAncestors
  rw [if_neg (fun h => hq ((vToC_has cgpms q).mp h))]

theorem retrieveDescendents_ok {cgpms : List (NetCgpm R V Ω)} (h : WellFormed cgpms) {limit : Nat}
    (hl : cgpms.length < limit) {q : Nat} (hq : Produced cgpms q) :
    ∃ l, retrieveDescendents limit cgpms q = .ok l ∧ ∀ a, a ∈ l ↔ Ancestor cgpms q a := by
  obtain ⟨rk, h1, h2⟩ := h.rank
  obtain ⟨l, h3, h4⟩ := descendentsGo_spec h h2 h1 limit q (fun i hi => by omega) (fun hno => by
    have := (vToC_has cgpms q).mpr hq
    rw [Dict.has_iff] at this
    exact absurd this ((Dict.get?_eq_none_iff _ _).mp hno)) (by omega)
  unfold retrieveDescendents
  rw [if_pos ((vToC_has cgpms q).mpr hq), h3]
  exact ⟨l, rfl, h4⟩

theorem retrieveDescendents_unknown {cgpms : List (NetCgpm R V Ω)} {limit : Nat} {q : Nat}
    (hq : ¬ Produced cgpms q) : retrieveDescendents limit cgpms q = .error .valueError := by
  unfold retrieveDescendents
  rw [if_neg (fun h => hq ((vToC_has cgpms q).mp h))]

theorem ancestor_irrefl {cgpms : List (NetCgpm R V Ω)} (h : WellFormed cgpms) (q : Nat) :
    ¬ Ancestor cgpms q q := by
  have key : ∀ a b, Ancestor cgpms a b → Produced cgpms a → ∃ i j, 
      (∃ x, cgpms[i]? = some x ∧ a ∈ x.outputs) ∧ (∃ y, cgpms[j]? = some y ∧ b ∈ y.outputs) ∧
      Relation.TransGen (Feeds cgpms) i j := by
    intro a b hab ha
    induction hab with
    | single h1 =>
      obtain ⟨y, hy, h2, h3⟩ := h1
      obtain ⟨x, hx, h4⟩ := ha
      obtain ⟨i, hi⟩ := List.mem_iff_getElem?.mp hx
      obtain ⟨j, hj⟩ := List.mem_iff_getElem?.mp hy
      exact ⟨i, j, ⟨x, hi, h4⟩, ⟨y, hj, h2⟩, .single ⟨x, y, hi, hj, a, h4, h3⟩⟩
    | tail _ h1 ih =>
      obtain ⟨i, j, h4, ⟨x, hx, h5⟩, h6⟩ := ih
      obtain ⟨y, hy, h2, h3⟩ := h1
      obtain ⟨k, hk⟩ := List.mem_iff_getElem?.mp hy
      exact ⟨i, k, h4, ⟨y, hk, h2⟩, h6.tail ⟨x, y, hx, hk, _, h5, h3⟩⟩
  intro hc
  have hp : Produced cgpms q := by
    obtain ⟨p, ⟨c, h1, h2, -⟩, -⟩ := (transGen_head_iff q q).mp hc
    exact ⟨c, h1, h2⟩
  obtain ⟨i, j, ⟨x, hx, h4⟩, ⟨y, hy, h5⟩, h6⟩ := key q q hc hp
  have := h.unique i j x y hx hy q h4 h5
  subst this
  exact h.acyclic i h6

end Net
end Cgpm
