import Verif.Lemmas.Mutual
import Verif.Lemmas.LogSpace

/-! C47: mutual information queries decompose over the connected components of the network. -/
namespace Cgpm.Props
open Cgpm Cgpm.Net Cgpm.Mutual
variable {R V Ω : Type} {scipy : Nat → (Nat → Nat → Bool) → List Nat}
  {cgpms : List (NetCgpm R V Ω)} {col0 col1 : List Nat} {constraints : Dict Nat (Option V)}

theorem connected_equiv (h : WellFormed cgpms) :
    (∀ u, Produced cgpms u → Connected cgpms u u) ∧
    (∀ u v, Connected cgpms u v → Connected cgpms v u) ∧
    (∀ u v w, Connected cgpms u v → Connected cgpms v w → Connected cgpms u w) := by
  refine ⟨?_, ?_, ?_⟩
  · rintro u ⟨c, hc, hu⟩
    obtain ⟨i, hi⟩ := List.mem_iff_getElem?.1 hc
    exact ⟨i, i, c, c, hi, hu, hi, hu, .refl i⟩
  · rintro u v ⟨i, j, a, b, h1, h2, h3, h4, h5⟩
    exact ⟨j, i, b, a, h3, h4, h1, h2, h5.symm _ _⟩
  · rintro u v w ⟨i, j, a, b, h1, h2, h3, h4, h5⟩ ⟨i', j', a', b', k1, k2, k3, k4, k5⟩
    have := h.unique j i' b a' h3 k1 v h4 k2
    subst this
    exact ⟨i, j', a, b', h1, h2, k3, k4, h5.trans _ _ _ k5⟩

theorem splits_of (hs : WeakLabels scipy) (hn : WellFormed cgpms) (hw : constraints.WF)
    (hp : ∀ v, v ∈ col0 ∨ v ∈ col1 ∨ v ∈ constraints.keys → Produced cgpms v) :
    ∃ B, partitionQuery scipy cgpms col0 col1 constraints = .ok B ∧ B.WF ∧
      Splits cgpms col0 col1 constraints B.vals := by
  classical
  obtain ⟨lab, l1, l2⟩ := label_spec hs hn.unique
  obtain ⟨B, h1, h2, h3⟩ := partition_ok hw fun v hv => l1 v (hp v hv)
  obtain ⟨e1, e2, e3⟩ := connected_equiv hn
  have hget : ∀ b ∈ B.vals, ∃ k, B.get? k = some b := by
    intro b hb
    obtain ⟨p, hp, rfl⟩ := List.mem_map.1 hb
    exact ⟨p.1, Dict.get?_of_mem h2 hp⟩
  have hhas : ∀ k b, B.get? k = some b → ∀ v, b.Has v ↔
      (v ∈ col0 ∨ v ∈ col1 ∨ v ∈ constraints.keys) ∧ lab v = k := by
    intro k b hb v
    obtain ⟨-, rfl⟩ := (h3 k b).1 hb
    unfold Block.Has
    have : v ∈ Dict.keys (constraints.filter fun p => lab p.1 == k) ↔ v ∈ constraints.keys ∧ lab v = k := by
      simp only [Dict.keys, List.mem_map, List.mem_filter, beq_iff_eq]
      constructor
      · rintro ⟨p, ⟨hp, hl⟩, rfl⟩; exact ⟨⟨p, hp, rfl⟩, hl⟩
      · rintro ⟨⟨p, hp, rfl⟩, hl⟩; exact ⟨p, ⟨hp, hl⟩, rfl⟩
    rw [this]
    simp only [List.mem_filter, beq_iff_eq]
    tauto
  refine ⟨B, h1, h2, ?_, ?_, ?_⟩
  · intro b hb
    obtain ⟨k, hk⟩ := hget b hb
    obtain ⟨⟨v, hv, hvk⟩, hb'⟩ := (h3 k b).1 hk
    refine ⟨v, (hhas k b hk v).2 ⟨hv, hvk⟩, ?_⟩
    have key : ∀ u, u ∈ col0 ∨ u ∈ col1 ∨ u ∈ constraints.keys →
        (lab u == k) = decide (Connected cgpms v u) := by
      intro u hu
      rw [← hvk, Bool.eq_iff_iff, beq_iff_eq, decide_eq_true_iff, eq_comm]
      exact l2 v u (hp v hv) (hp u hu)
    rw [hb']
    refine ⟨?_, ?_, ?_⟩
    · exact List.filter_congr fun u hu => key u (.inl hu)
    · exact List.filter_congr fun u hu => key u (.inr (.inl hu))
    · exact List.filter_congr fun p hp => key p.1 (.inr (.inr (List.mem_map.2 ⟨p, hp, rfl⟩)))
  · intro v hv
    have hk := (h3 (lab v) _).2 ⟨⟨v, hv, rfl⟩, rfl⟩
    exact ⟨_, List.mem_map.2 ⟨_, Dict.mem_of_get? hk, rfl⟩, (hhas _ _ hk v).2 ⟨hv, rfl⟩⟩
  · unfold Dict.vals
    rw [List.pairwise_map]
    have hnd : B.Pairwise fun p q => p.1 ≠ q.1 := by
      have := h2; unfold Dict.WF Dict.keys at this
      rwa [List.nodup_iff_pairwise_ne, List.pairwise_map] at this
    refine List.Pairwise.imp_of_mem ?_ hnd
    intro p q hp' hq' hne u v hu hv hc
    obtain ⟨hu1, hu2⟩ := (hhas p.1 p.2 (Dict.get?_of_mem h2 hp') u).1 hu
    obtain ⟨hv1, hv2⟩ := (hhas q.1 q.2 (Dict.get?_of_mem h2 hq') v).1 hv
    exact hne (by rw [← hu2, ← hv2]; exact (l2 u v (hp u hu1) (hp v hv1)).2 hc)

/-- **C47.** In a well-formed network, a query about known variables is split into the connected
classes of its variables. -/
theorem C47_partition (hs : WeakLabels scipy) (hn : WellFormed cgpms) (hw : constraints.WF)
    (hp : ∀ v, v ∈ col0 ∨ v ∈ col1 ∨ v ∈ constraints.keys → Produced cgpms v) :
    ∃ B, partitionQuery scipy cgpms col0 col1 constraints = .ok B ∧
      Splits cgpms col0 col1 constraints B.vals := by
  obtain ⟨B, h1, -, h2⟩ := splits_of hs hn hw hp
  exact ⟨B, h1, h2⟩

/-- **C47.** A query about a variable that no component produces raises KeyError. -/
theorem C47_unknown (hs : WeakLabels scipy) (hn : WellFormed cgpms) (v : Nat)
    (hv : v ∈ col0 ∨ v ∈ col1 ∨ v ∈ constraints.keys) (hu : ¬ Produced cgpms v) :
    partitionQuery scipy cgpms col0 col1 constraints = .error .keyError := by
  obtain ⟨lab, l1, -⟩ := label_spec hs hn.unique
  have hno : componentOf (variableToCgpm cgpms) (weaklyConnected scipy cgpms) v = .error .keyError := by
    unfold componentOf
    rw [(Dict.has_false_iff _ _).1 (by rw [← Bool.not_eq_true, vToC_has]; exact hu)]
  have herr : ∀ u e, componentOf (variableToCgpm cgpms) (weaklyConnected scipy cgpms) u = .error e →
      e = .keyError := by
    intro u e he
    by_cases hp : Produced cgpms u
    · rw [l1 u hp] at he; cases he
    · unfold componentOf at he
      rw [(Dict.has_false_iff _ _).1 (by rw [← Bool.not_eq_true, vToC_has]; exact hp)] at he
      cases he; rfl
  have hpl : ∀ {A : Type} (name : A → Nat) (put : A → Block V → Block V) (l : List A) (B : Dict Nat (Block V)),
      (∃ B', place (componentOf (variableToCgpm cgpms) (weaklyConnected scipy cgpms)) name put l B = .ok B')
      ∨ place (componentOf (variableToCgpm cgpms) (weaklyConnected scipy cgpms)) name put l B
        = .error .keyError := by
    intro A name put l
    induction l with
    | nil => intro B; exact .inl ⟨B, rfl⟩
    | cons a t ih =>
      intro B
      unfold place
      cases h : componentOf (variableToCgpm cgpms) (weaklyConnected scipy cgpms) (name a) with
      | error e => right; rw [herr _ _ h]
      | ok k => exact ih _
  unfold partitionQuery
  rcases hv with hv | hv | hv
  · simp only [place_error (name := id) (put := fun v (b : Block V) => { b with col0 := b.col0 ++ [v] })
      hv hno (fun b _ => herr b)]
  · rcases hpl id (fun v (b : Block V) => { b with col0 := b.col0 ++ [v] }) col0 [] with ⟨B', h⟩ | h
    · simp only [h, place_error (name := id)
        (put := fun v (b : Block V) => { b with col1 := b.col1 ++ [v] }) hv hno (fun b _ => herr b)]
    · simp only [h]
  · rcases hpl id (fun v (b : Block V) => { b with col0 := b.col0 ++ [v] }) col0 [] with ⟨B', h⟩ | h
    · rcases hpl id (fun v (b : Block V) => { b with col1 := b.col1 ++ [v] }) col1 B' with ⟨B'', h'⟩ | h'
      · obtain ⟨p, hp, rfl⟩ := List.mem_map.1 hv
        simp only [h, h', place_error (name := Prod.fst)
          (put := fun p (b : Block V) => { b with constraints := b.constraints.set p.1 p.2 })
          hp hno (fun b _ => herr b.1)]
      · simp only [h, h']
    · simp only [h]

/-- **C47.** Constrained targets, and targets that overlap without being the same set, are refused. -/
theorem C47_refused (m : MiModel V) (T N : Option Nat)
    (h : (∃ c ∈ col0 ++ col1, c ∈ constraints.keys) ∨
      (∃ c ∈ col0, c ∈ col1) ∧ ¬ ∀ c, c ∈ col0 ↔ c ∈ col1) :
    mutualInformation scipy cgpms m col0 col1 constraints T N = .error .valueError := by
  unfold mutualInformation
  split
  · rfl
  rename_i h1
  rcases h with ⟨c, hc, hk⟩ | ⟨⟨c, hc, hc'⟩, hne⟩
  · exact absurd (List.any_eq_true.2 ⟨c, hc, (Dict.has_iff _ _).2 hk⟩) h1
  · rw [if_pos]
    rw [Bool.and_eq_true, List.any_eq_true]
    refine ⟨⟨c, hc, by simpa using hc'⟩, ?_⟩
    rw [Bool.not_eq_true', ← Bool.not_eq_true]
    intro hss
    refine hne fun c => ?_
    unfold sameSet at hss
    rw [Bool.and_eq_true, List.all_eq_true, List.all_eq_true] at hss
    exact ⟨fun h => by simpa using hss.1 c h, fun h => by simpa using hss.2 c h⟩

/-- The query is accepted: no target is constrained, and the targets are disjoint or the same. -/
def Accepted (col0 col1 : List Nat) (constraints : Dict Nat (Option V)) : Prop :=
  (∀ c ∈ col0 ++ col1, c ∉ constraints.keys) ∧
    ((∀ c ∈ col0, c ∉ col1) ∨ ∀ c, c ∈ col0 ↔ c ∈ col1)

theorem sameSet_iff (a b : List Nat) : sameSet a b = true ↔ ∀ c, c ∈ a ↔ c ∈ b := by
  unfold sameSet
  rw [Bool.and_eq_true, List.all_eq_true, List.all_eq_true]
  constructor
  · intro h c; exact ⟨fun hc => by simpa using h.1 c hc, fun hc => by simpa using h.2 c hc⟩
  · intro h; exact ⟨fun c hc => by simpa using (h c).1 hc, fun c hc => by simpa using (h c).2 hc⟩

theorem mutual_eq (hA : Accepted col0 col1 constraints) (m : MiModel V) (T N : Option Nat)
    {B : Dict Nat (Block V)} (hB : partitionQuery scipy cgpms col0 col1 constraints = .ok B) :
    mutualInformation scipy cgpms m col0 col1 constraints T N =
      (collect (fun p : Nat × Block V => compute m p.1 p.2 T N)
        (B.filter fun p => !p.2.col0.isEmpty && !p.2.col1.isEmpty)).map flSum := by
  unfold mutualInformation
  rw [if_neg, if_neg, hB]
  · show (do let l ← _; Except.ok (flSum l)) = _
    cases collect _ _ <;> rfl
  · rw [Bool.and_eq_true, List.any_eq_true, Bool.not_eq_true']
    rintro ⟨⟨c, hc, hc'⟩, hss⟩
    have hc' : c ∈ col1 := by simpa using hc'
    rcases hA.2 with h | h
    · exact h c hc hc'
    · rw [(sameSet_iff _ _).2 h] at hss; cases hss
  · rw [List.any_eq_true]
    rintro ⟨c, hc, hk⟩
    exact hA.1 c hc ((Dict.has_iff _ _).1 hk)

/-- **C47.** The answer is the sum of the estimates for the blocks that have targets on both sides;
each is computed from the block alone, by the estimator of the mutual information if the targets of
the query are disjoint, and by that of the entropy if they are the same. -/
theorem C47_sum (hs : WeakLabels scipy) (hn : WellFormed cgpms) (hw : constraints.WF)
    (hp : ∀ v, v ∈ col0 ∨ v ∈ col1 ∨ v ∈ constraints.keys → Produced cgpms v)
    (hA : Accepted col0 col1 constraints) (m : MiModel V) (T N : Option Nat) :
    ∃ B : Dict Nat (Block V), B.WF ∧ Splits cgpms col0 col1 constraints B.vals ∧
      mutualInformation scipy cgpms m col0 col1 constraints T N =
        (collect (fun p : Nat × Block V => compute m p.1 p.2 T N)
          (B.filter fun p => !p.2.col0.isEmpty && !p.2.col1.isEmpty)).map flSum ∧
      ∀ b ∈ B.vals, b.col0 ≠ [] → b.col1 ≠ [] → ∀ site E n,
        ((∀ c ∈ col0, c ∉ col1) → estimator m site b.col0 b.col1 E n = computeMi m site b.col0 b.col1 E n) ∧
        ((∀ c, c ∈ col0 ↔ c ∈ col1) →
          estimator m site b.col0 b.col1 E n = computeEntropy m site b.col0 b.col1 E n) := by
  obtain ⟨B, h1, h2, h3⟩ := splits_of hs hn hw hp
  refine ⟨B, h2, h3, mutual_eq hA m T N h1, fun b hb hb0 hb1 site E n => ⟨fun hd => ?_, fun hd => ?_⟩⟩
  · obtain ⟨v, -, c0, c1, -⟩ := h3.block b hb
    unfold estimator
    rw [if_pos]
    rw [sameSet_iff]
    intro h
    obtain ⟨c, hc⟩ := List.exists_mem_of_ne_nil _ hb0
    have hc' := (h c).1 hc
    rw [c0] at hc; rw [c1] at hc'
    exact hd c (List.mem_of_mem_filter hc) (List.mem_of_mem_filter hc')
  · obtain ⟨v, -, c0, c1, -⟩ := h3.block b hb
    unfold estimator
    rw [if_neg]
    rw [not_not, sameSet_iff]
    intro c
    rw [c0, c1, List.mem_filter, List.mem_filter, hd c]

/-- **C47.** Targets that are not connected have mutual information zero, whatever the State answers
to `simulate` and `logpdf`. -/
theorem C47_zero (hs : WeakLabels scipy) (hn : WellFormed cgpms) (hw : constraints.WF)
    (hp : ∀ v, v ∈ col0 ∨ v ∈ col1 ∨ v ∈ constraints.keys → Produced cgpms v)
    (hA : Accepted col0 col1 constraints) (m : MiModel V) (T N : Option Nat)
    (h : ∀ u ∈ col0, ∀ v ∈ col1, ¬ Connected cgpms u v) :
    mutualInformation scipy cgpms m col0 col1 constraints T N = .ok (.fin 0) := by
  classical
  obtain ⟨B, h2, h3, h4, -⟩ := C47_sum hs hn hw hp hA m T N
  rw [h4]
  have : B.filter (fun p => !p.2.col0.isEmpty && !p.2.col1.isEmpty) = [] := by
    rw [List.filter_eq_nil_iff]
    intro p hp' hh
    obtain ⟨w, -, c0, c1, -⟩ := h3.block p.2 (List.mem_map.2 ⟨p, hp', rfl⟩)
    rw [Bool.and_eq_true] at hh
    obtain ⟨u, hu⟩ := List.exists_mem_of_ne_nil p.2.col0 (by simpa using hh.1)
    obtain ⟨v, hv⟩ := List.exists_mem_of_ne_nil p.2.col1 (by simpa using hh.2)
    rw [c0, List.mem_filter, decide_eq_true_iff] at hu
    rw [c1, List.mem_filter, decide_eq_true_iff] at hv
    obtain ⟨-, e2, e3⟩ := connected_equiv hn
    exact h u hu.1 v hv.1 (e3 _ _ _ (e2 _ _ hu.2) hv.2)
  rw [this]
  rfl

/-! ### The estimators -/

/-- **C47.** The estimate of the mutual information is the mean, over the simulated rows, of the log
density of both targets minus those of the two alone, all given the constraints. -/
theorem C47_mi_estimate {m : MiModel V} {site : Site} {E : Dict Nat V} {N : Nat}
    {row : Fin N → Dict Nat V} {pxy px py : Fin N → ℝ}
    (hsim : m.simulate site (col0 ++ col1) E N = .ok (List.ofFn row))
    (hrow : ∀ i, ∀ c ∈ col0 ++ col1, c ∈ (row i).keys)
    (hxy : ∀ i : Fin N, m.logpdf site 0 i (row i) E = .ok (.fin (pxy i)))
    (hx : ∀ (i : Fin N) (t : Dict Nat V), t.WF →
      (∀ c, t.get? c = if c ∈ col0 then (row i).get? c else none) →
      m.logpdf site 1 i t E = .ok (.fin (px i)))
    (hy : ∀ (i : Fin N) (t : Dict Nat V), t.WF →
      (∀ c, t.get? c = if c ∈ col1 then (row i).get? c else none) →
      m.logpdf site 2 i t E = .ok (.fin (py i))) :
    computeMi m site col0 col1 E N = .ok (.fin ((∑ i, (pxy i - px i - py i)) / N)) := by
  choose t0 h0 w0 g0 using fun i => restrict_ok (fun c hc => hrow i c (List.mem_append_left _ hc))
  choose t1 h1 w1 g1 using fun i => restrict_ok (fun c hc => hrow i c (List.mem_append_right _ hc))
  unfold computeMi
  simp only [hsim, bulk_ok hxy, collect_ofFn h0, collect_ofFn h1, bulk_ok fun i => hx i _ (w0 i) (g0 i),
    bulk_ok fun i => hy i _ (w1 i) (g1 i), flSum_fin, List.sum_ofFn, bind, Except.bind]
  simp only [Fl.sub, Fl.neg, Fl.add, divBy, Finset.sum_sub_distrib, sub_eq_add_neg,
    Finset.sum_add_distrib, Finset.sum_neg_distrib]

/-- **C47.** The estimate of the entropy is minus the mean log density of the simulated rows. -/
theorem C47_entropy_estimate {m : MiModel V} {site : Site} {E : Dict Nat V} {N : Nat}
    (hc : ∀ c, c ∈ col0 ↔ c ∈ col1) {row : Fin N → Dict Nat V} {px : Fin N → ℝ}
    (hsim : m.simulate site col0 E N = .ok (List.ofFn row))
    (hrow : ∀ i, ∀ c ∈ col0, c ∈ (row i).keys)
    (hx : ∀ (i : Fin N) (t : Dict Nat V), t.WF →
      (∀ c, t.get? c = if c ∈ col0 then (row i).get? c else none) →
      m.logpdf site 0 i t E = .ok (.fin (px i))) :
    computeEntropy m site col0 col1 E N = .ok (.fin (-(∑ i, px i) / N)) := by
  choose t0 h0 w0 g0 using fun i => restrict_ok (fun c hc => hrow i c hc)
  unfold computeEntropy
  rw [if_neg (by rw [not_not]; exact (sameSet_iff _ _).2 hc)]
  simp only [hsim, collect_ofFn h0, bulk_ok fun i => hx i _ (w0 i) (g0 i), flSum_fin, List.sum_ofFn,
    bind, Except.bind]
  rfl

theorem equalities_get? {E : Dict Nat (Option V)} (h : E.WF) (c : Nat) :
    (equalities E).WF ∧ (equalities E).get? c = (E.get? c).join := by
  induction E with
  | nil => simp [equalities, Dict.WF, Dict.keys]
  | cons p t ih =>
    obtain ⟨d, x⟩ := p
    have hw : d ∉ Dict.keys t ∧ Dict.WF t := by simpa [Dict.WF, Dict.keys] using h
    obtain ⟨i1, i2⟩ := ih hw.2
    have hd : d ∉ Dict.keys (equalities t) := by
      intro hd
      obtain ⟨q, hq, rfl⟩ := List.mem_map.1 hd
      obtain ⟨r, hr, e⟩ := List.mem_filterMap.1 hq
      obtain ⟨y, -, rfl⟩ := Option.map_eq_some_iff.1 e
      exact hw.1 (List.mem_map.2 ⟨r, hr, rfl⟩)
    cases x with
    | none =>
      refine ⟨i1, ?_⟩
      show (equalities t).get? c = _
      rw [i2]
      by_cases e : d = c
      · subst e
        rw [(Dict.get?_eq_none_iff _ _).2 hw.1]
        simp [Dict.get?]
      · simp [Dict.get?, e]
    | some y =>
      refine ⟨by simpa [equalities, Dict.WF, Dict.keys] using And.intro hd i1, ?_⟩
      show Dict.get? ((d, y) :: equalities t) c = _
      by_cases e : d = c
      · simp [Dict.get?, e]
      · have : Dict.get? ((d, y) :: equalities t) c = (equalities t).get? c := by simp [Dict.get?, e]
        rw [this, i2]; simp [Dict.get?, e]

theorem mem_marginals {E : Dict Nat (Option V)} (h : E.WF) (c : Nat) :
    (marginals E).Nodup ∧ (c ∈ marginals E ↔ E.get? c = some none) := by
  constructor
  · exact (List.Sublist.map _ (List.filter_sublist)).nodup h
  · unfold marginals
    rw [List.mem_map]
    constructor
    · rintro ⟨p, hp, rfl⟩
      rw [List.mem_filter, Option.isNone_iff_eq_none] at hp
      rw [← hp.2]; exact Dict.get?_of_mem h hp.1
    · intro hc
      exact ⟨_, List.mem_filter.2 ⟨Dict.mem_of_get? hc, rfl⟩, rfl⟩

theorem orHundred_eq (N : Option Nat) :
    orHundred N = if N = none ∨ N = some 0 then 100 else N.getD 0 := by
  unfold orHundred
  cases N with
  | none => simp
  | some n => cases n <;> simp

/-- **C47.** A block whose constraints all have values is estimated given these values; `N` is 100 by
default. -/
theorem C47_constrained (m : MiModel V) (k : Nat) (b : Block V) (T N : Option Nat)
    (h : ∀ c, b.constraints.get? c ≠ some none) (hb : b.constraints.WF) :
    ∃ E : Dict Nat V, E.WF ∧ (∀ c, E.get? c = (b.constraints.get? c).join) ∧
      compute m k b T N = estimator m ⟨k, none⟩ b.col0 b.col1 E
        (if N = none ∨ N = some 0 then 100 else N.getD 0) := by
  refine ⟨equalities b.constraints, (equalities_get? hb 0).1, fun c => (equalities_get? hb c).2, ?_⟩
  unfold compute
  rw [if_pos, orHundred_eq]
  rw [List.isEmpty_iff, List.eq_nil_iff_forall_not_mem]
  exact fun c hc => h c (((mem_marginals hb c).2).1 hc)

/-- **C47.** A block with variables to be marginalised is estimated by the mean, over `T` simulated
values of these variables, of the estimates given these values and the equality constraints. -/
theorem C47_marginalised (m : MiModel V) (k : Nat) (b : Block V) {T : Nat} (hT : 0 < T) (N : Option Nat)
    (hb : b.constraints.WF) (hm : ∃ c, b.constraints.get? c = some none)
    {row : Fin T → Dict Nat V} {a : Fin T → ℝ}
    (hsim : ∀ l : List Nat, l.Nodup → (∀ c, c ∈ l ↔ b.constraints.get? c = some none) →
      m.simulate ⟨k, none⟩ l [] T = .ok (List.ofFn row))
    (hrow : ∀ i, (row i).WF)
    (hest : ∀ (i : Fin T) (E : Dict Nat V), E.WF →
      (∀ c, E.get? c = ((row i).get? c).or ((b.constraints.get? c).join)) →
      estimator m ⟨k, some i⟩ b.col0 b.col1 E (if N = none ∨ N = some 0 then 100 else N.getD 0)
        = .ok (.fin (a i))) :
    compute m k b (some T) N = .ok (.fin ((∑ i, a i) / T)) := by
  have hT' : orHundred (some T) = T := by unfold orHundred; rw [if_neg]; rfl; simp; omega
  simp only [← orHundred_eq] at hest
  unfold compute
  rw [if_neg, hT']
  · have hE : ∀ i : Fin T, estimator m ⟨k, some i⟩ b.col0 b.col1
        ((equalities b.constraints).update (row i)) (orHundred N) = .ok (.fin (a i)) := fun i =>
      hest i _ (Dict.wf_update (equalities_get? hb 0).1 _) fun c => by
        rw [Dict.get?_update _ _ (hrow i), (equalities_get? hb c).2]
    simp only [hsim _ (mem_marginals hb 0).1 fun c => (mem_marginals hb c).2, zipIdx_ofFn, bind, Except.bind]
    rw [collect_ofFn (g := fun i => Fl.fin (a i)) hE]
    have : (List.ofFn fun i => Fl.fin (a i)) = (List.ofFn a).map Fl.fin := by rw [List.map_ofFn]; rfl
    simp only [this, flSum_fin, List.sum_ofFn, divBy]
  · obtain ⟨c, hc⟩ := hm
    rw [List.isEmpty_iff]
    intro h0
    have := ((mem_marginals hb c).2).2 hc
    rw [h0] at this; cases this

/-! ### A finding -/

/-- Four variables: 2 is drawn as 1 if 3 is known to be 1, and as 0 otherwise; given 2 = 1, the
variables 0 and 1 are the same fair coin; given 2 = 0, they are constant. -/
noncomputable def switchModel : MiModel Nat where
  simulate := fun _ cols E N => .ok (List.replicate N (cols.map fun c =>
    (c, if c = 2 ∧ E.get? 3 = some 1 then 1 else 0)))
  logpdf := fun _ _ _ _ E => .ok (.fin (if E.get? 2 = some 1 then Real.log (1 / 2) else 0))

/-- The query: variables 0 and 1, given 3 = 1, with 2 marginalised. -/
def switchQuery : Block Nat := ⟨[0], [1], [(3, some 1), (2, none)]⟩

theorem switch_estimate (site : Site) (E : Dict Nat Nat) (N : Nat) (hN : 0 < N) :
    estimator switchModel site [0] [1] E N =
      .ok (.fin (if E.get? 2 = some 1 then Real.log 2 else 0)) := by
  unfold estimator
  rw [if_pos (by simp [sameSet])]
  have hN' : (N : ℝ) ≠ 0 := by positivity
  rw [C47_mi_estimate (row := fun _ : Fin N => [(0, 0), (1, 0)])
    (pxy := fun _ => if E.get? 2 = some 1 then Real.log (1 / 2) else 0)
    (px := fun _ => if E.get? 2 = some 1 then Real.log (1 / 2) else 0)
    (py := fun _ => if E.get? 2 = some 1 then Real.log (1 / 2) else 0)]
  · simp only [sub_self, zero_sub, Finset.sum_const, Finset.card_univ, Fintype.card_fin, nsmul_eq_mul]
    rw [mul_div_cancel_left₀ _ hN']
    split <;> simp [Real.log_inv]
  · simp [switchModel, List.ofFn_const]
  · simp [Dict.keys]
  · intro i; rfl
  · intro i t _ _; rfl
  · intro i t _ _; rfl

/-- **C47, violated.** The marginalised variables are simulated without the equality constraints
(src/crosscat/state.py:675): here all their values given the constraint are 1, each estimate given
them is log 2, and the answer is 0. -/
theorem C47_marginal_violated :
    (∀ T, switchModel.simulate ⟨0, none⟩ [2] [(3, 1)] T = .ok (List.replicate T [(2, 1)])) ∧
    (∀ i N, 0 < N → estimator switchModel ⟨0, some i⟩ [0] [1] [(3, 1), (2, 1)] N =
      .ok (.fin (Real.log 2))) ∧
    (∀ T N, 0 < T → 0 < N → compute switchModel 0 switchQuery (some T) (some N) = .ok (.fin 0)) ∧
    Real.log 2 ≠ 0 := by
  refine ⟨fun T => by simp [switchModel, Dict.get?], fun i N hN => ?_, fun T N hT hN => ?_, ?_⟩
  · rw [switch_estimate _ _ _ hN]; simp [Dict.get?]
  · rw [C47_marginalised (T := T) switchModel 0 switchQuery hT (some N) (by simp [switchQuery, Dict.WF, Dict.keys])
      ⟨2, by decide⟩ (row := fun _ => [(2, 0)]) (a := fun _ => 0)]
    · simp
    · intro l hl hm
      have : l = [2] := by
        have h2 : ∀ c, c ∈ l ↔ c = 2 := by
          intro c
          rw [hm c]
          by_cases h3 : c = 3
          · subst h3; simp [switchQuery, Dict.get?]
          · by_cases h2 : c = 2
            · subst h2; simp [switchQuery, Dict.get?]
            · have h3' : ¬ 3 = c := fun h => h3 h.symm
              have h2' : ¬ 2 = c := fun h => h2 h.symm
              simp [switchQuery, Dict.get?, h2, h2', h3']
        rw [← List.perm_singleton]
        exact (List.perm_ext_iff_of_nodup hl (by simp)).2 fun c => by rw [h2 c]; simp
      subst this
      simp [switchModel, Dict.get?, List.ofFn_const]
    · intro i; simp [Dict.WF, Dict.keys]
    · intro i E _ hE
      show estimator switchModel _ [0] [1] E _ = _
      have : E.get? 2 = some 0 := by rw [hE 2]; decide
      rw [switch_estimate _ _ _ (by split <;> simp_all), this]
      simp
  · exact (Real.log_pos (by norm_num)).ne'

/-! ### The hypotheses are met -/

example : ∃ B, partitionQuery (Classical.choose exists_weakLabels) chainNet [5] [7] ([] : Dict Nat (Option _))
      = .ok B ∧ Splits chainNet [5] [7] [] B.vals :=
  C47_partition (Classical.choose_spec exists_weakLabels) chainNet_wf (by simp [Dict.WF, Dict.keys]) (by
    intro v hv
    have : v = 5 ∨ v = 7 := by simpa [Dict.keys] using hv
    rcases this with rfl | rfl
    · exact ⟨chainNet[0], by simp [chainNet], by simp [chainNet]⟩
    · exact ⟨chainNet[1], by simp [chainNet], by simp [chainNet]⟩)

end Cgpm.Props
