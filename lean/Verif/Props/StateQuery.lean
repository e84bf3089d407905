import Verif.Lemmas.StateQuery
import Verif.Lemmas.StateDemo

/-!
C28, C29, C53: dependence probability, row similarity, ancestors in a network.
-/
namespace Cgpm.Props
open Cgpm Cgpm.State

variable {C : Cat} {Ω : Type}

/-! ### C53: ancestors and descendents -/

/-- C53.  In a well formed network `retrieve_ancestors` lists exactly the ancestors of a variable
that the network produces: its parents, their parents, and so on.  (`limit` is the recursion limit
of the interpreter; it is enough that it exceeds the number of components.) -/
theorem C53_ancestors {R V : Type} {cgpms : List (NetCgpm R V Ω)} (h : Net.WellFormed cgpms)
    {limit : Nat} (hl : cgpms.length < limit) {q : Nat} (hq : Net.Produced cgpms q) :
    ∃ l, Net.retrieveAncestors limit cgpms q = .ok l ∧ ∀ a, a ∈ l ↔ Net.Ancestor cgpms a q :=
  Net.retrieveAncestors_ok h hl hq

/-- C53.  Likewise `retrieve_descendents` lists exactly the variables of which a variable is an
ancestor. -/
theorem C53_descendents {R V : Type} {cgpms : List (NetCgpm R V Ω)} (h : Net.WellFormed cgpms)
    {limit : Nat} (hl : cgpms.length < limit) {q : Nat} (hq : Net.Produced cgpms q) :
    ∃ l, Net.retrieveDescendents limit cgpms q = .ok l ∧ ∀ a, a ∈ l ↔ Net.Ancestor cgpms q a :=
  Net.retrieveDescendents_ok h hl hq

/-- C53.  The two are converse to each other, and a variable is not its own ancestor. -/
theorem C53_converse {R V : Type} {cgpms : List (NetCgpm R V Ω)} (h : Net.WellFormed cgpms)
    {limit : Nat} (hl : cgpms.length < limit) {p q : Nat} (hp : Net.Produced cgpms p)
    (hq : Net.Produced cgpms q) : ∃ la ld, Net.retrieveAncestors limit cgpms q = .ok la ∧
      Net.retrieveDescendents limit cgpms p = .ok ld ∧ (p ∈ la ↔ q ∈ ld) ∧ q ∉ la := by
  obtain ⟨la, h1, h2⟩ := Net.retrieveAncestors_ok h hl hq
  obtain ⟨ld, h3, h4⟩ := Net.retrieveDescendents_ok h hl hp
  exact ⟨la, ld, h1, h3, by rw [h2, h4], by rw [h2]; exact Net.ancestor_irrefl h q⟩

/-- C53.  A variable that the network does not produce is refused. -/
theorem C53_unknown {R V : Type} {cgpms : List (NetCgpm R V Ω)} {limit : Nat} {q : Nat}
    (hq : ¬ Net.Produced cgpms q) :
    Net.retrieveAncestors limit cgpms q = .error .valueError ∧
      Net.retrieveDescendents limit cgpms q = .error .valueError :=
  ⟨Net.retrieveAncestors_unknown hq, Net.retrieveDescendents_unknown hq⟩

example : ∃ l, Net.retrieveAncestors 1000 chainNet 7 = .ok l ∧
    ∀ a, a ∈ l ↔ Net.Ancestor chainNet a 7 :=
  C53_ancestors chainNet_wf (by simp [chainNet]) ⟨chainNet[1], by simp [chainNet], by simp [chainNet]⟩

example : Net.Ancestor chainNet 5 7 :=
  .single ⟨chainNet[1], by simp [chainNet], by simp [chainNet], by simp [chainNet]⟩

/-! ### C28: dependence probability -/

/-- C28.  The dependence probability of two columns of a State, whatever is composed with it, is 1
if they share a view and 0 if they do not. -/
theorem C28_columns (hL : C.Lawful) {cfg : Cfg C} {s : State C} (h : StateReachable cfg s)
    (limit : Nat) (beh : ViewBehaviour C Ω) (hooked : Dict Nat (NetCgpm (Option Row) (Val C) Ω))
    {c d : Col} (hc : c ∈ s.outputs) (hd : d ∈ s.outputs) :
    ∃ p, s.dependenceProbability limit beh hooked c d = .ok p ∧ (s.Zv c = s.Zv d → p = 1) ∧
      (s.Zv c ≠ s.Zv d → p = 0) := by
  obtain ⟨a, ha⟩ := Option.ne_none_iff_exists'.mp (((h.inv hL).cols c).mpr hc)
  obtain ⟨b, hb⟩ := Option.ne_none_iff_exists'.mp (((h.inv hL).cols d).mpr hd)
  refine ⟨if a = b then 1 else 0, ?_, fun e => ?_, fun e => ?_⟩
  · unfold dependenceProbability
    rw [if_pos (by simp [hc, hd]), ha, hb]
  · rw [ha, hb] at e; rw [if_pos (Option.some.inj e)]
  · rw [ha, hb] at e; rw [if_neg fun e' => e (congrArg some e')]

/-- C28.  On the columns of a State "has dependence probability 1 with" is an equivalence, and the
dependence probability is symmetric. -/
theorem C28_equivalence (hL : C.Lawful) {cfg : Cfg C} {s : State C} (h : StateReachable cfg s)
    (limit : Nat) (beh : ViewBehaviour C Ω) (hooked : Dict Nat (NetCgpm (Option Row) (Val C) Ω)) :
    (∀ c ∈ s.outputs, s.dependenceProbability limit beh hooked c c = .ok 1) ∧
    (∀ c ∈ s.outputs, ∀ d ∈ s.outputs, s.dependenceProbability limit beh hooked c d =
      s.dependenceProbability limit beh hooked d c) ∧
    ∀ c ∈ s.outputs, ∀ d ∈ s.outputs, ∀ e ∈ s.outputs,
      s.dependenceProbability limit beh hooked c d = .ok 1 →
      s.dependenceProbability limit beh hooked d e = .ok 1 →
      s.dependenceProbability limit beh hooked c e = .ok 1 := by
  have key : ∀ c ∈ s.outputs, ∀ d ∈ s.outputs,
      s.dependenceProbability limit beh hooked c d = .ok (if s.Zv c = s.Zv d then 1 else 0) := by
    intro c hc d hd
    obtain ⟨p, h1, h2, h3⟩ := C28_columns hL h limit beh hooked hc hd
    rw [h1]
    split
    · rw [h2 ‹_›]
    · rw [h3 ‹_›]
  have one : ∀ c ∈ s.outputs, ∀ d ∈ s.outputs,
      s.dependenceProbability limit beh hooked c d = .ok 1 ↔ s.Zv c = s.Zv d := by
    intro c hc d hd
    rw [key c hc d hd]
    split <;> simp_all
  refine ⟨fun c hc => (one c hc c hc).mpr rfl, fun c hc d hd => ?_, fun c hc d hd e he h1 h2 => ?_⟩
  · rw [key c hc d hd, key d hd c hc]
    simp only [eq_comm]
  · exact (one c hc e he).mpr (((one c hc d hd).mp h1).trans ((one d hd e he).mp h2))

/-- C28.  For variables of a State composed with other models, the dependence probability is 1 if
the variables are related (one component produces both, or they have a common source, or sources in
a common view) and 0 otherwise. -/
theorem C28_composed (hL : C.Lawful) {cfg : Cfg C} {s : State C} (h : StateReachable cfg s)
    {limit : Nat} {beh : ViewBehaviour C Ω} {hooked : Dict Nat (NetCgpm (Option Row) (Val C) Ω)}
    (hw : Net.WellFormed (s.buildCgpms beh hooked))
    (hl : (s.buildCgpms beh hooked).length < limit) {p q : Nat}
    (hp : Net.Produced (s.buildCgpms beh hooked) p)
    (hq : Net.Produced (s.buildCgpms beh hooked) q) :
    ∃ x, s.dependenceProbability limit beh hooked p q = .ok x ∧
      (Related s (s.buildCgpms beh hooked) p q → x = 1) ∧
      (¬ Related s (s.buildCgpms beh hooked) p q → x = 0) := by
  classical
  refine ⟨_, (h.inv hL).dependence_ok beh hw hl hp hq, fun h => ?_, fun h => ?_⟩
  · rw [if_pos h]
  · rw [if_neg h]

/-- C28.  For two composed variables 0 is returned only if they have no ancestor in common and no
ancestors in a common view. -/
theorem C28_zero_only_if (hL : C.Lawful) {cfg : Cfg C} {s : State C} (h : StateReachable cfg s)
    {limit : Nat} {beh : ViewBehaviour C Ω} {hooked : Dict Nat (NetCgpm (Option Row) (Val C) Ω)}
    (hw : Net.WellFormed (s.buildCgpms beh hooked))
    (hl : (s.buildCgpms beh hooked).length < limit) {p q : Nat} (hp : p ∉ s.outputs)
    (hq : q ∉ s.outputs) (hP : Net.Produced (s.buildCgpms beh hooked) p)
    (hQ : Net.Produced (s.buildCgpms beh hooked) q)
    (h0 : s.dependenceProbability limit beh hooked p q = .ok 0) {a b : Nat}
    (ha : Net.Ancestor (s.buildCgpms beh hooked) a p)
    (hb : Net.Ancestor (s.buildCgpms beh hooked) b q) :
    a ≠ b ∧ ¬ ∃ v, s.Zv a = some v ∧ s.Zv b = some v := by
  obtain ⟨x, h1, h2, -⟩ := C28_composed hL h hw hl hP hQ
  rw [h0] at h1
  cases h1
  have hn : ¬ Related s (s.buildCgpms beh hooked) p q := fun hr => by
    have := h2 hr
    norm_num at this
  exact ⟨fun e => hn (.inr ⟨a, b, .inr ⟨hp, ha⟩, .inr ⟨hq, hb⟩, .inl e⟩),
    fun e => hn (.inr ⟨a, b, .inr ⟨hp, ha⟩, .inr ⟨hq, hb⟩, .inr e⟩)⟩

/-- C28.  It is symmetric, and 1 for a variable with itself, also for composed variables. -/
theorem C28_composed_symmetric (hL : C.Lawful) {cfg : Cfg C} {s : State C}
    (h : StateReachable cfg s) {limit : Nat} {beh : ViewBehaviour C Ω}
    {hooked : Dict Nat (NetCgpm (Option Row) (Val C) Ω)}
    (hw : Net.WellFormed (s.buildCgpms beh hooked))
    (hl : (s.buildCgpms beh hooked).length < limit) {p q : Nat}
    (hp : Net.Produced (s.buildCgpms beh hooked) p)
    (hq : Net.Produced (s.buildCgpms beh hooked) q) :
    s.dependenceProbability limit beh hooked p q = s.dependenceProbability limit beh hooked q p ∧
      s.dependenceProbability limit beh hooked p p = .ok 1 := by
  classical
  rw [(h.inv hL).dependence_ok beh hw hl hp hq, (h.inv hL).dependence_ok beh hw hl hq hp,
    (h.inv hL).dependence_ok beh hw hl hp hp]
  refine ⟨?_, ?_⟩
  · simp only [related_symm (p := p) (q := q)]
  · obtain ⟨c, h1, h2⟩ := hp
    rw [if_pos (.inl ⟨c, h1, h2, h2⟩)]

/-- C28.  A variable that nothing produces is refused. -/
theorem C28_unknown (hL : C.Lawful) {cfg : Cfg C} {s : State C} (h : StateReachable cfg s)
    {limit : Nat} {beh : ViewBehaviour C Ω} {hooked : Dict Nat (NetCgpm (Option Row) (Val C) Ω)}
    (hw : Net.WellFormed (s.buildCgpms beh hooked))
    (hl : (s.buildCgpms beh hooked).length < limit) {p q : Nat}
    (hn : ¬ Net.Produced (s.buildCgpms beh hooked) p ∨
      ¬ Net.Produced (s.buildCgpms beh hooked) q) :
    s.dependenceProbability limit beh hooked p q = .error .valueError :=
  (h.inv hL).dependence_unknown beh hw hl hn

/-- C28.  The matrix for columns of a State (all of them by default), whatever is composed with it:
it is symmetric with unit diagonal, and, if no column is requested twice, its entries are the
dependence probabilities. -/
theorem C28_pairwise (hL : C.Lawful) {cfg : Cfg C} {s : State C} (h : StateReachable cfg s)
    (limit : Nat) (beh : ViewBehaviour C Ω) (hooked : Dict Nat (NetCgpm (Option Row) (Val C) Ω))
    (colnos : Option (List Nat)) (hc : ∀ c ∈ colnos.getD s.outputs, c ∈ s.outputs) :
    ∃ D, s.dependencePairwise limit beh hooked colnos = .ok D ∧ (∀ i j, D i j = D j i) ∧
      (∀ i, D i i = 1) ∧ ((colnos.getD s.outputs).Nodup → ∀ (i j : Nat) (c d : Col),
        (colnos.getD s.outputs)[i]? = some c → (colnos.getD s.outputs)[j]? = some d →
        s.dependenceProbability limit beh hooked c d = .ok (D i j)) := by
  obtain ⟨h1, h2, -⟩ := C28_equivalence hL h limit beh hooked
  exact pairwise_ok (fun c hc' d hd' => by
    obtain ⟨p, hp, -⟩ := C28_columns hL h limit beh hooked (hc c hc') (hc d hd')
    exact ⟨p, hp⟩) (fun c hc' d hd' => h2 c (hc c hc') d (hc d hd')) fun c hc' => h1 c (hc c hc')

/-- C28.  The same for any variables of the composition. -/
theorem C28_composed_pairwise (hL : C.Lawful) {cfg : Cfg C} {s : State C}
    (h : StateReachable cfg s) {limit : Nat} {beh : ViewBehaviour C Ω}
    {hooked : Dict Nat (NetCgpm (Option Row) (Val C) Ω)}
    (hw : Net.WellFormed (s.buildCgpms beh hooked))
    (hl : (s.buildCgpms beh hooked).length < limit) (cols : List Nat)
    (hc : ∀ c ∈ cols, Net.Produced (s.buildCgpms beh hooked) c) :
    ∃ D, s.dependencePairwise limit beh hooked (some cols) = .ok D ∧ (∀ i j, D i j = D j i) ∧
      (∀ i, D i i = 1) ∧ (cols.Nodup → ∀ (i j : Nat) (c d : Col),
        cols[i]? = some c → cols[j]? = some d →
        s.dependenceProbability limit beh hooked c d = .ok (D i j)) := by
  exact pairwise_ok (colnos := some cols) (fun c hc' d hd' => by
    obtain ⟨p, hp, -⟩ := C28_composed hL h hw hl (hc c hc') (hc d hd')
    exact ⟨p, hp⟩) (fun c hc' d hd' => (C28_composed_symmetric hL h hw hl (hc c hc') (hc d hd')).1)
    fun c hc' => (C28_composed_symmetric hL h hw hl (hc c hc') (hc c hc')).2

/-! ### C29: row similarity -/

/-- C29.  The similarity of two rows is the number of views, among those that hold one of the
requested columns, in which the rows share a cluster, divided by the number of those views. -/
theorem C29_fraction (hL : C.Lawful) {cfg : Cfg C} {s : State C} (h : StateReachable cfg s)
    {cols : List Col} (hc : ∀ c ∈ cols, c ∈ s.outputs) (hne : cols ≠ []) {r0 r1 : Row}
    (h0 : r0 < s.nRows) (h1 : r1 < s.nRows) : s.rowSimilarity r0 r1 (some cols) =
      .ok (.fin ((agreeing s cols r0 r1).ncard / (viewsOf s cols).ncard)) ∧
      (viewsOf s cols).ncard ≠ 0 := by
  obtain ⟨h2, h3, -⟩ := (h.inv hL).rowSimilarity_ok hc h0 h1 hne
  exact ⟨h2, h3⟩

/-- C29.  It lies between 0 and 1; it is 1 exactly if the rows share a cluster in all those views,
and 0 exactly if they do in none. -/
theorem C29_range (hL : C.Lawful) {cfg : Cfg C} {s : State C} (h : StateReachable cfg s)
    {cols : List Col} (hc : ∀ c ∈ cols, c ∈ s.outputs) (hne : cols ≠ []) {r0 r1 : Row}
    (h0 : r0 < s.nRows) (h1 : r1 < s.nRows) :
    ∃ x : ℝ, s.rowSimilarity r0 r1 (some cols) = .ok (.fin x) ∧ 0 ≤ x ∧ x ≤ 1 ∧
      (x = 1 ↔ agreeing s cols r0 r1 = viewsOf s cols) ∧ (x = 0 ↔ agreeing s cols r0 r1 = ∅) := by
  obtain ⟨h2, h3, hf⟩ := (h.inv hL).rowSimilarity_ok hc h0 h1 hne
  have hsub : agreeing s cols r0 r1 ⊆ viewsOf s cols := fun v hv => hv.1
  have hle := Set.ncard_le_ncard hsub hf
  have hpos : (0 : ℝ) < (viewsOf s cols).ncard := by exact_mod_cast Nat.pos_of_ne_zero h3
  refine ⟨_, h2, by positivity, ?_, ?_, ?_⟩
  · rw [div_le_one hpos]; exact_mod_cast hle
  · rw [div_eq_one_iff_eq hpos.ne', Nat.cast_inj]
    constructor
    · intro e; exact Set.eq_of_subset_of_ncard_le hsub e.ge hf
    · intro e; rw [e]
  · rw [div_eq_zero_iff, or_iff_left hpos.ne', Nat.cast_eq_zero, Set.ncard_eq_zero (hf.subset hsub)]

/-- C29.  A row is completely similar to itself. -/
theorem C29_same_row (hL : C.Lawful) {cfg : Cfg C} {s : State C} (h : StateReachable cfg s)
    {cols : List Col} (hc : ∀ c ∈ cols, c ∈ s.outputs) (hne : cols ≠ []) {r : Row}
    (hr : r < s.nRows) : s.rowSimilarity r r (some cols) = .ok (.fin 1) := by
  obtain ⟨x, h1, -, -, h2, -⟩ := C29_range hL h hc hne hr hr
  rw [h1, h2.mpr]
  ext v
  refine ⟨fun hv => hv.1, fun hv => ⟨hv, ?_⟩⟩
  obtain ⟨c, -, hz⟩ := hv
  obtain ⟨w, hw⟩ := Dict.exists_of_mem_keys (((h.inv hL).occ v).mpr ⟨c, hz⟩)
  obtain ⟨k, hk⟩ := (h.inv hL).seat_some hw hr
  exact ⟨w, k, hw, hk, hk⟩

/-- C29.  It is symmetric, for any arguments. -/
theorem C29_symmetric (s : State C) (r0 r1 : Row) (cols : Option (List Col)) :
    s.rowSimilarity r0 r1 cols = s.rowSimilarity r1 r0 cols := by
  have : (fun v : View C => sameCluster v r0 r1) = fun v => sameCluster v r1 r0 := by
    funext v
    unfold sameCluster
    cases v.seat r0 <;> cases v.seat r1 <;> simp only []
    rw [Bool.beq_comm]
  unfold rowSimilarity
  rw [this]

/-- C29.  By default all columns are used. -/
theorem C29_default (s : State C) (r0 r1 : Row) :
    s.rowSimilarity r0 r1 none = s.rowSimilarity r0 r1 (some s.outputs) := rfl

/-- C29.  The matrix is symmetric with unit diagonal, and its entries are the similarities. -/
theorem C29_pairwise (hL : C.Lawful) {cfg : Cfg C} {s : State C} (h : StateReachable cfg s)
    (cols : Option (List Col)) (hc : ∀ c ∈ cols.getD s.outputs, c ∈ s.outputs)
    (hne : cols.getD s.outputs ≠ []) :
    ∃ D, s.rowSimilarityPairwise cols = .ok D ∧ (∀ i j, D i j = D j i) ∧
      (∀ i, D i i = .fin 1) ∧ ∀ i j, i < s.nRows → j < s.nRows →
        s.rowSimilarity i j cols = .ok (D i j) := by
  let g : Nat → Nat → Fl := fun i j => .fin ((agreeing s (cols.getD s.outputs) i j).ncard /
    (viewsOf s (cols.getD s.outputs)).ncard)
  have hg : ∀ i j, i < s.nRows → j < s.nRows →
      s.rowSimilarity i j (some (cols.getD s.outputs)) = .ok (g i j) := fun i j hi hj =>
    ((h.inv hL).rowSimilarity_ok hc hi hj hne).1
  have hp : ∀ p ∈ pairsOf (List.range s.nRows), p.1 < s.nRows ∧ p.2 < s.nRows := by
    rintro ⟨i, j⟩ hp
    have := mem_pairsOf hp
    simpa using this
  obtain ⟨D, h1, h2⟩ := fillPairs_ok (f := fun i j => s.rowSimilarity i j (some (cols.getD s.outputs)))
    (ix := fun r => r) (D := fun i j => if i = j then Fl.fin 1 else .fin 0) (g := g)
    fun p hp' => hg _ _ (hp p hp').1 (hp p hp').2
  have hgs : ∀ i j, i < s.nRows → j < s.nRows → g i j = g j i := by
    intro i j hi hj
    have e := C29_symmetric s i j (some (cols.getD s.outputs))
    rw [hg i j hi hj, hg j i hj hi] at e
    exact Except.ok.inj e
  have hself : ∀ i, i < s.nRows → g i i = .fin 1 := by
    intro i hi
    have e := C29_same_row hL h hc hne hi
    rw [hg i i hi hi] at e
    exact Except.ok.inj e
  have hdiag : ∀ i, D i i = .fin 1 := by
    intro i
    rcases h2 i i with ⟨e, -⟩ | ⟨p, hp', hq, e⟩
    · rw [e, if_pos rfl]
    · have : p.1 = p.2 := by
        rcases hq with ⟨a, b⟩ | ⟨a, b⟩
        · rw [← a, ← b]
        · rw [← a, ← b]
      rw [e, ← this, hself _ (hp p hp').1]
  refine ⟨D, h1, fun i j => fillPairs_symm h1 (fun a b => ?_) i j, hdiag, fun i j hi hj => ?_⟩
  · simp only [eq_comm]
  · show s.rowSimilarity i j (some (cols.getD s.outputs)) = _
    rw [hg i j hi hj]
    by_cases hij : i = j
    · subst hij
      rw [hdiag, hself i hi]
    · rcases h2 i j with ⟨-, hn⟩ | ⟨p, hp', ⟨rfl, rfl⟩ | ⟨rfl, rfl⟩, e⟩
      · rcases pairsOf_total (List.mem_range.mpr hi) (List.mem_range.mpr hj) hij with hm | hm
        · exact absurd (.inl ⟨rfl, rfl⟩) (hn _ hm)
        · exact absurd (.inr ⟨rfl, rfl⟩) (hn _ hm)
      · rw [e]
      · rw [e, hgs _ _ hi hj]

/-- C29.  A column that the State does not have is refused. -/
theorem C29_unknown_column (hL : C.Lawful) {cfg : Cfg C} {s : State C} (h : StateReachable cfg s)
    {cols : List Col} {c : Col} (hc : c ∈ cols) (hn : c ∉ s.outputs) (r0 r1 : Row) :
    ∃ e, s.rowSimilarity r0 r1 (some cols) = .error e := by
  have hz : s.Zv c = none := by
    by_contra hz
    exact hn (((h.inv hL).cols c).mp hz)
  obtain ⟨e, he⟩ := viewSet_unknown hc hz
  exact ⟨e, by unfold rowSimilarity; simp only [Option.getD_some, he]⟩

/-- Without columns the similarity is not a number. -/
theorem C29_no_columns (s : State C) (r0 r1 : Row) :
    s.rowSimilarity r0 r1 (some []) = .ok .nan := rfl

/-! ### The hypotheses are met, and what composed variables show -/

/-- A model to compose: only its variables matter here. -/
def foreignModel (outs ins : List Nat) : NetCgpm (Option Row) (Val libCat) Unit where
  outputs := outs
  inputs := ins
  logpdf := fun _ _ _ => .ok 0
  simulate := fun _ _ ts _ _ => .ok (ts.map fun t => (t, .tab 0))

/-- A root that produces 7 and 9, a child of each of these, and a child of column 0 and 9. -/
def foreignFamily : Dict Nat (NetCgpm (Option Row) (Val libCat) Unit) :=
  [(57481, foreignModel [7, 9] []), (57482, foreignModel [8] [7]), (57483, foreignModel [10] [9]),
   (57484, foreignModel [11] [0, 9])]

def noBehaviour : ViewBehaviour libCat Unit where
  logpdf := fun _ _ _ _ _ => .ok 0
  simulate := fun _ _ _ _ ts _ _ => .ok (ts.map fun t => (t, .tab 0))

theorem foreignFamily_wf {s : State libCat} (h : State.Inv s) (ho : s.outputs = [0, 1]) :
    Net.WellFormed (s.buildCgpms noBehaviour foreignFamily) := by
  refine h.wellFormed noBehaviour (fun n => n % 7 + (if n = 8 then 7 else 0) +
      (if n = 11 then 7 else 0)) ?_ ?_ ?_ ?_ ?_
  · rw [ho]; simp
  · simp [foreignFamily, foreignModel, Dict.vals]
  · simp [foreignFamily, foreignModel, Dict.vals]
  · rw [ho]; simp [foreignFamily, foreignModel, Dict.vals]
  · simp [foreignFamily, foreignModel, Dict.vals]

theorem foreignFamily_parent {s : State libCat} {a b : Nat} :
    Net.Parent (s.buildCgpms noBehaviour foreignFamily) a b ↔
      (b = 8 ∧ a = 7) ∨ (b = 10 ∧ a = 9) ∨ (b = 11 ∧ (a = 0 ∨ a = 9)) := by
  rw [parent_build]
  simp [foreignFamily, foreignModel, Dict.vals]

theorem foreignFamily_ancestor {s : State libCat} {a b : Nat} :
    Net.Ancestor (s.buildCgpms noBehaviour foreignFamily) a b ↔
      (b = 8 ∧ a = 7) ∨ (b = 10 ∧ a = 9) ∨ (b = 11 ∧ (a = 0 ∨ a = 9)) := by
  unfold Net.Ancestor
  rw [Net.transGen_head_iff]
  constructor
  · rintro ⟨p, h1, rfl | h2⟩
    · exact foreignFamily_parent.mp h1
    · obtain ⟨q, h3, -⟩ := (Net.transGen_head_iff a p).mp h2
      rw [foreignFamily_parent] at h1 h3
      omega
  · intro h
    exact ⟨a, foreignFamily_parent.mpr h, .inl rfl⟩

theorem foreignFamily_produced {s : State libCat} {q : Nat} (hq : q ∈ [7, 8, 9, 10, 11]) :
    Net.Produced (s.buildCgpms noBehaviour foreignFamily) q := by
  have : ∃ c ∈ foreignFamily.vals, q ∈ c.outputs := by
    fin_cases hq <;> simp [foreignFamily, foreignModel, Dict.vals]
  obtain ⟨c, h1, h2⟩ := this
  exact ⟨c, mem_buildCgpms.mpr (.inr h1), h2⟩

/-- The hypotheses of C28 are met by a State with two views composed with this family. -/
example : ∃ s : State libCat, StateReachable plainCfg s ∧ 0 ∈ s.outputs ∧ 1 ∈ s.outputs ∧
    Net.WellFormed (s.buildCgpms noBehaviour foreignFamily) ∧
    (s.buildCgpms noBehaviour foreignFamily).length < 1000 ∧
    Net.Produced (s.buildCgpms noBehaviour foreignFamily) 8 ∧
    Related s (s.buildCgpms noBehaviour foreignFamily) 10 11 ∧
    ¬ Related s (s.buildCgpms noBehaviour foreignFamily) 8 11 := by
  obtain ⟨s, h1, h2, h3, h4, h5, h6, h7, h8, h9, h10, -, h12⟩ := stateDemo_init
    (normal_remembered 0) normal_hyp (a := 0) (b := 1) (by decide) [] []
  refine ⟨s, h1, by rw [h4]; simp, by rw [h4]; simp, foreignFamily_wf h2 h4, ?_,
    foreignFamily_produced (by simp), ?_, ?_⟩
  · have : s.views.length = 2 := by
      have := congrArg List.length h8
      simpa [Dict.keys] using this
    simp [State.buildCgpms, this, foreignFamily, Dict.vals]
  · refine .inr ⟨9, 9, .inr ⟨by rw [h4]; simp, ?_⟩, .inr ⟨by rw [h4]; simp, ?_⟩, .inl rfl⟩ <;>
    · rw [foreignFamily_ancestor]; simp
  · rintro (⟨c, hc, g1, g2⟩ | ⟨a, b, ⟨ho, -⟩ | ⟨-, ha⟩, ⟨ho', -⟩ | ⟨-, hb⟩, hab⟩)
    · have := h2.foreign_of_not_mem (by rw [h4]; simp) (by norm_num) hc g1
      simp [foreignFamily, foreignModel, Dict.vals] at this
      rcases this with rfl | rfl | rfl | rfl <;> simp at g1 g2
    · rw [h4] at ho; simp at ho
    · rw [h4] at ho; simp at ho
    · rw [h4] at ho'; simp at ho'
    · rw [foreignFamily_ancestor] at ha hb
      have ha' : a = 7 := by omega
      subst ha'
      rcases hab with rfl | ⟨v, e, -⟩
      · omega
      · exact absurd ((h2.cols 7).mp (by simp [e])) (by rw [h4]; simp)

/-- What the rule of C28 misses: a composed model without inputs that produces 7, and a model that
takes 7 as its only input and produces 8, have dependence probability 0.  (A variable is not among
its own ancestors, and 7 is in no view.) -/
theorem C28_child_of_root_is_zero : ∃ s : State libCat, StateReachable plainCfg s ∧
    Net.WellFormed (s.buildCgpms noBehaviour foreignFamily) ∧
    Net.Parent (s.buildCgpms noBehaviour foreignFamily) 7 8 ∧
    s.dependenceProbability 1000 noBehaviour foreignFamily 7 8 = .ok 0 := by
  obtain ⟨s, h1, h2, h3, h4, h5, h6, h7, h8, h9, h10, -, h12⟩ := stateDemo_init
    (normal_remembered 0) normal_hyp (a := 0) (b := 1) (by decide) [] []
  have hw := foreignFamily_wf h2 h4
  have hl : (s.buildCgpms noBehaviour foreignFamily).length < 1000 := by
    have : s.views.length = 2 := by
      have := congrArg List.length h8
      simpa [Dict.keys] using this
    simp [State.buildCgpms, this, foreignFamily, Dict.vals]
  obtain ⟨x, e1, -, e2⟩ := C28_composed (catOf_lawful fun _ => True) h1 hw hl
    (foreignFamily_produced (q := 7) (by simp)) (foreignFamily_produced (q := 8) (by simp))
  refine ⟨s, h1, hw, foreignFamily_parent.mpr (by simp), ?_⟩
  rw [e1, e2]
  rintro (⟨c, hc, g1, g2⟩ | ⟨a, b, ⟨ho, -⟩ | ⟨-, ha⟩, -⟩)
  · have := h2.foreign_of_not_mem (by rw [h4]; simp) (by norm_num) hc g1
    simp [foreignFamily, foreignModel, Dict.vals] at this
    rcases this with rfl | rfl | rfl | rfl <;> simp at g1 g2
  · rw [h4] at ho; simp at ho
  · rw [foreignFamily_ancestor] at ha
    omega

/-- Likewise for the children of two variables that one composed model produces together. -/
theorem C28_children_of_one_root_is_zero : ∃ s : State libCat, StateReachable plainCfg s ∧
    Net.WellFormed (s.buildCgpms noBehaviour foreignFamily) ∧
    (∃ c ∈ s.buildCgpms noBehaviour foreignFamily, 7 ∈ c.outputs ∧ 9 ∈ c.outputs) ∧
    Net.Parent (s.buildCgpms noBehaviour foreignFamily) 7 8 ∧
    Net.Parent (s.buildCgpms noBehaviour foreignFamily) 9 10 ∧
    s.dependenceProbability 1000 noBehaviour foreignFamily 8 10 = .ok 0 := by
  obtain ⟨s, h1, h2, h3, h4, h5, h6, h7, h8, h9, h10, -, h12⟩ := stateDemo_init
    (normal_remembered 0) normal_hyp (a := 0) (b := 1) (by decide) [] []
  have hw := foreignFamily_wf h2 h4
  have hl : (s.buildCgpms noBehaviour foreignFamily).length < 1000 := by
    have : s.views.length = 2 := by
      have := congrArg List.length h8
      simpa [Dict.keys] using this
    simp [State.buildCgpms, this, foreignFamily, Dict.vals]
  obtain ⟨x, e1, -, e2⟩ := C28_composed (catOf_lawful fun _ => True) h1 hw hl
    (foreignFamily_produced (q := 8) (by simp)) (foreignFamily_produced (q := 10) (by simp))
  refine ⟨s, h1, hw, ⟨foreignModel [7, 9] [], mem_buildCgpms.mpr (.inr ?_), by simp [foreignModel],
    by simp [foreignModel]⟩, foreignFamily_parent.mpr (by simp), foreignFamily_parent.mpr (by simp), ?_⟩
  · simp [foreignFamily, Dict.vals]
  rw [e1, e2]
  rintro (⟨c, hc, g1, g2⟩ | ⟨a, b, ⟨ho, -⟩ | ⟨-, ha⟩, ⟨ho', -⟩ | ⟨-, hb⟩, hab⟩)
  · have := h2.foreign_of_not_mem (by rw [h4]; simp) (by norm_num) hc g1
    simp [foreignFamily, foreignModel, Dict.vals] at this
    rcases this with rfl | rfl | rfl | rfl <;> simp at g1 g2
  · rw [h4] at ho; simp at ho
  · rw [h4] at ho; simp at ho
  · rw [h4] at ho'; simp at ho'
  · rw [foreignFamily_ancestor] at ha hb
    have ha' : a = 7 := by omega
    subst ha'
    rcases hab with rfl | ⟨v, e, -⟩
    · omega
    · exact absurd ((h2.cols 7).mp (by simp [e])) (by rw [h4]; simp)

/-- The two rows of the demonstration State share a cluster in one of its two views. -/
example : ∃ s : State libCat, StateReachable plainCfg s ∧ 0 < s.nRows ∧ 1 < s.nRows ∧
    s.rowSimilarity 0 1 none = .ok (.fin (1 / 2)) := by
  obtain ⟨s, h1, h2, h3, h4, h5, h6, h7, h8, h9, h10, h11, h12⟩ := stateDemo_init
    (normal_remembered 0) normal_hyp (a := 0) (b := 1) (by decide) [] []
  refine ⟨s, h1, by rw [h5]; norm_num, by rw [h5]; norm_num, ?_⟩
  have hv : viewsOf s s.outputs = {0, 1} := by
    ext v; simp [viewsOf, h4, h6, h7, eq_comm]
  have ha : agreeing s s.outputs 0 1 = {0} := by
    ext v
    simp only [agreeing, hv, Set.mem_setOf_eq, Set.mem_insert_iff, Set.mem_singleton_iff]
    constructor
    · rintro ⟨hv, w, k, hw, e0, e1⟩
      rw [h11 v w hw] at e0 e1
      rcases hv with rfl | rfl
      · rfl
      · simp [stateDemoRows] at e0 e1
        rw [← e0] at e1
        cases e1
    · rintro rfl
      obtain ⟨w, hw⟩ := Dict.exists_of_mem_keys (d := s.views) (k := 0) (by rw [h8]; simp)
      exact ⟨.inl rfl, w, 0, hw, by rw [h11 0 w hw]; rfl, by rw [h11 0 w hw]; rfl⟩
  obtain ⟨e, -⟩ := C29_fraction (catOf_lawful fun _ => True) h1 (cols := s.outputs) (fun _ h => h)
    (by rw [h4]; simp) (r0 := 0) (r1 := 1) (by rw [h5]; norm_num) (by rw [h5]; norm_num)
  rw [C29_default, e, hv, ha, Set.ncard_singleton, Set.ncard_pair (by norm_num)]
  norm_num

end Cgpm.Props
