import Verif.Spec.Mutual
import Verif.Lemmas.Network
import Verif.Lemmas.Metadata
import Verif.Lemmas.ViewFast

namespace Cgpm.Mutual
open Cgpm.Net Cgpm
variable {R V Ω A : Type}

def emptyBlock : Block V := ⟨[], [], []⟩

theorem place_error {comp : Nat → Except Exn Nat} {name : A → Nat} {put : A → Block V → Block V}
    {l : List A} {a : A} (ha : a ∈ l) (h : comp (name a) = .error .keyError)
    (h' : ∀ b ∈ l, ∀ e, comp (name b) = .error e → e = .keyError) (B : Dict Nat (Block V)) :
    place comp name put l B = .error .keyError := by
  induction l generalizing B with
  | nil => simp at ha
  | cons b t ih =>
    unfold place
    cases hb : comp (name b) with
    | error e => rw [h' b (by simp) e hb]
    | ok k =>
      rcases List.mem_cons.1 ha with rfl | ha
      · rw [h] at hb; cases hb
      · exact ih ha (fun b hb => h' b (by simp [hb])) _

theorem place_ok {comp : Nat → Except Exn Nat} {name : A → Nat} {put : A → Block V → Block V}
    {lab : A → Nat} {l : List A} (h : ∀ a ∈ l, comp (name a) = .ok (lab a)) (B : Dict Nat (Block V))
    (hB : B.WF) :
    ∃ B', place comp name put l B = .ok B' ∧ B'.WF ∧ ∀ k, B'.get? k =
      if ∃ a ∈ l, lab a = k then
        some ((l.filter fun a => lab a == k).foldl (fun b a => put a b) ((B.get? k).getD emptyBlock))
      else B.get? k := by
  induction l generalizing B with
  | nil => exact ⟨B, rfl, hB, by simp⟩
  | cons a t ih =>
    obtain ⟨B', h1, h2, h3⟩ := ih (fun b hb => h b (by simp [hb])) (onBlock B (lab a) (put a))
      (Dict.wf_set hB _ _)
    refine ⟨B', ?_, h2, fun k => ?_⟩
    · unfold place; rw [h a (by simp)]; exact h1
    rw [h3, onBlock, Dict.get?_set]
    by_cases hk : lab a = k
    · subst hk
      have hp : ∃ b ∈ a :: t, lab b = lab a := ⟨a, by simp, rfl⟩
      by_cases ht : ∃ b ∈ t, lab b = lab a
      · rw [if_pos ht, if_pos hp]
        simp [emptyBlock]
      · have hf : t.filter (fun b => lab b == lab a) = [] := by
          rw [List.filter_eq_nil_iff]; intro b hb hl; exact ht ⟨b, hb, by simpa using hl⟩
        rw [if_neg ht, if_pos hp]
        simp [emptyBlock, hf]
    · have hk' : ¬ k = lab a := fun h => hk h.symm
      rw [if_neg hk']
      have e : (∃ b ∈ a :: t, lab b = k) ↔ ∃ b ∈ t, lab b = k := by simp [hk]
      simp only [e, List.filter_cons, beq_iff_eq, hk, if_false]

theorem foldl_col0 (l : List Nat) (b : Block V) :
    l.foldl (fun b v => { b with col0 := b.col0 ++ [v] }) b = { b with col0 := b.col0 ++ l } := by
  induction l generalizing b with
  | nil => simp
  | cons a t ih => rw [List.foldl_cons, ih]; simp

theorem foldl_col1 (l : List Nat) (b : Block V) :
    l.foldl (fun b v => { b with col1 := b.col1 ++ [v] }) b = { b with col1 := b.col1 ++ l } := by
  induction l generalizing b with
  | nil => simp
  | cons a t ih => rw [List.foldl_cons, ih]; simp

theorem foldl_constraints (l : Dict Nat (Option V)) (b : Block V) :
    l.foldl (fun b p => { b with constraints := b.constraints.set p.1 p.2 }) b
      = { b with constraints := Dict.update b.constraints l } := by
  induction l generalizing b with
  | nil => simp [Dict.update]
  | cons a t ih => rw [List.foldl_cons, ih]; simp [Dict.update]

theorem wf_filter {d : Dict Nat V} (h : d.WF) (p : Nat × V → Bool) : Dict.WF (List.filter p d) := by
  unfold Dict.WF Dict.keys at *
  exact h.sublist ((List.filter_sublist (l := d)).map _)

/-- The blocks of a query, when every variable has a label. -/
theorem partition_ok {scipy : Nat → (Nat → Nat → Bool) → List Nat} {cgpms : List (NetCgpm R V Ω)}
    {col0 col1 : List Nat} {constraints : Dict Nat (Option V)} (hw : constraints.WF) {lab : Nat → Nat}
    (h : ∀ v, v ∈ col0 ∨ v ∈ col1 ∨ v ∈ constraints.keys →
      componentOf (variableToCgpm cgpms) (weaklyConnected scipy cgpms) v = .ok (lab v)) :
    ∃ B, partitionQuery scipy cgpms col0 col1 constraints = .ok B ∧ B.WF ∧ ∀ k b, B.get? k = some b ↔
      (∃ v, (v ∈ col0 ∨ v ∈ col1 ∨ v ∈ constraints.keys) ∧ lab v = k) ∧
      b = ⟨col0.filter (fun u => lab u == k), col1.filter (fun u => lab u == k),
        constraints.filter fun p => lab p.1 == k⟩ := by
  obtain ⟨B1, p1, w1, g1⟩ := place_ok (name := id) (lab := lab)
    (put := fun v (b : Block V) => { b with col0 := b.col0 ++ [v] })
    (comp := componentOf (variableToCgpm cgpms) (weaklyConnected scipy cgpms)) (l := col0)
    (fun a ha => h a (.inl ha)) [] (by simp [Dict.WF, Dict.keys])
  obtain ⟨B2, p2, w2, g2⟩ := place_ok (name := id) (lab := lab)
    (put := fun v (b : Block V) => { b with col1 := b.col1 ++ [v] })
    (comp := componentOf (variableToCgpm cgpms) (weaklyConnected scipy cgpms)) (l := col1)
    (fun a ha => h a (.inr (.inl ha))) B1 w1
  obtain ⟨B3, p3, w3, g3⟩ := place_ok (name := Prod.fst) (lab := fun p : Nat × Option V => lab p.1)
    (put := fun p (b : Block V) => { b with constraints := b.constraints.set p.1 p.2 })
    (comp := componentOf (variableToCgpm cgpms) (weaklyConnected scipy cgpms)) (l := constraints)
    (fun a ha => h a.1 (.inr (.inr (List.mem_map.2 ⟨a, ha, rfl⟩)))) B2 w2
  refine ⟨B3, by unfold partitionQuery; simp only [p1, p2, p3], w3, fun k b => ?_⟩
  have hk : (∃ v, v ∈ constraints.keys ∧ lab v = k) ↔ ∃ a ∈ constraints, lab a.1 = k := by
    simp [Dict.keys]
  have upd : Dict.update [] (constraints.filter fun p => lab p.1 == k)
      = constraints.filter fun p => lab p.1 == k := Dict.update_nil_eq (wf_filter hw _)
  have nil0 : ¬ (∃ a ∈ col0, lab a = k) → col0.filter (fun u => lab u == k) = [] := fun hn => by
    rw [List.filter_eq_nil_iff]; intro b hb hl; exact hn ⟨b, hb, by simpa using hl⟩
  have nil1 : ¬ (∃ a ∈ col1, lab a = k) → col1.filter (fun u => lab u == k) = [] := fun hn => by
    rw [List.filter_eq_nil_iff]; intro b hb hl; exact hn ⟨b, hb, by simpa using hl⟩
  have nil2 : ¬ (∃ a ∈ constraints, lab a.1 = k) → (constraints.filter fun p => lab p.1 == k) = [] :=
    fun hn => by rw [List.filter_eq_nil_iff]; intro b hb hl; exact hn ⟨b, hb, by simpa using hl⟩
  have hex : (∃ v, (v ∈ col0 ∨ v ∈ col1 ∨ v ∈ constraints.keys) ∧ lab v = k) ↔
      (∃ a ∈ col0, lab a = k) ∨ (∃ a ∈ col1, lab a = k) ∨ ∃ a ∈ constraints, lab a.1 = k := by
    rw [← hk]
    constructor
    · rintro ⟨v, h | h | h, e⟩
      · exact .inl ⟨v, h, e⟩
      · exact .inr (.inl ⟨v, h, e⟩)
      · exact .inr (.inr ⟨v, h, e⟩)
    · rintro (⟨v, h, e⟩ | ⟨v, h, e⟩ | ⟨v, h, e⟩)
      · exact ⟨v, .inl h, e⟩
      · exact ⟨v, .inr (.inl h), e⟩
      · exact ⟨v, .inr (.inr h), e⟩
  rw [g3, g2, g1, hex]
  simp only [foldl_col0, foldl_col1, foldl_constraints, Dict.get?_nil, emptyBlock]
  by_cases c0 : ∃ a ∈ col0, lab a = k <;> by_cases c1 : ∃ a ∈ col1, lab a = k <;>
    by_cases c2 : ∃ a ∈ constraints, lab a.1 = k <;>
    simp only [c0, c1, c2, if_true, if_false, nil0, nil1, nil2, not_false_eq_true, Option.getD_some,
      Option.getD_none, List.nil_append, upd, true_or, or_true, or_self, true_and, false_and,
      Option.some.injEq, or_false, false_or, reduceCtorEq] <;>
    exact ⟨fun h => h.symm, fun h => h.symm⟩

end Cgpm.Mutual

namespace Cgpm.Mutual
open Cgpm.Net Cgpm
variable {R V Ω : Type}

/-- No variable is produced by two components. -/
def Unique (cgpms : List (NetCgpm R V Ω)) : Prop :=
  ∀ (i j : Nat) (a b : NetCgpm R V Ω), cgpms[i]? = some a → cgpms[j]? = some b →
    ∀ v ∈ a.outputs, v ∈ b.outputs → i = j

theorem matrix_feeds {cgpms : List (NetCgpm R V Ω)} (hu : Unique cgpms) (i j : Nat) :
    (i < cgpms.length ∧ j < cgpms.length ∧
      adjacencyMatrix cgpms (variableToCgpm cgpms) i j = true) ↔ Feeds cgpms i j := by
  rw [← adjacency_edge hu]
  obtain ⟨hk, hg⟩ := adjacency_get? cgpms (variableToCgpm cgpms)
  unfold adjacencyMatrix Graph.Edge
  rw [hk, List.mem_range]
  constructor
  · rintro ⟨h1, h2, h3⟩
    refine ⟨h1, ?_⟩
    cases he : (adjacencyList cgpms (variableToCgpm cgpms)).get? j with
    | none => rw [he] at h3; simp at h3
    | some es => rw [he] at h3; exact ⟨es, rfl, by simpa using h3⟩
  · rintro ⟨h1, es, h2, h3⟩
    refine ⟨h1, ?_, by rw [h2]; simpa using h3⟩
    have := Dict.mem_keys_of_get? h2
    rwa [hk, List.mem_range] at this

theorem label_spec {scipy : Nat → (Nat → Nat → Bool) → List Nat} (hs : WeakLabels scipy)
    {cgpms : List (NetCgpm R V Ω)} (hu : Unique cgpms) :
    ∃ lab : Nat → Nat, (∀ v, Produced cgpms v →
      componentOf (variableToCgpm cgpms) (weaklyConnected scipy cgpms) v = .ok (lab v)) ∧
      ∀ u v, Produced cgpms u → Produced cgpms v → (lab u = lab v ↔ Connected cgpms u v) := by
  classical
  obtain ⟨hl, hs⟩ := hs cgpms.length (adjacencyMatrix cgpms (variableToCgpm cgpms))
  have hrel : (fun i j => i < cgpms.length ∧ j < cgpms.length ∧
      adjacencyMatrix cgpms (variableToCgpm cgpms) i j = true) = Feeds cgpms := by
    funext i j; exact propext (matrix_feeds hu i j)
  rw [hrel] at hs
  have hpos : ∀ v, Produced cgpms v → ∃ i, (variableToCgpm cgpms).get? v = some i ∧
      i < cgpms.length ∧ ∃ a, cgpms[i]? = some a ∧ v ∈ a.outputs := by
    rintro v ⟨c, hc, hv⟩
    obtain ⟨i, hi⟩ := List.mem_iff_getElem?.1 hc
    exact ⟨i, (vToC_iff hu v i).2 ⟨c, hi, hv⟩, (List.getElem?_eq_some_iff.1 hi).1, c, hi, hv⟩
  refine ⟨fun v => ((weaklyConnected scipy cgpms)[((variableToCgpm cgpms).get? v).getD 0]?).getD 0,
    fun v hv => ?_, fun u v hu' hv' => ?_⟩
  · obtain ⟨i, h1, h2, -⟩ := hpos v hv
    unfold componentOf
    rw [h1]
    have : i < (weaklyConnected scipy cgpms).length := by
      unfold weaklyConnected; rw [hl]; exact h2
    simp [h1, List.getElem?_eq_getElem this]
  · obtain ⟨i, i1, i2, a, i3, i4⟩ := hpos u hu'
    obtain ⟨j, j1, j2, b, j3, j4⟩ := hpos v hv'
    have hi : i < (weaklyConnected scipy cgpms).length := by unfold weaklyConnected; rw [hl]; exact i2
    have hj : j < (weaklyConnected scipy cgpms).length := by unfold weaklyConnected; rw [hl]; exact j2
    have key := hs i j i2 j2
    have e : (weaklyConnected scipy cgpms) = scipy cgpms.length (adjacencyMatrix cgpms (variableToCgpm cgpms)) := rfl
    rw [← e] at key
    simp only [i1, j1, Option.getD_some, List.getElem?_eq_getElem hi, List.getElem?_eq_getElem hj]
      at key ⊢
    rw [Option.some.injEq] at key
    rw [key]
    constructor
    · intro h; exact ⟨i, j, a, b, i3, i4, j3, j4, h⟩
    · rintro ⟨i', j', a', b', k1, k2, k3, k4, h⟩
      rwa [hu i i' a a' i3 k1 u i4 k2, hu j j' b b' j3 k3 v j4 k4]

/-- Such a labelling exists. -/
theorem exists_weakLabels : ∃ scipy, WeakLabels scipy := by
  classical
  let r : Nat → (Nat → Nat → Bool) → Nat → Nat → Prop := fun n A =>
    Relation.EqvGen fun i j => i < n ∧ j < n ∧ A i j = true
  have ex : ∀ n A i, ∃ j, r n A i j := fun n A i => ⟨i, .refl i⟩
  refine ⟨fun n A => (List.range n).map fun i => Nat.find (ex n A i), fun n A => ⟨by simp, fun i j hi hj => ?_⟩⟩
  simp only [List.getElem?_map, List.getElem?_range hi, List.getElem?_range hj, Option.map_some,
    Option.some.injEq]
  constructor
  · intro h
    have h1 := Nat.find_spec (ex n A i)
    have h2 := Nat.find_spec (ex n A j)
    rw [← h] at h2
    exact h1.trans _ _ _ (h2.symm _ _)
  · intro h
    have h : r n A i j := h
    congr 1
    funext k
    exact propext ⟨fun hk => (h.symm _ _).trans _ _ _ hk, fun hk => h.trans _ _ _ hk⟩

theorem restrict_ok {cols : List Nat} {s : Dict Nat V} (h : ∀ c ∈ cols, c ∈ s.keys) :
    ∃ t, restrict cols s = .ok t ∧ t.WF ∧ ∀ c, t.get? c = if c ∈ cols then s.get? c else none := by
  obtain ⟨r, h1, h2⟩ := Props.collect_forall₂ (f := pick s) (P := fun c p => p.1 = c ∧ s.get? c = some p.2) (l := cols) (fun c hc => by
      obtain ⟨x, hx⟩ := Dict.exists_of_mem_keys (h c hc)
      exact ⟨(c, x), by simp only [pick, hx], rfl, hx⟩)
  refine ⟨Dict.update [] r, by unfold restrict; rw [h1]; rfl, Dict.wf_update (by simp [Dict.WF, Dict.keys]) _, ?_⟩
  intro c
  have hk : r.map Prod.fst = cols := by
    clear h1 h
    induction h2 with
    | nil => rfl
    | cons a _ ih => simp [a.1, ih]
  have hr : ∀ p ∈ r, s.get? p.1 = some p.2 := by
    clear h1 h hk
    induction h2 with
    | nil => simp
    | cons a _ ih =>
      intro p hp
      rcases List.mem_cons.1 hp with rfl | hp
      · rw [a.1]; exact a.2
      · exact ih p hp
  cases hg : Dict.get? (Dict.update [] r) c with
  | some x =>
    have hm := Dict.get?_update_nil_mem hg
    rw [if_pos (by rw [← hk]; exact List.mem_map.2 ⟨_, hm, rfl⟩)]
    exact (hr _ hm).symm
  | none =>
    rw [if_neg]
    intro hc
    rw [Dict.get?_eq_none_iff, Dict.mem_keys_update] at hg
    exact hg (.inr (by rw [← hk] at hc; exact hc))

theorem collect_ofFn {A B : Type} {n : Nat} {f : A → Except Exn B} {t : Fin n → A} {g : Fin n → B}
    (h : ∀ i, f (t i) = .ok (g i)) : collect f (List.ofFn t) = .ok (List.ofFn g) := by
  induction n with
  | zero => simp [collect]
  | succ n ih =>
    rw [List.ofFn_succ, List.ofFn_succ]
    simp only [collect, h 0, ih fun i => h i.succ]
    rfl

theorem zipIdx_ofFn {A : Type} {n : Nat} (t : Fin n → A) :
    (List.ofFn t).zipIdx = List.ofFn fun i : Fin n => (t i, i.val) := by
  apply List.ext_getElem
  · simp
  · intro i h1 h2; simp

theorem bulk_ok {m : MiModel V} {site : Site} {ph N : Nat} {E : Dict Nat V} {t : Fin N → Dict Nat V}
    {f : Fin N → ℝ} (h : ∀ i : Fin N, m.logpdf site ph i (t i) E = .ok (.fin (f i))) :
    logpdfBulk m site ph E N (List.ofFn t) = .ok ((List.ofFn f).map Fl.fin) := by
  unfold logpdfBulk
  rw [if_neg (by simp), zipIdx_ofFn, collect_ofFn (g := fun i => Fl.fin (f i)) h, List.map_ofFn]
  rfl

end Cgpm.Mutual
