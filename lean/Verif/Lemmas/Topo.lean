import Verif.Spec.Topo
import Verif.Lemmas.Dict
import Mathlib.Data.Fintype.Order
import Mathlib.Order.WellFounded
import Mathlib.Logic.Relation
import Mathlib.Data.List.Nodup

namespace Cgpm
open Classical

/-- Invariant of the sort of `g0`: `g` is what remains, `l` what was output. -/
structure TopoInv (g0 g : Graph) (l : List Nat) : Prop where
  wf : g.WF
  sub : ∀ n es, g.get? n = some es → g0.get? n = some es
  split : ∀ n, n ∈ g0.keys ↔ n ∈ g.keys ∨ n ∈ l
  disj : ∀ n ∈ l, n ∉ g.keys
  nodup : l.Nodup
  order : ParentsFirst g0 l

theorem parentsFirst_snoc {g : Graph} {l : List Nat} {n : Nat} (h : ParentsFirst g l)
    (hn : ∀ a, g.Edge a n → a ∈ l) : ParentsFirst g (l ++ [n]) := by
  intro i hi a ha
  by_cases hl : i < l.length
  · rw [List.getElem_append_left hl] at ha
    rw [List.take_append_of_le_length (by omega)]
    exact h i hl a ha
  · have : i = l.length := by simp at hi; omega
    subst this
    simp at ha
    rw [List.take_append_of_le_length le_rfl, List.take_length]
    exact hn a ha

theorem topoPass_spec {g0 : Graph} (items : List (Nat × List Nat)) (g : Graph) (l : List Nat)
    (c : Bool) (hI : TopoInv g0 g l) (hnd : (items.map Prod.fst).Nodup)
    (hit : ∀ p ∈ items, g.get? p.1 = some p.2) :
    let r := topoPass items g l c
    TopoInv g0 r.1 r.2.1 ∧ r.1.length + r.2.1.length = g.length + l.length ∧
    (r.2.2 = true → c = true ∧ r.1 = g ∧ r.2.1 = l ∧ ∀ p ∈ items, ∃ e ∈ p.2, e ∈ g.keys) ∧
    (r.2.2 = false → c = false ∨ r.1.length < g.length) := by
  induction items generalizing g l c with
  | nil =>
    refine ⟨hI, rfl, fun h => ⟨h, rfl, rfl, by simp⟩, fun h => .inl h⟩
  | cons p t ih =>
    obtain ⟨n, es⟩ := p
    have hn : g.get? n = some es := hit (n, es) (by simp)
    rw [List.map_cons, List.nodup_cons] at hnd
    simp only [topoPass]
    split
    · rename_i hall
      have hnone : ∀ e ∈ es, e ∉ g.keys := by
        intro e he hk
        have := List.all_eq_true.mp hall e he
        simp at this
        rw [(Dict.has_iff g e).mpr hk] at this; cases this
      have hI' : TopoInv g0 (g.erase n) (l ++ [n]) := by
        refine ⟨Dict.wf_erase hI.wf n, ?_, ?_, ?_, ?_, ?_⟩
        · intro m es' h
          by_cases hm : m = n
          · subst hm; simp at h
          · rw [Dict.get?_erase_ne _ hm] at h; exact hI.sub m es' h
        · intro m
          rw [hI.split m, Dict.mem_keys_erase, List.mem_append, List.mem_singleton]
          by_cases hm : m = n
          · subst hm
            simp [Dict.mem_keys_of_get? hn]
          · simp [hm]
        · intro m hm
          rw [Dict.mem_keys_erase]
          rcases List.mem_append.mp hm with hm | hm
          · exact fun h => hI.disj m hm h.2
          · rw [List.mem_singleton] at hm; simp [hm]
        · rw [List.nodup_append]
          refine ⟨hI.nodup, by simp, fun a ha b hb e => ?_⟩
          rw [List.mem_singleton] at hb
          subst hb; subst e
          exact hI.disj a ha (Dict.mem_keys_of_get? hn)
        · refine parentsFirst_snoc hI.order ?_
          rintro a ⟨hk, es', he', ha⟩
          rw [hI.sub n es hn] at he'
          cases he'
          rcases (hI.split a).mp hk with h | h
          · exact absurd h (hnone a ha)
          · exact h
      obtain ⟨i1, i2, i3, i4⟩ := ih (g.erase n) (l ++ [n]) false hI' hnd.2 (by
        intro q hq
        have hne : q.1 ≠ n := fun e => hnd.1 (List.mem_map.mpr ⟨q, hq, e⟩)
        rw [Dict.get?_erase_ne _ hne]
        exact hit q (by simp [hq]))
      have hlen := Dict.length_erase hI.wf hn
      refine ⟨i1, ?_, fun h => absurd (i3 h).1 (by simp), fun h => .inr ?_⟩
      · rw [i2]; simp; omega
      · rcases Nat.lt_or_ge (topoPass t (g.erase n) (l ++ [n]) false).1.length g.length with h | h
        · exact h
        · have h2 := i2
          have hge : (l ++ [n]).length ≤ (topoPass t (g.erase n) (l ++ [n]) false).2.1.length := by
            clear * -
            generalize l ++ [n] = l
            generalize g.erase n = g
            generalize false = c
            induction t generalizing g l c with
            | nil => simp [topoPass]
            | cons p t ih =>
              obtain ⟨m, es⟩ := p
              simp only [topoPass]
              split
              · have := ih (l ++ [m]) (g.erase m) false
                simp at this; omega
              · exact ih _ _ _
          omega
    · rename_i hall
      obtain ⟨i1, i2, i3, i4⟩ := ih g l c hI hnd.2 (fun q hq => hit q (by simp [hq]))
      refine ⟨i1, i2, fun h => ?_, i4⟩
      obtain ⟨h1, h2, h3, h4⟩ := i3 h
      refine ⟨h1, h2, h3, fun q hq => ?_⟩
      rcases List.mem_cons.mp hq with rfl | hq
      · simp only [List.all_eq_true, not_forall] at hall
        obtain ⟨e, he, hh⟩ := hall
        refine ⟨e, he, ?_⟩
        rw [← Dict.has_iff]
        simpa using hh
      · exact h4 q hq

/-- A non-empty finite set in which everybody has a predecessor contains a cycle. -/
theorem cycle_of_no_source {r : Nat → Nat → Prop} (S : List Nat) (hS : S ≠ [])
    (h : ∀ b ∈ S, ∃ a ∈ S, r a b) : ∃ v ∈ S, Relation.TransGen r v v := by
  by_contra hc
  push Not at hc
  let T := {x // x ∈ S}
  have : Finite T := Finite.of_fintype T
  let R : T → T → Prop := fun a b => Relation.TransGen r a.1 b.1
  have htr : IsTrans T R := ⟨fun a b c h1 h2 => Relation.TransGen.trans h1 h2⟩
  have hir : Std.Irrefl R := ⟨fun a h => hc a.1 a.2 h⟩
  have hwf : WellFounded R := Finite.wellFounded_of_trans_of_irrefl R
  obtain ⟨x, t, rfl⟩ := List.exists_cons_of_ne_nil hS
  obtain ⟨m, -, hm⟩ := hwf.has_min Set.univ ⟨⟨x, by simp⟩, trivial⟩
  obtain ⟨a, ha, hr⟩ := h m.1 m.2
  exact hm ⟨a, ha⟩ trivial (Relation.TransGen.single hr)

theorem topoInv_init {g : Graph} (h : g.WF) : TopoInv g g [] :=
  ⟨h, fun _ _ h => h, by simp, by simp, List.nodup_nil, by intro i h; simp at h⟩

theorem topoLoop_spec {g0 : Graph} (order : Nat → Graph → List (Nat × List Nat))
    (hord : ∀ p g, (order p g).Perm g) (fuel : Nat) (g : Graph) (l : List Nat)
    (hI : TopoInv g0 g l) (hf : g.length < fuel) :
    (∃ r, topoLoop order fuel g l = some (.ok r) ∧ TopoInv g0 [] r) ∨
    (topoLoop order fuel g l = some (.error .valueError) ∧
      ∃ v ∈ g0.keys, Relation.TransGen g0.Edge v v) := by
  induction fuel generalizing g l with
  | zero => omega
  | succ fuel ih =>
    rw [topoLoop]
    split
    · rename_i he
      rw [List.isEmpty_iff] at he
      subst he
      exact .inl ⟨l, rfl, hI⟩
    · rename_i he
      have hp := hord fuel g
      obtain ⟨i1, i2, i3, i4⟩ := topoPass_spec (order fuel g) g l true hI
        (((hp.map Prod.fst).nodup_iff).mpr hI.wf) (by
          intro p hp'
          exact Dict.get?_of_mem hI.wf (hp.subset hp'))
      cases hr : topoPass (order fuel g) g l true with
      | mk g' r2 =>
        obtain ⟨l', c⟩ := r2
        simp only [hr] at i1 i2 i3 i4 ⊢
        cases c with
        | true =>
          right
          refine ⟨rfl, ?_⟩
          obtain ⟨-, -, -, h4⟩ := i3 rfl
          have hne : g.keys ≠ [] := by
            intro h
            apply he
            rw [List.isEmpty_iff]
            exact List.map_eq_nil_iff.mp h
          obtain ⟨v, hv, hcy⟩ := cycle_of_no_source (r := g0.Edge) g.keys hne (by
            intro b hb
            obtain ⟨es, hes⟩ := Dict.exists_of_mem_keys hb
            obtain ⟨e, he, hk⟩ := h4 (b, es) (hp.symm.subset (Dict.mem_of_get? hes))
            exact ⟨e, hk, (hI.split e).mpr (.inl hk), es, hI.sub b es hes, he⟩)
          exact ⟨v, (hI.split v).mpr (.inl hv), hcy⟩
        | false =>
          have hlt := (i4 rfl).resolve_left (by simp)
          have hlt' : List.length g' < List.length g := hlt
          exact ih g' l' i1 (by omega)

/-- A list with parents first has no cycle through its nodes. -/
theorem no_cycle_of_parentsFirst {g : Graph} {l : List Nat} (h : ParentsFirst g l)
    (hall : ∀ n ∈ g.keys, n ∈ l) : ¬ ∃ v, Relation.TransGen g.Edge v v := by
  -- the position of the first occurrence strictly decreases along edges
  have key : ∀ a b, g.Edge a b → l.idxOf a < l.idxOf b := by
    intro a b hab
    have hb : b ∈ l := hall b (by obtain ⟨-, es, he, -⟩ := hab; exact Dict.mem_keys_of_get? he)
    have hlt := List.idxOf_lt_length_iff.mpr hb
    have := h (l.idxOf b) hlt a (by rw [List.getElem_idxOf hlt]; exact hab)
    have hsp : l = l.take (l.idxOf b) ++ l.drop (l.idxOf b) := (List.take_append_drop _ _).symm
    have h1 : l.idxOf a = (l.take (l.idxOf b)).idxOf a := by
      conv_lhs => rw [hsp]
      exact List.idxOf_append_of_mem this
    have h2 := List.idxOf_lt_length_iff.mpr this
    rw [List.length_take] at h2
    omega
  rintro ⟨v, hv⟩
  have : ∀ a b, Relation.TransGen g.Edge a b → l.idxOf a < l.idxOf b := by
    intro a b hab
    induction hab with
    | single h => exact key _ _ h
    | tail _ h ih => exact lt_trans ih (key _ _ h)
  exact lt_irrefl _ (this v v hv)

end Cgpm
