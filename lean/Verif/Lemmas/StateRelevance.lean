import Verif.Spec.StateQuery
import Verif.Lemmas.StateQuery
import Verif.Lemmas.StateSame

/-! Hypothetical rows are added to one view and removed again. -/
namespace Cgpm
namespace State
variable {C : Cat}
open View

theorem same_get {a b : View C} (h : Same a b) {c : Col} {d : Dim C} (hd : b.dims.get? c = some d) :
    ∃ d0, a.dims.get? c = some d0 ∧ Dim.Frame d0 d := by
  have := h c
  rw [hd] at this
  cases ha : a.dims.get? c with
  | none => rw [ha] at this; cases this
  | some d0 => rw [ha] at this; cases this with | some h => exact ⟨d0, rfl, h⟩

theorem same_keys {a b : View C} (h : Same a b) (c : Col) :
    c ∈ b.dims.keys ↔ c ∈ a.dims.keys := by
  constructor
  · intro hc
    obtain ⟨d, hd⟩ := Dict.exists_of_mem_keys hc
    obtain ⟨d0, h0, -⟩ := same_get h hd
    exact Dict.mem_keys_of_get? h0
  · intro hc
    obtain ⟨d, hd⟩ := Dict.exists_of_mem_keys hc
    obtain ⟨d0, h0, -⟩ := same_get h.symm hd
    exact Dict.mem_keys_of_get? h0

theorem rowLt1 (n k : Nat) : ¬ n + k < n := by omega
theorem rowLt2 (n k : Nat) : ¬ n + k < n + k := by omega
theorem rowLt3 (n k : Nat) : n + k < n + (k + 1) := by omega

/-- View `v0` and the data set `X0`, which has `n` rows, with `k` hypothetical rows. -/
structure Extended (X0 : Dict Col (List C.Cell)) (v0 : View C) (n k : Nat) (z : Row → Tab)
    (X : Dict Col (List C.Cell)) (v : View C) : Prop where
  keys : X.keys = X0.keys
  other : ∀ c, c ∉ v0.dims.keys → X.get? c = X0.get? c
  own : ∀ c ∈ v0.dims.keys, ∃ l l0, X0.get? c = some l0 ∧ X.get? c = some l ∧ l.length = n + k ∧
    l0.length = n ∧ l.take n = l0
  inv : View.Inv (tblOf X) v
  seat : ∀ r, v.seat r = if r < n then v0.seat r else if r < n + k then some (z r) else none
  alpha : v.crp.alpha = v0.crp.alpha
  same : Same v0 v

theorem Extended.start {X0 : Dict Col (List C.Cell)} {v0 : View C} {n : Nat}
    (hI : View.Inv (tblOf X0) v0) (hr : ∀ r, v0.seat r ≠ none ↔ r < n)
    (hX : ∀ c ∈ v0.dims.keys, ∃ l, X0.get? c = some l ∧ l.length = n) (z : Row → Tab) :
    Extended X0 v0 n 0 z X0 v0 where
  keys := rfl
  other := fun _ _ => rfl
  own := fun c hc => by
    obtain ⟨l, h1, h2⟩ := hX c hc
    exact ⟨l, l, h1, h1, h2, h2, by rw [← h2, List.take_length]⟩
  inv := hI
  seat := fun r => by
    by_cases h : r < n
    · rw [if_pos h]
    · rw [if_neg h, if_neg (by simpa using h)]
      by_contra hn
      exact h ((hr r).mp hn)
  alpha := rfl
  same := Same.refl _

/-- A row of hypothetical values that the view can take. -/
structure Fits (v0 : View C) (q : Dict Col C.Cell) : Prop where
  has : ∀ c ∈ v0.dims.keys, ∃ x, q.get? c = some x
  acc : ∀ c d, v0.dims.get? c = some d → Accepts (fun c _ => (q.get? c).getD none) d 0

theorem Extended.push (hL : C.Lawful) {X0 X : Dict Col (List C.Cell)} {v0 v : View C} {n k : Nat}
    {z : Row → Tab} (h : Extended X0 v0 n k z X v) {q : Dict Col C.Cell} (hq : Fits v0 q)
    (hin : ∀ c d, v0.dims.get? c = some d → ∀ i ∈ d.inputs, i ∈ v0.dims.keys) :
    ∃ X' v', pushRow q v.dims.keys X = .ok X' ∧
      v.incorporate (tblOf X') (n + k) q none (z (n + k)) = .ok v' ∧
      Extended X0 v0 n (k + 1) z X' v' := by
  have hkeys : ∀ c, c ∈ v.dims.keys ↔ c ∈ v0.dims.keys := same_keys h.same
  obtain ⟨X', e1, e2, e3⟩ := pushRow_ok q (outs := v.dims.keys) h.inv.wf (X := X) fun c hc => by
    obtain ⟨l, l0, -, hl, -⟩ := h.own c ((hkeys c).mp hc)
    exact Dict.mem_keys_of_get? hl
  have hown : ∀ c ∈ v0.dims.keys, ∃ l, X.get? c = some l ∧ l.length = n + k ∧
      X'.get? c = some (l ++ [(q.get? c).getD none]) := by
    intro c hc
    obtain ⟨l, l0, -, hl, hlen, -⟩ := h.own c hc
    exact ⟨l, hl, hlen, by rw [e3, if_pos ((hkeys c).mpr hc), hl]; rfl⟩
  have htbl : ∀ c ∈ v0.dims.keys, tblOf X' c (n + k) = (q.get? c).getD none := by
    intro c hc
    obtain ⟨l, -, hlen, hl'⟩ := hown c hc
    rw [tblOf_some hl', ← hlen, List.getElem?_concat_length]; rfl
  have hold : ∀ c ∈ v0.dims.keys, ∀ r, r < n + k → tblOf X' c r = tblOf X c r := by
    intro c hc r hr
    obtain ⟨l, hl, hlen, hl'⟩ := hown c hc
    rw [tblOf_some hl', tblOf_some hl, List.getElem?_append_left (by rw [hlen]; exact hr)]
  have hrow : ∀ r, v.seat r ≠ none → r < n + k := by
    intro r hr
    rw [h.seat] at hr
    split at hr
    · rename_i h1; exact Nat.lt_of_lt_of_le h1 (Nat.le_add_right _ _)
    · split at hr
      · assumption
      · exact absurd rfl hr
  have hd : ∀ p ∈ v.dims, ∃ d0, v0.dims.get? p.1 = some d0 ∧ Dim.Frame d0 p.2 := fun p hp =>
    same_get h.same (Dict.get?_of_mem h.inv.wf hp)
  have hinv : View.Inv (tblOf X') v := by
    refine h.inv.congrX fun p hp r hr => ?_
    obtain ⟨d0, hd0, hf⟩ := hd p hp
    refine obsOf_congr ?_ fun i hi => ?_
    · rw [(h.inv.dim p hp).index]
      exact hold _ (Dict.mem_keys_of_get? hd0) r (hrow r hr)
    · rw [hf.inputs] at hi
      exact hold i (hin _ _ hd0 i hi) r (hrow r hr)
  have hobs : ∀ p ∈ v.dims, q.get? p.1 = some (tblOf X' p.1 (n + k)) := by
    intro p hp
    obtain ⟨d0, hd0, -⟩ := hd p hp
    have hm := Dict.mem_keys_of_get? hd0
    obtain ⟨x, hx⟩ := hq.has _ hm
    rw [htbl _ hm, hx]; rfl
  have hacc : ∀ p ∈ v.dims, Accepts (tblOf X') p.2 (n + k) := by
    intro p hp o ho
    obtain ⟨d0, hd0, hf⟩ := hd p hp
    have := hq.acc _ _ hd0
    rw [← accepts_frame hf] at this
    refine this o ?_
    rw [← ho]
    unfold obsOf inputsOf
    rw [(h.inv.dim p hp).index, htbl _ (Dict.mem_keys_of_get? hd0)]
    congr 1
    refine List.map_congr_left fun i hi => ?_
    rw [hf.inputs] at hi
    exact (htbl i (hin _ _ hd0 i hi)).symm
  have hseat : v.seat (n + k) = none := by
    rw [h.seat, if_neg (rowLt1 n k), if_neg (rowLt2 n k)]
  obtain ⟨v', g1, g2, g3, g4, g5⟩ :=
    incorporate_sampled_ok hL hinv hseat none (z (n + k)) hacc hobs
  refine ⟨X', v', e1, g1, e2.trans h.keys, fun c hc => ?_, fun c hc => ?_, g2, fun r => ?_,
    g4.trans h.alpha, h.same.trans g5⟩
  · rw [e3, if_neg (fun hm => hc ((hkeys c).mp hm)), h.other c hc]
  · obtain ⟨l, l0, h1, h2, h3, h4, h5⟩ := h.own c hc
    obtain ⟨l', h6, h7, h8⟩ := hown c hc
    rw [h2] at h6; cases h6
    refine ⟨_, l0, h1, h8, by simp only [List.length_append, List.length_singleton]; omega, h4, ?_⟩
    rw [List.take_append_of_le_length (by omega), h5]
  · rw [g3]
    unfold upd
    by_cases hr : r = n + k
    · subst hr
      rw [if_pos rfl, if_neg (rowLt1 n k), if_pos (rowLt3 n k)]; rfl
    · rw [if_neg hr, h.seat]
      by_cases h1 : r < n
      · rw [if_pos h1, if_pos h1]
      · rw [if_neg h1, if_neg h1]
        have : r < n + k ↔ r < n + (k + 1) := by
          have : ∀ a b : Nat, a ≠ b → (a < b ↔ a < b + 1) := fun a b h => by omega
          exact this r (n + k) hr
        simp only [this]

theorem Extended.pop (hL : C.Lawful) {X0 X : Dict Col (List C.Cell)} {v0 v : View C} {n k : Nat}
    {z : Row → Tab} (h : Extended X0 v0 n (k + 1) z X v)
    (hin : ∀ c d, v0.dims.get? c = some d → ∀ i ∈ d.inputs, i ∈ v0.dims.keys) :
    ∃ X' v', popRow v.dims.keys X = .ok X' ∧ v.unincorporate (n + k) = .ok v' ∧
      Extended X0 v0 n k z X' v' := by
  have hkeys : ∀ c, c ∈ v.dims.keys ↔ c ∈ v0.dims.keys := same_keys h.same
  obtain ⟨X', e1, e2, e3⟩ := popRow_ok (n := n + k) (outs := v.dims.keys) h.inv.wf (X := X)
    fun c hc => by
      obtain ⟨l, l0, -, hl, hlen, -⟩ := h.own c ((hkeys c).mp hc)
      exact ⟨l, hl, hlen⟩
  have hseat : v.seat (n + k) ≠ none := by
    rw [h.seat, if_neg (rowLt1 n k), if_pos (rowLt3 n k)]; simp
  obtain ⟨v', g1, g2, g3, g4, -, g5⟩ := View.unincorporate_ok hL h.inv hseat
  have hown : ∀ c ∈ v0.dims.keys, ∃ l, X.get? c = some l ∧ l.length = n + k + 1 ∧
      X'.get? c = some l.dropLast := by
    intro c hc
    obtain ⟨l, l0, -, hl, hlen, -⟩ := h.own c hc
    exact ⟨l, hl, hlen, by rw [e3, if_pos ((hkeys c).mpr hc), hl]; rfl⟩
  have hold : ∀ c ∈ v0.dims.keys, ∀ r, r < n + k → tblOf X' c r = tblOf X c r := by
    intro c hc r hr
    obtain ⟨l, hl, hlen, hl'⟩ := hown c hc
    rw [tblOf_some hl', tblOf_some hl, List.dropLast_eq_take, List.getElem?_take_of_lt]
    have : ∀ a b : Nat, a < b → a < b + 1 - 1 := fun a b h => by omega
    rw [hlen]; exact this _ _ hr
  have hseat' : ∀ r, v'.seat r = if r < n then v0.seat r else if r < n + k then some (z r) else none := by
    intro r
    rw [g3]
    unfold upd
    by_cases hr : r = n + k
    · subst hr
      rw [if_pos rfl, if_neg (rowLt1 n k), if_neg (rowLt2 n k)]
    · rw [if_neg hr, h.seat]
      by_cases h1 : r < n
      · rw [if_pos h1, if_pos h1]
      · rw [if_neg h1, if_neg h1]
        have : r < n + k ↔ r < n + (k + 1) := by
          have : ∀ a b : Nat, a ≠ b → (a < b ↔ a < b + 1) := fun a b h => by omega
          exact this r (n + k) hr
        simp only [this]
  have hrow : ∀ r, v'.seat r ≠ none → r < n + k := by
    intro r hr
    rw [hseat'] at hr
    split at hr
    · rename_i h1; exact Nat.lt_of_lt_of_le h1 (Nat.le_add_right _ _)
    · split at hr
      · assumption
      · exact absurd rfl hr
  have hS : Same v0 v' := h.same.trans g5.same
  refine ⟨X', v', e1, g1, e2.trans h.keys, fun c hc => ?_, fun c hc => ?_, ?_, hseat',
    g4.trans h.alpha, hS⟩
  · rw [e3, if_neg (fun hm => hc ((hkeys c).mp hm)), h.other c hc]
  · obtain ⟨l, l0, h1, h2, h3, h4, h5⟩ := h.own c hc
    obtain ⟨l', h6, h7, h8⟩ := hown c hc
    rw [h2] at h6; cases h6
    refine ⟨_, l0, h1, h8, by rw [List.length_dropLast]; omega, h4, ?_⟩
    rw [List.dropLast_eq_take, List.take_take, ← h5]
    congr 1
    omega
  · refine g2.congrX fun p hp r hr => ?_
    obtain ⟨d0, hd0, hf⟩ := same_get hS (Dict.get?_of_mem g2.wf hp)
    refine obsOf_congr ?_ fun i hi => ?_
    · rw [(g2.dim p hp).index]
      exact hold _ (Dict.mem_keys_of_get? hd0) r (hrow r hr)
    · rw [hf.inputs] at hi
      exact hold i (hin _ _ hd0 i hi) r (hrow r hr)

theorem Extended.addAll (hL : C.Lawful) {X0 X : Dict Col (List C.Cell)} {v0 v : View C} {n k : Nat}
    {z : Row → Tab} (h : Extended X0 v0 n k z X v) {qs : List (Dict Col C.Cell)}
    (hq : ∀ q ∈ qs, Fits v0 q)
    (hin : ∀ c d, v0.dims.get? c = some d → ∀ i ∈ d.inputs, i ∈ v0.dims.keys) :
    ∃ X' v', addHypothetical z qs (n + k) X v = .ok (X', v') ∧
      Extended X0 v0 n (k + qs.length) z X' v' := by
  induction qs generalizing X v k with
  | nil => exact ⟨X, v, rfl, h⟩
  | cons q qs ih =>
    obtain ⟨X1, v1, e1, e2, h1⟩ := h.push hL (hq q (by simp)) hin
    obtain ⟨X', v', e3, h2⟩ := ih h1 fun q hq' => hq q (by simp [hq'])
    refine ⟨X', v', ?_, ?_⟩
    · simp only [addHypothetical, e1, e2]
      exact e3
    · rw [List.length_cons, show k + (qs.length + 1) = k + 1 + qs.length by omega]
      exact h2

theorem Extended.removeAll (hL : C.Lawful) {X0 X : Dict Col (List C.Cell)} {v0 v : View C}
    {n k : Nat} {z : Row → Tab} (h : Extended X0 v0 n k z X v)
    (hin : ∀ c d, v0.dims.get? c = some d → ∀ i ∈ d.inputs, i ∈ v0.dims.keys) :
    ∃ X' v', removeHypothetical n k X v = .ok (X', v') ∧ Extended X0 v0 n 0 z X' v' := by
  induction k generalizing X v with
  | zero => exact ⟨X, v, rfl, h⟩
  | succ k ih =>
    obtain ⟨X1, v1, e1, e2, h1⟩ := h.pop hL hin
    obtain ⟨X', v', e3, h2⟩ := ih h1
    exact ⟨X', v', by simp only [removeHypothetical, e1, e2]; exact e3, h2⟩

theorem Extended.restored (hL : C.Lawful) {X0 X : Dict Col (List C.Cell)} {v0 v : View C} {n : Nat}
    {z : Row → Tab} (h : Extended X0 v0 n 0 z X v) (hw : X0.WF) (hI : View.Inv (tblOf X0) v0)
    (hr : ∀ r, v0.seat r ≠ none ↔ r < n) : X = X0 ∧ View.Equiv v0 v := by
  have hX : X0 = X := by
    refine dict_ext hw h.keys.symm fun c _ => ?_
    by_cases hc : c ∈ v0.dims.keys
    · obtain ⟨l, l0, h1, h2, h3, -, h5⟩ := h.own c hc
      rw [h1, h2, ← h5, List.take_of_length_le (by omega)]
    · exact (h.other c hc).symm
  subst hX
  refine ⟨rfl, equiv_of_inv hL hI h.inv h.alpha.symm ?_ h.same⟩
  funext r
  rw [h.seat]
  by_cases h1 : r < n
  · rw [if_pos h1]
  · rw [if_neg h1, if_neg (by simpa using h1)]
    by_contra hn
    exact h1 ((hr r).mp hn)

theorem allSame_ok {v : View C} {target : Row} {k : Tab} (hk : v.seat target = some k)
    {all : List Row} (h : ∀ r ∈ all, v.seat r ≠ none) :
    ∃ b, allSame v target all = .ok b ∧ (b = true ↔ ∀ r ∈ all, v.seat r = some k) := by
  induction all with
  | nil => exact ⟨true, rfl, by simp⟩
  | cons r t ih =>
    obtain ⟨a, ha⟩ := Option.ne_none_iff_exists'.mp (h r (by simp))
    obtain ⟨b, h1, h2⟩ := ih fun r hr => h r (by simp [hr])
    by_cases e : k = a
    · subst e
      exact ⟨b, by simp [allSame, sameCluster, hk, ha, h1], by simp [h2, ha]⟩
    · have : (k == a) = false := by simpa using e
      refine ⟨false, by simp [allSame, sameCluster, hk, ha, this], ?_⟩
      simp [ha, Ne.symm e]

end State
end Cgpm
