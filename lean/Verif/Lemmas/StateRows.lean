import Verif.Lemmas.State

/-! Incorporating and unincorporating rows of a State. -/
namespace Cgpm

/-- Two dicts with the same keys in the same order and related values. -/
def Dict.Rel {K V W : Type} (R : K → V → W → Prop) (a : Dict K V) (b : Dict K W) : Prop :=
  List.Forall₂ (fun p q => p.1 = q.1 ∧ R p.1 p.2 q.2) a b

theorem Dict.Rel.keys {K V W : Type} {R : K → V → W → Prop} {a : Dict K V} {b : Dict K W}
    (h : Dict.Rel R a b) : b.keys = a.keys := by
  unfold Dict.keys
  induction h with
  | nil => rfl
  | cons hp _ ih => simp [hp.1, ih]

theorem Dict.Rel.get? {K V W : Type} [DecidableEq K] {R : K → V → W → Prop} {a : Dict K V}
    {b : Dict K W} (h : Dict.Rel R a b) {k : K} {y : W} (hy : b.get? k = some y) :
    ∃ x, a.get? k = some x ∧ R k x y := by
  induction h with
  | nil => simp at hy
  | @cons p q l m hp _ ih =>
    obtain ⟨k1, x⟩ := p
    obtain ⟨k2, y'⟩ := q
    obtain ⟨e, hr⟩ := hp
    simp only at e hr
    subst e
    rw [Dict.get?_cons] at hy ⊢
    by_cases e : k1 = k
    · subst e
      simp at hy ⊢
      subst hy
      exact hr
    · simp only [e, if_false] at hy ⊢
      exact ih hy

theorem nat_lt_succ_iff {a b : Nat} (h : a ≠ b) : a < b ↔ a < b + 1 := by omega

namespace State
variable {C : Cat}
open View

theorem incViews_ok (hL : C.Lawful) {X : C.Tbl} {r : Row} (ks : Dict Nat Tab) (z : Nat → Tab)
    {vs : Dict Nat (View C)}
    (h : ∀ p ∈ vs, View.Inv X p.2 ∧ p.2.seat r = none ∧ ∀ q ∈ p.2.dims, Accepts X q.2 r) :
    ∃ vs', incViews X r ks z vs = .ok vs' ∧
      Dict.Rel (fun i (v v' : View C) => View.Inv X v' ∧
        v'.seat = upd v.seat r (some ((ks.get? i).getD (z i))) ∧ v'.crp.alpha = v.crp.alpha ∧
        Same v v') vs vs' := by
  induction vs with
  | nil => exact ⟨[], rfl, .nil⟩
  | cons p t ih =>
    obtain ⟨i, v⟩ := p
    obtain ⟨hi, hs, ha⟩ := h (i, v) (by simp)
    obtain ⟨v', h1, h2⟩ := incorporate_sampled_ok hL hi hs (ks.get? i) (z i) ha
      (fun q hq => mem_dims_map v hi.wf X r q hq)
    obtain ⟨t', h3, h4⟩ := ih fun q hq => h q (by simp [hq])
    refine ⟨(i, v') :: t', ?_, .cons ⟨rfl, h2⟩ h4⟩
    simp only [incViews, h1, h3]

theorem uncViews_ok (hL : C.Lawful) {X : C.Tbl} {r : Row} {vs : Dict Nat (View C)}
    (h : ∀ p ∈ vs, View.Inv X p.2 ∧ p.2.seat r ≠ none) :
    ∃ vs', uncViews r vs = .ok vs' ∧
      Dict.Rel (fun _ (v v' : View C) => View.Inv X v' ∧
        v'.seat = upd v.seat r none ∧ v'.crp.alpha = v.crp.alpha ∧ Same v v') vs vs' := by
  induction vs with
  | nil => exact ⟨[], rfl, .nil⟩
  | cons p t ih =>
    obtain ⟨i, v⟩ := p
    obtain ⟨hi, hs⟩ := h (i, v) (by simp)
    obtain ⟨v', h1, h2, h3, h4, -, h5⟩ := View.unincorporate_ok hL hi hs
    obtain ⟨t', h6, h7⟩ := ih fun q hq => h q (by simp [hq])
    refine ⟨(i, v') :: t', ?_, .cons ⟨rfl, h2, h3, h4, h5.same⟩ h7⟩
    simp only [uncViews, h1, h6]

/-- The data set with one more row. -/
def rowTbl (s : State C) (obs : Dict Col C.Cell) : C.Tbl :=
  fun c r => if r = s.nRows then (if c ∈ s.outputs then (obs.get? c).getD none else none)
    else s.tbl c r

theorem Inv.hZ {s : State C} (h : Inv s) {i : Nat} (c : Col) (hc : s.Zv c = some i) :
    c ∈ s.outputs := (h.cols c).mp (by simp [hc])

/-- A row is incorporated. -/
theorem Inv.incorporate_ok (hL : C.Lawful) {s : State C} (h : Inv s) {obs : Dict Col C.Cell}
    {ks : Dict Nat Tab} (z : Nat → Tab) (hks : ∀ v ∈ ks.keys, v ∈ s.views.keys)
    (hobs : ∀ c ∈ obs.keys, c ∈ s.outputs) (hval : ∀ p ∈ obs, p.2 ≠ none)
    (hacc : ∀ c d, s.dimFor c = .ok d → Accepts (s.rowTbl obs) d s.nRows) :
    ∃ s', s.incorporate s.nRows obs ks z = .ok s' ∧ Inv s' ∧ s'.nRows = s.nRows + 1 ∧
      s'.outputs = s.outputs ∧ s'.crp = s.crp ∧ s'.Cd = s.Cd ∧ s'.Ci = s.Ci ∧
      (∀ c ∈ s.outputs, s'.tbl c s.nRows = (obs.get? c).getD none) ∧
      (∀ c r, r < s.nRows → s'.tbl c r = s.tbl c r) ∧
      Dict.Rel (fun i (v v' : View C) =>
        v'.seat = upd v.seat s.nRows (some ((ks.get? i).getD (z i))) ∧
        v'.crp.alpha = v.crp.alpha ∧ Same v v') s.views s'.views := by
  obtain ⟨X', h1, h2, h3⟩ := pushRow_ok obs h.data.nodup (X := s.X)
    (fun c hc => by rw [h.data.keys]; exact hc)
  obtain ⟨hr, ht, hold⟩ := h.data.push h2 h3
  have hA : ∀ c ∈ s.outputs, ∀ r, r ≤ s.nRows → tblOf X' c r = s.rowTbl obs c r := by
    intro c hc r hle
    unfold rowTbl
    split
    · rename_i e; subst e; exact ht c hc
    · rename_i e; exact hold c r (lt_of_le_of_ne hle e)
  have hV : VInv (tblOf X') s.nRows s.Zv (· ∈ s.outputs) s.views := by
    refine h.views.mono fun i v _ hv => hv.congrX h.hZ fun c _ r hr => hold c r hr
  obtain ⟨vs', h4, h5⟩ := incViews_ok hL (X := tblOf X') (r := s.nRows) ks z (vs := s.views) (by
    rintro ⟨i, v⟩ hp
    have hg := Dict.get?_of_mem hV.wf hp
    have ho := hV.view i v hg
    refine ⟨ho.inv, ?_, ?_⟩
    · by_contra hne
      exact absurd ((ho.rows _).mp hne) (lt_irrefl _)
    · rintro ⟨c, d⟩ hq
      have hd := h.dimFor_of_view hg (Dict.get?_of_mem ho.inv.wf hq)
      have ha := hacc c d hd
      have hc := h.dimFor_mem hd
      have hix : d.index = c := (ho.inv.dim (c, d) hq).index
      unfold Accepts at ha ⊢
      rw [obsOf_congr (X := s.rowTbl obs) (X' := tblOf X')]
      · exact ha
      · rw [hix]; exact hA c hc _ le_rfl
      · intro j hj
        exact hA j (ho.ins (c, d) hq j hj) _ le_rfl)
  have hrun : s.incorporate s.nRows obs ks z = .ok { s with X := X', views := vs' } := by
    unfold incorporate
    have e1 : (ks.keys.all fun v => s.views.has v) = true := by
      rw [List.all_eq_true]; intro v hv; exact (Dict.has_iff _ _).mpr (hks v hv)
    have e2 : (obs.keys.all fun c => s.outputs.contains c) = true := by
      rw [List.all_eq_true]; intro v hv; simpa using hobs v hv
    have e3 : (obs.any fun p => p.2.isNone) = false := by
      rw [List.any_eq_false]; intro p hp hn
      exact hval p hp (by simpa using hn)
    simp only [ne_eq, not_true_eq_false, if_false, e1, e2, e3, Bool.not_true, Bool.or_self, h1, h4,
      Bool.false_eq_true]
  have hI : Inv { s with X := X', views := vs' } := by
    refine Inv.of (n := s.nRows + 1) hr (Nat.succ_pos _) h.crp h.alpha h.cols ⟨?_, ?_⟩ ?_
    · have := h.views.wf
      unfold Dict.WF at this ⊢
      rw [h5.keys]; exact this
    · intro i v' hv'
      obtain ⟨v, hv, hi, hs, -, hS⟩ := h5.get? hv'
      have ho := hV.view i v hv
      refine ho.same hS hi fun r => ?_
      rw [hs]
      by_cases e : r = s.nRows
      · subst e; simp
      · rw [upd_ne _ _ e, ho.rows r]
        exact nat_lt_succ_iff e
    · intro v
      show v ∈ vs'.keys ↔ _
      rw [h5.keys]; exact h.occ v
  refine ⟨_, hrun, hI, hr.nRows, rfl, rfl, rfl, rfl, ht, hold, ?_⟩
  exact h5.imp fun p q hpq => ⟨hpq.1, hpq.2.2⟩

/-- The last row is unincorporated. -/
theorem Inv.unincorporate_ok (hL : C.Lawful) {s : State C} (h : Inv s) {n : Nat}
    (hn : s.nRows = n + 1) (hpos : 0 < n) :
    ∃ s', s.unincorporate n = .ok s' ∧ Inv s' ∧ s'.nRows = n ∧ s'.outputs = s.outputs ∧
      s'.crp = s.crp ∧ s'.Cd = s.Cd ∧ s'.Ci = s.Ci ∧
      (∀ c r, r < n → s'.tbl c r = s.tbl c r) ∧
      Dict.Rel (fun _ (v v' : View C) => v'.seat = upd v.seat n none ∧
        v'.crp.alpha = v.crp.alpha ∧ Same v v') s.views s'.views := by
  have hD := h.data
  rw [hn] at hD
  obtain ⟨X', h1, h2, h3⟩ := popRow_ok (n := n) hD.nodup (X := s.X) (fun c hc => by
    obtain ⟨l, hl⟩ := (hD.mem c).mp hc
    exact ⟨l, hl, hD.len c l hl⟩)
  obtain ⟨hr, hold⟩ := hD.pop h2 h3
  obtain ⟨vs', h4, h5⟩ := uncViews_ok hL (X := s.tbl) (r := n) (vs := s.views) (by
    rintro ⟨i, v⟩ hp
    have ho := h.views.view i v (Dict.get?_of_mem h.views.wf hp)
    exact ⟨ho.inv, (ho.rows n).mpr (by rw [hn]; exact Nat.lt_succ_self n)⟩)
  have hrun : s.unincorporate n = .ok { s with X := X', views := vs' } := by
    unfold unincorporate
    rw [if_neg (fun e => e hn.symm), if_neg (by omega)]
    simp only [h1, h4]
  have hI : Inv { s with X := X', views := vs' } := by
    refine Inv.of (n := n) hr hpos h.crp h.alpha h.cols ⟨?_, ?_⟩ ?_
    · have := h.views.wf
      unfold Dict.WF at this ⊢
      rw [h5.keys]; exact this
    · intro i v' hv'
      obtain ⟨v, hv, hi, hs, -, hS⟩ := h5.get? hv'
      have ho := h.views.view i v hv
      refine (ho.same (n' := n) hS hi fun r => ?_).congrX h.hZ fun c _ r hr => hold c r hr
      rw [hs]
      by_cases e : r = n
      · subst e; simp
      · rw [upd_ne _ _ e, ho.rows r]
        rw [hn]; exact (nat_lt_succ_iff e).symm
    · intro v
      show v ∈ vs'.keys ↔ _
      rw [h5.keys]; exact h.occ v
  refine ⟨_, hrun, hI, hr.nRows, rfl, rfl, rfl, rfl, hold, ?_⟩
  exact h5.imp fun p q hpq => ⟨hpq.1, hpq.2.2⟩

end State
end Cgpm
