import Verif.Model.Import
import Verif.Lemmas.StateMove
import Verif.Lemmas.Metadata

/-! Installing a partition that an external engine returned. -/
namespace Cgpm
namespace State
variable {C : Cat}
open View

theorem VOk.without {X : C.Tbl} {n : Nat} {Z : Col → Option Nat} {cols : Col → Prop} {i : Nat}
    {v : View C} (h : VOk X n Z cols i v) {col : Col} (hne : Z col ≠ some i) :
    VOk X n (upd Z col none) cols i v where
  inv := h.inv
  rows := h.rows
  dims := fun c => by
    rw [h.dims]
    by_cases e : c = col
    · subst e; simp [hne]
    · simp [e, upd_ne]
  ins := h.ins

/-- The column is taken out of its view. -/
theorem VInv.takeOut {X : C.Tbl} {n : Nat} {Z : Col → Option Nat} {cols : Col → Prop}
    {vs : Dict Nat (View C)} (h : VInv X n Z cols vs) {col : Col} {a : Nat} {va : View C}
    (hz : Z col = some a) (ha : vs.get? a = some va) :
    VInv X n (upd Z col none) cols (vs.set a (drop col va)) where
  wf := Dict.wf_set h.wf _ _
  view := fun j w hw => by
    rw [Dict.get?_set] at hw
    split at hw
    · rename_i e; subst e; cases hw
      exact (h.view j va ha).drop col
    · rename_i e
      exact (h.view j w hw).without (by rw [hz]; exact fun e' => e (Option.some.inj e').symm)

theorem appendViews_ok {n offset : Nat} {Z : Col → Option Nat} {cols : Col → Prop}
    (rows : List (ℝ × List Tab)) (k : Nat) {s : State C} (h : VInv s.tbl n Z cols s.views)
    (hfresh : ∀ i, k + offset ≤ i → i ∉ s.views.keys) (hZ : ∀ c i, Z c = some i → i < k + offset)
    (hrows : ∀ p ∈ rows, 0 < p.1 ∧ p.2.length = n) :
    ∃ W, appendViews offset k rows s = .ok { s with views := s.views ++ W } ∧
      VInv s.tbl n Z cols (s.views ++ W) ∧
      W.keys = List.range' (k + offset) rows.length ∧
      ∀ (j : Nat) p, rows[j]? = some p → ∃ v, Dict.get? W (k + offset + j) = some v ∧
        newView p.1 p.2 = .ok v ∧ v.crp.alpha = p.1 ∧ ∀ r, v.seat r = p.2[r]? := by
  induction rows generalizing k s with
  | nil =>
    refine ⟨[], by simp [appendViews], by simpa using h, rfl, fun j p hp => by simp at hp⟩
  | cons p rows ih =>
    obtain ⟨alpha, zs⟩ := p
    obtain ⟨ha, hl⟩ := hrows _ (List.mem_cons_self ..)
    obtain ⟨v, h1, h2, h3, h4, h5⟩ := newView_ok (C := C) ha zs s.tbl
    have hno := hfresh (k + offset) (le_refl _)
    have hhas : s.views.has (k + offset) = false := by
      rw [Bool.eq_false_iff]; exact fun e => hno ((Dict.has_iff _ _).mp e)
    have hset := Dict.set_of_not_mem v ((Dict.get?_eq_none_iff _ _).mpr hno)
    have hv : VOk s.tbl n Z cols (k + offset) v := by
      refine ⟨h2, fun r => ?_, fun c => ?_, fun q hq => by rw [h3] at hq; cases hq⟩
      · rw [h5, ne_eq, List.getElem?_eq_none_iff, not_le, ← hl]
      · rw [h3]
        simp only [Dict.keys, List.map_nil, List.not_mem_nil, false_iff]
        exact fun hc => lt_irrefl _ (hZ c _ hc)
    obtain ⟨W, g1, g2, g3, g5⟩ := ih (k + 1) (s := { s with views := s.views.set (k + offset) v })
      (h.set hv)
      (fun i hi => by
        show i ∉ (s.views.set (k + offset) v).keys
        rw [Dict.mem_keys_set]
        rintro (rfl | hm)
        · omega
        · exact hfresh i (by omega) hm)
      (fun c i hc => by have := hZ c i hc; omega) (fun p hp => hrows p (by simp [hp]))
    have hs : s.views.set (k + offset) v ++ W = s.views ++ ((k + offset, v) :: W) := by
      rw [hset]; simp
    simp only [hs] at g1 g2
    refine ⟨(k + offset, v) :: W, ?_, g2, ?_, fun j p hp => ?_⟩
    · simp only [appendViews, hhas, Bool.false_eq_true, if_false, h1]
      exact g1
    · rw [List.length_cons, List.range'_succ]
      show _ :: W.keys = _
      rw [g3]
      simp [Nat.add_right_comm]
    · cases j with
      | zero =>
        cases hp
        exact ⟨v, by simp [Dict.get?], h1, h4, h5⟩
      | succ j =>
        obtain ⟨w, e1, e2⟩ := g5 j p (by simpa using hp)
        refine ⟨w, ?_, e2⟩
        rw [Dict.get?, if_neg (by omega), ← e1]
        congr 1; omega

/-- A State `s0` whose columns are being moved to new views `lo, lo+1, …` with the row partitions and
concentrations `rows`. -/
structure Importing (s0 : State C) (lo : Nat) (rows : List (ℝ × List Tab)) (s : State C) : Prop where
  X : s.X = s0.X
  outputs : s.outputs = s0.outputs
  Cd : s.Cd = s0.Cd
  Ci : s.Ci = s0.Ci
  alpha : s.crp.alpha = s0.crp.alpha
  crp : Crp.Inv s.crp
  cols : ∀ c, s.Zv c ≠ none ↔ c ∈ s0.outputs
  views : VInv s0.tbl s0.nRows s.Zv (· ∈ s0.outputs) s.views
  keys : ∀ i, i ∈ s.views.keys ↔ (∃ c, s.Zv c = some i) ∨ (lo ≤ i ∧ i < lo + rows.length)
  new : ∀ (j : Nat) p, rows[j]? = some p → ∃ v, s.views.get? (lo + j) = some v ∧ v.crp.alpha = p.1 ∧
    ∀ r, v.seat r = p.2[r]?
  frames : ∀ c d0, s0.dimFor c = .ok d0 → ∃ d, s.dimFor c = .ok d ∧ Dim.Frame d0 d

/-- What moving a column does to the State. -/
structure Carried (X : C.Tbl) (c : Col) (d : Dim C) (a b : Nat) (s s' : State C) : Prop where
  crp : ∃ c1, s.crp.unincorporate c = .ok c1 ∧ c1.incorporate c b = .ok s'.crp
  views : ∃ va vb vb', s.views.get? a = some va ∧ s.views.get? b = some vb ∧
    vb.incorporateDim X d true = .ok vb' ∧
    (s'.views = ((s.views.set a (drop c va)).set b vb').erase a ∨
      s'.views = (s.views.set a (drop c va)).set b vb')

/-- One column is moved. -/
theorem Importing.step {s0 s : State C} {lo : Nat} {rows : List (ℝ × List Tab)}
    (h : Importing s0 lo rows s) {c : Col} {a b : Nat} (ha : s.Zv c = some a) (hlo : a < lo)
    (hb : lo ≤ b) (hb' : b < lo + rows.length) {d : Dim C} (hd : s.dimFor c = .ok d) :
    ∃ s', s.migrateDimAs true a b d = .ok s' ∧ Importing s0 lo rows s' ∧
      s'.Zv = upd s.Zv c (some b) ∧ Carried s0.tbl c d a b s s' := by
  have hne : a ≠ b := by omega
  obtain ⟨a', va, hz, hva, hdv⟩ := dimFor_ok hd
  rw [ha] at hz; cases hz
  have hova := h.views.view a va hva
  have hdo : DimOk s0.tbl va.seat c d := hova.inv.dim (c, d) (Dict.mem_of_get? hdv)
  obtain ⟨vb, hvb⟩ := Dict.exists_of_mem_keys ((h.keys b).mpr (.inr ⟨hb, hb'⟩))
  have hovb := h.views.view b vb hvb
  have hacc : ∀ r, vb.seat r ≠ none → Accepts s0.tbl d r := fun r hr => by
    obtain ⟨k, hk⟩ := Option.ne_none_iff_exists'.mp ((hova.rows r).mpr ((hovb.rows r).mp hr))
    exact hdo.acc r k hk
  have htbl : s.tbl = s0.tbl := by unfold tbl; rw [h.X]
  obtain ⟨d', h1, h2, h3⟩ : ∃ d', vb.incorporateDim s0.tbl d true =
      .ok { vb with dims := vb.dims.set c d' } ∧ Dim.Frame d d' ∧ DimOk s0.tbl vb.seat c d' := by
    rcases incorporateDim_spec hovb.inv d hdo.hyp with ⟨d', h1, h2, h3, -⟩ | ⟨e, r, -, hr, hn⟩
    · rw [hdo.index] at h1 h3
      exact ⟨d', h1, h2, h3⟩
    · exact absurd (hacc r hr) hn
  obtain ⟨na, hna⟩ := Dict.exists_of_mem_keys ((Crp.occupied_iff h.crp a).mpr ⟨c, ha⟩)
  have hone := count_one_iff h.crp ha hna
  obtain ⟨c1, g1, g2, g3, g4⟩ := Crp.unc_data h.crp ha
  obtain ⟨c2, e1, e2, e3, e4⟩ := Crp.inc_data g2 (r := c) b (by rw [g4, if_pos rfl])
  have hZ2 : (fun x => c2.data.get? x) = upd s.Zv c (some b) := by
    funext x
    rw [e4, g4]
    unfold upd Zv
    split <;> simp_all
  have hcnt : na = 1 → c2.counts.has a = false := by
    intro h1'
    cases hh : c2.counts.has a with
    | false => rfl
    | true =>
      obtain ⟨x, hx⟩ := (Crp.occupied_iff e2 a).mp ((Dict.has_iff _ _).mp hh)
      rw [e4] at hx
      split at hx
      · exact absurd (Option.some.inj hx).symm hne
      · rename_i hcne
        rw [g4, if_neg hcne] at hx
        exact absurd (hone.mp h1' x hx) hcne
  obtain ⟨vs, hvs⟩ : ∃ vs, vs = (s.views.set a (drop c va)).set b
      { vb with dims := vb.dims.set c d' } := ⟨_, rfl⟩
  have hmig : s.migrateDimAs true a b d =
      .ok { s with crp := c2, views := if na = 1 then vs.erase a else vs } := by
    have hhas : va.dims.has c = true := (Dict.has_iff _ _).mpr (Dict.mem_keys_of_get? hdv)
    have hvb' : (s.views.set a (drop c va)).get? b = some vb := by
      rw [Dict.get?_set, if_neg hne.symm]; exact hvb
    unfold migrateDimAs
    have hdrop : ({ va with dims := va.dims.erase c } : View C) = drop c va := rfl
    simp only [hna, hva, hdo.index, hhas, if_true, hdrop, hvb', htbl, h1, g1, e1, ← hvs]
    by_cases h1' : na = 1
    · rw [if_pos h1', hcnt h1', if_pos h1']
      simp
    · rw [if_neg h1', if_neg h1']
  have hins : ∀ j ∈ d'.inputs, j ∈ s0.outputs := by
    intro j hj
    rw [h2.inputs] at hj
    exact hova.ins (c, d) (Dict.mem_of_get? hdv) j hj
  have hout := h.views.takeOut ha hva
  have hplace := hout.place (b := b) (vb := vb)
    (by rw [Dict.get?_set, if_neg hne.symm]; exact hvb) h3 hins
  rw [← hvs] at hplace
  have hget : ∀ i, vs.get? i = if i = b then some { vb with dims := vb.dims.set c d' }
      else if i = a then some (drop c va) else s.views.get? i := by
    intro i
    rw [hvs, Dict.get?_set, Dict.get?_set]
  have hget' : ∀ i, i ≠ a → (if na = 1 then vs.erase a else vs).get? i = vs.get? i := by
    intro i hi
    split
    · rw [Dict.get?_erase, if_neg hi]
    · rfl
  have hV : VInv s0.tbl s0.nRows (upd s.Zv c (some b)) (· ∈ s0.outputs)
      (if na = 1 then vs.erase a else vs) := by
    split
    · exact hplace.erase a
    · exact hplace
  have hZ' : State.Zv ({ s with crp := c2, views := if na = 1 then vs.erase a else vs } : State C) =
      upd s.Zv c (some b) := hZ2
  have hex : ∀ i, (∃ x, upd s.Zv c (some b) x = some i) ↔ i = b ∨ ∃ x, x ≠ c ∧ s.Zv x = some i := by
    intro i
    constructor
    · rintro ⟨x, hx⟩
      by_cases e : x = c
      · subst e; simp at hx; exact Or.inl hx.symm
      · rw [upd_ne _ _ e] at hx; exact Or.inr ⟨x, e, hx⟩
    · rintro (rfl | ⟨x, hxne, hx⟩)
      · exact ⟨c, by simp⟩
      · exact ⟨x, by rw [upd_ne _ _ hxne]; exact hx⟩
  refine ⟨_, hmig, ⟨h.X, h.outputs, h.Cd, h.Ci, (e3.trans g3).trans h.alpha, e2, ?_, ?_, ?_, ?_, ?_⟩, hZ',
    ⟨⟨c1, g1, e1⟩, va, vb, _, hva, hvb, h1, ?_⟩⟩
  · intro x
    rw [hZ']
    by_cases e : x = c
    · subst e
      simp only [upd_self, ne_eq, reduceCtorEq, not_false_eq_true, true_iff]
      exact (h.cols x).mp (by rw [ha]; simp)
    · rw [upd_ne _ _ e]; exact h.cols x
  · rw [hZ']; exact hV
  · intro i
    rw [hZ', hex]
    have hm : i ∈ vs.keys ↔ i = b ∨ i ∈ s.views.keys := by
      rw [hvs, Dict.mem_keys_set, Dict.mem_keys_set]
      have := Dict.mem_keys_of_get? hva
      constructor
      · rintro (e | rfl | e)
        · exact .inl e
        · exact .inr this
        · exact .inr e
      · rintro (e | e)
        · exact .inl e
        · exact .inr (.inr e)
    show i ∈ (if na = 1 then vs.erase a else vs).keys ↔ _
    split
    · rename_i h1'
      rw [Dict.mem_keys_erase, hm, h.keys]
      constructor
      · rintro ⟨hi, rfl | ⟨x, hx⟩ | hi'⟩
        · exact .inl (.inl rfl)
        · refine .inl (.inr ⟨x, ?_, hx⟩)
          rintro rfl
          rw [ha] at hx; exact hi (Option.some.inj hx).symm
        · exact .inr hi'
      · rintro ((rfl | ⟨x, hxne, hx⟩) | hi')
        · exact ⟨hne.symm, .inl rfl⟩
        · refine ⟨?_, .inr (.inl ⟨x, hx⟩)⟩
          rintro rfl
          exact hxne (hone.mp h1' x hx)
        · exact ⟨by omega, .inr (.inr hi')⟩
    · rename_i h1'
      rw [hm, h.keys]
      constructor
      · rintro (rfl | ⟨x, hx⟩ | hi')
        · exact .inl (.inl rfl)
        · by_cases e : x = c
          · subst e
            rw [ha] at hx; cases hx
            rw [hone] at h1'
            push Not at h1'
            obtain ⟨y, hy1, hy2⟩ := h1'
            exact .inl (.inr ⟨y, hy2, hy1⟩)
          · exact .inl (.inr ⟨x, e, hx⟩)
        · exact .inr hi'
      · rintro ((rfl | ⟨x, hxne, hx⟩) | hi')
        · exact .inl rfl
        · exact .inr (.inl ⟨x, hx⟩)
        · exact .inr (.inr hi')
  · intro j p hp
    obtain ⟨v, k1, k2, k3⟩ := h.new j p hp
    show ∃ v, (if na = 1 then vs.erase a else vs).get? (lo + j) = some v ∧ _
    rw [hget' _ (by omega), hget]
    by_cases e : lo + j = b
    · rw [if_pos e]
      rw [e, hvb] at k1
      cases k1
      exact ⟨_, rfl, k2, k3⟩
    · rw [if_neg e, if_neg (by omega)]
      exact ⟨v, k1, k2, k3⟩
  · intro x d0 hx
    obtain ⟨dx, f1, f2⟩ := h.frames x d0 hx
    obtain ⟨i, v, hzx, hvx, hdx⟩ := dimFor_ok f1
    by_cases e : x = c
    · subst e
      rw [hd] at f1; cases f1
      refine ⟨d', ?_, f2.trans h2⟩
      have hz1 : upd s.Zv x (some b) x = some b := by simp
      have hv1 : (if na = 1 then vs.erase a else vs).get? b =
          some { vb with dims := vb.dims.set x d' } := by
        rw [hget' _ hne.symm, hget, if_pos rfl]
      simp only [dimFor, hZ', hz1, hv1, Dict.get?_set_self]
    · have hz1 : upd s.Zv c (some b) x = some i := by rw [upd_ne _ _ e]; exact hzx
      have hia : i = a → na ≠ 1 := by
        rintro rfl h1'
        exact e (hone.mp h1' x hzx)
      have hv1 : ∃ w, (if na = 1 then vs.erase a else vs).get? i = some w ∧
          w.dims.get? x = some dx := by
        by_cases hi : i = a
        · rw [if_neg (hia hi), hget, hi, if_neg hne, if_pos rfl]
          rw [hi, hva] at hvx
          cases hvx
          refine ⟨_, rfl, ?_⟩
          show (va.dims.erase c).get? x = _
          rw [Dict.get?_erase, if_neg e]; exact hdx
        · rw [hget' _ hi, hget]
          by_cases hib : i = b
          · rw [if_pos hib]
            rw [hib, hvb] at hvx
            cases hvx
            refine ⟨_, rfl, ?_⟩
            show (vb.dims.set c d').get? x = _
            rw [Dict.get?_set, if_neg e]; exact hdx
          · rw [if_neg hib, if_neg hi]
            exact ⟨v, hvx, hdx⟩
      obtain ⟨w, w1, w2⟩ := hv1
      exact ⟨dx, by simp only [dimFor, hZ', hz1, w1, w2], f2⟩
  · rw [← hvs]
    by_cases h1' : na = 1
    · exact .inl (if_pos h1')
    · exact .inr (if_neg h1')

theorem seatCols_append (Z : Dict Col Nat) (c : Col) (b : Nat) {crp crp' : Crp}
    (h : seatCols crp Z = .ok crp') : seatCols crp (Z ++ [(c, b)]) =
      match crp'.incorporate c b with
      | .err e _ => .error e
      | .ok crp'' => .ok crp'' := by
  induction Z generalizing crp with
  | nil =>
    cases h
    rfl
  | cons p Z ih =>
    obtain ⟨c', z⟩ := p
    simp only [seatCols, List.cons_append] at h ⊢
    cases hi : crp.incorporate c' z with
    | err e x => rw [hi] at h; cases h
    | ok x => rw [hi] at h; exact ih h

theorem addDims_append (X : C.Tbl) (schema : Col → ColSpec C) (cs : List Col) (c : Col)
    {v v' : View C} (h : addDims X schema cs v = .ok v') : addDims X schema (cs ++ [c]) v =
      v'.incorporateDim X (Dim.new c (schema c).inputs (schema c).kind (schema c).hyp) true := by
  induction cs generalizing v with
  | nil =>
    cases h
    simp only [List.nil_append, addDims]
    split <;> simp_all
  | cons c' cs ih =>
    simp only [addDims, List.cons_append] at h ⊢
    cases hi : v.incorporateDim X
        (Dim.new c' (schema c').inputs (schema c').kind (schema c').hyp) true with
    | err e x => rw [hi] at h; cases h
    | ok x => rw [hi] at h; exact ih h

theorem incorporateDim_new (X : C.Tbl) (v : View C) (d : Dim C) :
    v.incorporateDim X (Dim.new d.index d.inputs d.kind d.hyp) true = v.incorporateDim X d true := by
  rfl

/-- The columns `done` have been moved, one after the other, in a State that is otherwise built as
the constructor builds it. -/
structure Exact (s0 : State C) (lo : Nat) (rows : List (ℝ × List Tab)) (schema : Col → ColSpec C)
    (done : Dict Col Nat) (s : State C) : Prop where
  crp : ∃ (D : Dict Col Nat) (K : Dict Nat Int) (crp : Crp),
    seatCols (Crp.init s0.crp.alpha) done = .ok crp ∧
    Crp.Inv crp ∧ crp.data = done ∧ s.crp.data = D ++ done ∧ s.crp.counts = K ++ crp.counts ∧
    (∀ i ∈ K.keys, i < lo) ∧ ∀ i ∈ crp.counts.keys, lo ≤ i
  views : ∃ V W : Dict Nat (View C), s.views = V ++ W ∧ (∀ i ∈ V.keys, i < lo) ∧
    W.keys = List.range' lo rows.length ∧ ∀ (j : Nat) p, rows[j]? = some p → ∃ v0 v,
      newView p.1 p.2 = .ok v0 ∧ W.get? (lo + j) = some v ∧
      addDims s0.tbl schema ((done.filter fun q => q.2 = lo + j).map Prod.fst) v0 = .ok v

theorem set_append_left {V : Type} {d : Dict Nat V} (e : Dict Nat V) {k : Nat} (v : V)
    (h : k ∈ d.keys) : Dict.set (d ++ e) k v = Dict.set d k v ++ e := by
  induction d with
  | nil => simp [Dict.keys] at h
  | cons p d ih =>
    obtain ⟨k', v'⟩ := p
    simp only [List.cons_append, Dict.set]
    split
    · rfl
    · rename_i hne
      rw [ih (by simp only [Dict.keys, List.map_cons, List.mem_cons] at h ⊢; tauto)]
      rfl

theorem set_append_right {V : Type} {d : Dict Nat V} (e : Dict Nat V) {k : Nat} (v : V)
    (h : k ∉ d.keys) : Dict.set (d ++ e) k v = d ++ Dict.set e k v := by
  induction d with
  | nil => rfl
  | cons p d ih =>
    obtain ⟨k', v'⟩ := p
    simp only [Dict.keys, List.map_cons, List.mem_cons, not_or] at h
    simp only [List.cons_append, Dict.set]
    rw [if_neg (Ne.symm h.1), ih h.2]

theorem dict_keys_set_mem {V : Type} {d : Dict Nat V} {k : Nat} (v : V) (h : k ∈ d.keys) :
    (Dict.set d k v).keys = d.keys := by
  rw [Dict.keys_set, if_pos h]

theorem Exact.step {s0 s s' : State C} {lo : Nat} {rows : List (ℝ × List Tab)}
    {schema : Col → ColSpec C} {done : Dict Col Nat} (h : Exact s0 lo rows schema done s)
    {c : Col} {d : Dim C} {a b : Nat} (hm : Carried s0.tbl c d a b s s') (hI : Crp.Inv s.crp)
    (ha : s.crp.data.get? c = some a) (halo : a < lo) (hb : lo ≤ b) (hb' : b < lo + rows.length)
    (hnew : Dict.get? done c = none)
    (hd : d.index = c ∧ schema c = View.specOf d) :
    Exact s0 lo rows schema (done ++ [(c, b)]) s' := by
  obtain ⟨⟨D, K, crp, k1, k2, k3, k4, k5, k6, k7⟩, V, W, v1, v2, v3, v4⟩ := h
  obtain ⟨⟨c1, g1, g2⟩, va, vb, vb', w1, w2, w3, w4⟩ := hm
  refine ⟨?_, ?_⟩
  · have hIc : Crp.Inv c1 := by
      have := Crp.inv_unincorporate hI c
      rwa [g1] at this
    have haK : a ∈ K.keys := by
      have : a ∈ s.crp.counts.keys := (Crp.occupied_iff hI a).mpr ⟨c, ha⟩
      rw [k5] at this
      simp only [Dict.keys, List.map_append, List.mem_append] at this
      rcases this with h | h
      · exact h
      · exact absurd (k7 a h) (by omega)
    have hac : Dict.get? crp.counts a = none := (Dict.get?_eq_none_iff _ _).mpr fun h => by
      have := k7 a h; omega
    obtain ⟨K', hK', hcn⟩ : ∃ K' : Dict Nat Int, (∀ i ∈ K'.keys, i < lo) ∧
        c1.counts = K' ++ crp.counts := by
      have := Crp.unincorporate_ok hI ha
      rw [g1] at this
      cases this
      simp only
      by_cases h1 : nSeated s.crp.data a = 1
      · rw [if_pos h1, k5, Dict.erase_append, Dict.erase_of_not_mem hac]
        exact ⟨_, fun i hi => k6 i (by rw [Dict.mem_keys_erase] at hi; exact hi.2), rfl⟩
      · rw [if_neg h1, k5, set_append_left _ _ haK]
        exact ⟨_, fun i hi => k6 i (by rwa [dict_keys_set_mem _ haK] at hi), rfl⟩
    have hdata : c1.data = Dict.erase D c ++ done := by
      have := Crp.unincorporate_ok hI ha
      rw [g1] at this
      cases this
      show s.crp.data.erase c = _
      rw [k4, Dict.erase_append, Dict.erase_of_not_mem hnew]
    have hbK : b ∉ K'.keys := fun h => by have := hK' b h; omega
    have hcc : c1.data.get? c = none := by
      obtain ⟨x, h1, -, -, h4⟩ := Crp.unc_data hI ha
      rw [g1] at h1; cases h1
      rw [h4, if_pos rfl]
    have hns : nSeated c1.data b = nSeated done b := by
      have e1 := hIc.hCounts b
      have e2 := k2.hCounts b
      rw [hcn, Dict.get?_append, (Dict.get?_eq_none_iff _ _).mpr hbK] at e1
      simp only [Option.none_or] at e1
      rw [e2, k3] at e1
      unfold countOf at e1
      split at e1 <;> split at e1 <;> simp_all
    have hdn : crp.data.get? c = none := by rw [k3]; exact hnew
    have i1 := Crp.incorporate_ok k2 (x := b) hdn
    have i2 := Crp.incorporate_ok hIc (x := b) hcc
    rw [g2] at i2
    refine ⟨Dict.erase D c, K', _, by rw [seatCols_append _ _ _ k1, i1], ?_, by rw [k3], ?_, ?_, hK', ?_⟩
    · have := Crp.inv_incorporate k2 c b
      rwa [i1] at this
    · injection i2 with i2
      rw [i2]
      simp only [hdata, List.append_assoc]
    · injection i2 with i2
      rw [i2]
      simp only [hcn, set_append_right _ _ hbK, hns, k3]
    · intro i hi
      simp only at hi
      rw [Dict.mem_keys_set] at hi
      rcases hi with rfl | hi
      · exact hb
      · exact k7 i hi
  · have hvaV : a ∈ V.keys := by
      have := Dict.mem_keys_of_get? w1
      rw [v1] at this
      simp only [Dict.keys, List.map_append, List.mem_append] at this
      rcases this with h | h
      · exact h
      · rw [show List.map Prod.fst W = W.keys from rfl, v3, List.mem_range'_1] at h; omega
    have hbW : b ∈ W.keys := by rw [v3, List.mem_range'_1]; omega
    have haW : a ∉ W.keys := by rw [v3, List.mem_range'_1]; omega
    have hbV : b ∉ V.keys := fun h => by have := v2 b h; omega
    have hset : (s.views.set a (drop c va)).set b vb' =
        Dict.set V a (drop c va) ++ Dict.set W b vb' := by
      rw [v1, set_append_left _ _ hvaV, set_append_right]
      rw [dict_keys_set_mem _ hvaV]; exact hbV
    have hkW : (Dict.set W b vb').keys = W.keys := dict_keys_set_mem _ hbW
    obtain ⟨V', hV', hvs⟩ : ∃ V' : Dict Nat (View C), (∀ i ∈ V'.keys, i < lo) ∧
        s'.views = V' ++ Dict.set W b vb' := by
      rcases w4 with w4 | w4
      · refine ⟨Dict.erase (Dict.set V a (drop c va)) a, fun i hi => v2 i ?_, ?_⟩
        · rw [Dict.mem_keys_erase, dict_keys_set_mem _ hvaV] at hi
          exact hi.2
        · rw [w4, hset, Dict.erase_append]
          congr 1
          refine Dict.erase_of_not_mem ((Dict.get?_eq_none_iff _ _).mpr ?_)
          rw [hkW]; exact haW
      · exact ⟨Dict.set V a (drop c va), fun i hi => v2 i (by rwa [dict_keys_set_mem _ hvaV] at hi),
          by rw [w4, hset]⟩
    refine ⟨V', _, hvs, hV', hkW.trans v3, fun j p hp => ?_⟩
    obtain ⟨v0, v, e1, e2, e3⟩ := v4 j p hp
    rw [List.filter_append, List.map_append]
    by_cases hj : b = lo + j
    · have hvb : v = vb := by
        rw [v1, Dict.get?_append, (Dict.get?_eq_none_iff _ _).mpr hbV] at w2
        simp only [Option.none_or] at w2
        rw [hj, e2] at w2
        exact Option.some.inj w2
      refine ⟨v0, vb', e1, by rw [← hj]; exact Dict.get?_set_self _ _ _, ?_⟩
      simp only [List.filter_cons, hj, decide_true, if_true, List.filter_nil, List.map_cons, List.map_nil]
      rw [addDims_append _ _ _ _ e3, hvb, hd.2]
      rw [← w3, ← incorporateDim_new _ _ d, hd.1]
      rfl
    · refine ⟨v0, v, e1, by rw [Dict.get?_set, if_neg (Ne.symm hj)]; exact e2, ?_⟩
      simp only [List.filter_cons, hj, decide_false, Bool.false_eq_true, if_false, List.filter_nil,
        List.map_nil, List.append_nil]
      exact e3

theorem Importing.start {s : State C} (h : Inv s) {rows : List (ℝ × List Tab)}
    (hrows : ∀ p ∈ rows, 0 < p.1 ∧ p.2.length = s.nRows) (schema : Col → ColSpec C) :
    ∃ s1, appendViews (pyMax s.views.keys + 1) 0 rows s = .ok s1 ∧
      Importing s (pyMax s.views.keys + 1) rows s1 ∧ s1.Zv = s.Zv ∧
      Exact s (pyMax s.views.keys + 1) rows schema [] s1 := by
  have hlt : ∀ i, i ∈ s.views.keys → i < 0 + (pyMax s.views.keys + 1) := fun i hi => by
    have := Props.le_pyMax hi; omega
  have hZ : ∀ c i, s.Zv c = some i → i < 0 + (pyMax s.views.keys + 1) := fun c i hc =>
    hlt i ((h.occ i).mpr ⟨c, hc⟩)
  obtain ⟨W, h1, h2, h3, h5⟩ := appendViews_ok rows 0 h.views
    (fun i hi hm => by have := hlt i hm; omega) hZ hrows
  have hold : ∀ i, i < pyMax s.views.keys + 1 → Dict.get? (s.views ++ W) i = s.views.get? i := by
    intro i hi
    rw [Dict.get?_append]
    have : Dict.get? W i = none := (Dict.get?_eq_none_iff _ _).mpr (by
      rw [h3, List.mem_range'_1]; omega)
    rw [this, Option.or_none]
  have hnew : ∀ i, pyMax s.views.keys + 1 ≤ i → Dict.get? (s.views ++ W) i = Dict.get? W i := by
    intro i hi
    rw [Dict.get?_append]
    have : Dict.get? s.views i = none := (Dict.get?_eq_none_iff _ _).mpr (fun hm => by
      have := hlt i hm; omega)
    rw [this, Option.none_or]
  refine ⟨_, h1, ⟨rfl, rfl, rfl, rfl, rfl, h.crp, h.cols, h2, ?_, ?_, ?_⟩, rfl, ?_, ?_⟩
  · intro i
    have : i ∈ Dict.keys (s.views ++ W) ↔ i ∈ s.views.keys ∨ i ∈ W.keys := by
      simp [Dict.keys, List.mem_append]
    show i ∈ Dict.keys (s.views ++ W) ↔ _
    rw [this, h.occ, h3, List.mem_range'_1, Nat.zero_add]
    rfl
  · intro j p hp
    obtain ⟨v, e1, -, e2⟩ := h5 j p hp
    refine ⟨v, ?_, e2⟩
    show Dict.get? (s.views ++ W) _ = _
    rw [hnew _ (by omega), ← e1]
    congr 1; omega
  · intro c d0 hd
    obtain ⟨i, v, hz, hv, hd'⟩ := dimFor_ok hd
    refine ⟨d0, ?_, Dim.Frame.refl _⟩
    have hz' : State.Zv ({ s with views := s.views ++ W } : State C) c = some i := hz
    have hv' : Dict.get? (s.views ++ W) i = some v := by
      rw [hold i (by have := hZ c i hz; omega)]; exact hv
    simp only [dimFor, hz', hv', hd']
  · refine ⟨s.crp.data, s.crp.counts, Crp.init s.crp.alpha, rfl, Crp.inv_init _, rfl, by simp,
      by simp [Crp.init], fun i hi => ?_, fun i hi => by simp [Crp.init, Dict.keys] at hi⟩
    obtain ⟨c, hc⟩ := (Crp.occupied_iff h.crp i).mp hi
    have := hZ c i hc; omega
  · refine ⟨s.views, W, rfl, fun i hi => by have := hlt i hi; omega, by rw [h3, Nat.zero_add],
      fun j p hp => ?_⟩
    obtain ⟨v, e1, e2, -⟩ := h5 j p hp
    exact ⟨v, v, e2, by rw [← e1]; congr 1; omega, rfl⟩

/-- All columns are moved. -/
theorem Importing.all {s0 : State C} {lo : Nat} {rows : List (ℝ × List Tab)}
    {reassign : Dim C → Bool} {target : Col → Option Nat} {schema : Col → ColSpec C}
    (hre : ∀ c d0 d, s0.dimFor c = .ok d0 → Dim.Frame d0 d → reassign d = true) (hI : Inv s0)
    (hsch : ∀ c d0, s0.dimFor c = .ok d0 → schema c = View.specOf d0)
    (cs : List Col) {s : State C} (h : Importing s0 lo rows s) (hnd : cs.Nodup)
    {done : Dict Col Nat} (hE : Exact s0 lo rows schema done s)
    (hcs : ∀ c ∈ cs, c ∈ s0.outputs ∧ Dict.get? done c = none ∧ (∃ a, s.Zv c = some a ∧ a < lo) ∧
      ∃ b, target c = some b ∧ lo ≤ b ∧ b < lo + rows.length) :
    ∃ s', migrateAll reassign target cs s = .ok s' ∧ Importing s0 lo rows s' ∧
      (∀ c, s'.Zv c = if c ∈ cs then target c else s.Zv c) ∧
      Exact s0 lo rows schema (done ++ cs.map fun c => (c, (target c).getD 0)) s' := by
  induction cs generalizing s done with
  | nil => exact ⟨s, rfl, h, by simp, by simpa using hE⟩
  | cons c cs ih =>
    obtain ⟨h0, hdn, ⟨a, ha, hlo⟩, b, hb, hb1, hb2⟩ := hcs c (by simp)
    obtain ⟨-, -, d0, -, -, -, hd0, -⟩ := hI.dim h0
    obtain ⟨d, hd, hf⟩ := h.frames c d0 hd0
    obtain ⟨s1, g1, g2, g3, g4⟩ := h.step ha hlo hb1 hb2 hd
    have hnd' := List.nodup_cons.mp hnd
    have hix : d.index = c ∧ schema c = View.specOf d := by
      obtain ⟨i, v, hz, hv, hdv⟩ := dimFor_ok hd
      have := (h.views.view i v hv).inv.dim (c, d) (Dict.mem_of_get? hdv)
      refine ⟨this.index, ?_⟩
      rw [hsch c d0 hd0]
      unfold View.specOf
      rw [hf.inputs, hf.kind, hf.hyp]
    obtain ⟨s', k1, k2, k3, k4⟩ := ih g2 hnd'.2 (hE.step g4 h.crp ha hlo hb1 hb2 hdn hix) (fun x hx => by
      obtain ⟨x0, x1, ⟨a', ha', hlo'⟩, x2⟩ := hcs x (by simp [hx])
      have hxc : x ≠ c := by rintro rfl; exact hnd'.1 hx
      refine ⟨x0, ?_, ⟨a', ?_, hlo'⟩, x2⟩
      · rw [Dict.get?_append, x1, Option.none_or, Dict.get?, if_neg (Ne.symm hxc)]; rfl
      · rw [g3, upd_ne _ _ hxc]; exact ha')
    refine ⟨s', ?_, k2, fun x => ?_, ?_⟩
    · simp only [migrateAll, ha, hb, hd, hre c d0 d hd0 hf, g1, k1]
    · rw [k3, g3]
      by_cases e : x = c
      · subst e; simp [hnd'.1, hb]
      · simp [e, upd_ne]
    · rw [List.map_cons, hb]
      simpa using k4

theorem get?_map_self {β : Type} (f : Col → β) (l : List Col) (c : Col) :
    Dict.get? (l.map fun c => (c, f c)) c = if c ∈ l then some (f c) else none := by
  induction l with
  | nil => rfl
  | cons a l ih =>
    rw [List.map_cons, Dict.get?, ih]
    by_cases e : a = c
    · subst e; simp
    · simp [e, Ne.symm e]

theorem filter_map_self {β : Type} [DecidableEq β] (f : Col → β) (b : β) (l : List Col) :
    ((l.map fun c => (c, f c)).filter fun q => q.2 = b).map Prod.fst = l.filter fun c => f c = b := by
  induction l with
  | nil => rfl
  | cons a l ih =>
    rw [List.map_cons, List.filter_cons, List.filter_cons, ← ih]
    split <;> simp_all

theorem buildViews_of {X : C.Tbl} {schema : Col → ColSpec C} {outputs : List Col} {crp : Crp}
    {rows : Nat → ℝ × List Tab} (W : Dict Nat (View C)) (hw : W.WF)
    (h : ∀ i v, W.get? i = some v → ∃ v0, newView (rows i).1 (rows i).2 = .ok v0 ∧
      addDims X schema (outputs.filter fun o => crp.data.get? o = some i) v0 = .ok v) :
    buildViews X schema outputs crp rows W.keys = .ok W := by
  induction W with
  | nil => rfl
  | cons p W ih =>
    obtain ⟨i, v⟩ := p
    obtain ⟨hi, hw'⟩ := Dict.wf_cons.mp hw
    obtain ⟨v0, h1, h2⟩ := h i v (by simp [Dict.get?])
    show buildViews X schema outputs crp rows (i :: Dict.keys W) = _
    simp only [buildViews, h1, h2]
    rw [ih hw' fun j w hj => h j w ?_]
    rw [Dict.get?, if_neg]
    · exact hj
    · rintro rfl; rw [hi] at hj; cases hj

/-- A State `s` into which the row partitions and concentrations `rows` and the column partition
`target` have been imported. -/
structure Installed (s : State C) (rows : List (ℝ × List Tab)) (target : Col → Option Nat)
    (s' : State C) : Prop where
  inv : Inv s'
  X : s'.X = s.X
  outputs : s'.outputs = s.outputs
  Cd : s'.Cd = s.Cd
  Ci : s'.Ci = s.Ci
  alpha : s'.crp.alpha = s.crp.alpha
  Zv : ∀ c ∈ s.outputs, s'.Zv c = (target c).map (· + (pyMax s.views.keys + 1))
  keys : ∀ i, i ∈ s'.views.keys ↔
    pyMax s.views.keys + 1 ≤ i ∧ i < pyMax s.views.keys + 1 + rows.length
  new : ∀ (j : Nat) p, rows[j]? = some p → ∃ v, s'.views.get? (pyMax s.views.keys + 1 + j) = some v ∧
    v.crp.alpha = p.1 ∧ ∀ r, v.seat r = p.2[r]?
  frames : ∀ c d0, s.dimFor c = .ok d0 → ∃ d, s'.dimFor c = .ok d ∧ Dim.Frame d0 d
  built : ∃ schema Zv order rows, Props.LegalInit s.X s.nRows schema s.crp.alpha Zv order rows ∧
    init s.X schema s.crp.alpha Zv order rows s.Cd s.Ci = .ok s'

open Cgpm.Props in
theorem Inv.installPartition_ok {s : State C} (h : Inv s) {rows : List (ℝ × List Tab)}
    {reassign : Dim C → Bool} {target : Col → Option Nat}
    (hre : ∀ c d0 d, s.dimFor c = .ok d0 → Dim.Frame d0 d → reassign d = true)
    (hrows : ∀ p ∈ rows, 0 < p.1 ∧ p.2.length = s.nRows)
    (ht : ∀ c ∈ s.outputs, ∃ k, target c = some k ∧ k < rows.length)
    (hs : ∀ k, k < rows.length → ∃ c ∈ s.outputs, target c = some k) :
    ∃ s', installPartition reassign rows target s = .ok s' ∧ Installed s rows target s' := by
  obtain ⟨c0, t0, e0⟩ := List.exists_cons_of_ne_nil h.data.ne
  have hne : s.views ≠ [] := by
    intro e
    obtain ⟨v, view, -, -, hv, -⟩ := h.dim (c := c0) (by rw [e0]; simp)
    rw [e] at hv; simp at hv
  obtain ⟨-, -, dflt, -, -, -, -⟩ := h.dim (c := c0) (by rw [e0]; simp)
  set schema : Col → ColSpec C := fun c => match s.dimFor c with
    | .ok d => View.specOf d
    | .error _ => View.specOf dflt with hschd
  have hsch : ∀ c d0, s.dimFor c = .ok d0 → schema c = View.specOf d0 := by
    intro c d0 hd
    simp only [hschd, hd]
  obtain ⟨s1, h1, h2, h3, hE⟩ := Importing.start h hrows schema
  set lo := pyMax s.views.keys + 1 with hlo
  obtain ⟨s2, g1, g2, g3, hE2⟩ := h2.all (reassign := reassign)
    (target := fun c => (target c).map (· + lo)) hre h hsch s.outputs h.data.nodup hE (fun c hc => by
      obtain ⟨a, ha⟩ := Option.ne_none_iff_exists'.mp ((h.cols c).mpr hc)
      obtain ⟨k, hk, hkl⟩ := ht c hc
      refine ⟨hc, rfl, ⟨a, by rw [h3]; exact ha, ?_⟩, k + lo, by simp only [hk, Option.map_some], by omega, by omega⟩
      have := Props.le_pyMax ((h.occ a).mpr ⟨c, ha⟩)
      omega)
  have hZ : ∀ c ∈ s.outputs, s2.Zv c = (target c).map (· + lo) := fun c hc => by
    rw [g3, if_pos hc]
  have hmem : ∀ c i, s2.Zv c = some i → lo ≤ i ∧ i < lo + rows.length := by
    intro c i hi
    have hc : c ∈ s.outputs := (g2.cols c).mp (by rw [hi]; simp)
    obtain ⟨k, hk, hkl⟩ := ht c hc
    rw [hZ c hc, hk] at hi
    simp only [Option.map_some, Option.some.injEq] at hi
    omega
  have hocc : ∀ i, (∃ c, s2.Zv c = some i) ↔ lo ≤ i ∧ i < lo + rows.length := by
    intro i
    refine ⟨fun ⟨c, hc⟩ => hmem c i hc, fun hi => ?_⟩
    obtain ⟨c, hc, hk⟩ := hs (i - lo) (by omega)
    refine ⟨c, ?_⟩
    rw [hZ c hc, hk, Option.map_some]
    congr 1; omega
  have hkeys : ∀ i, i ∈ s2.views.keys ↔ lo ≤ i ∧ i < lo + rows.length := by
    intro i
    rw [g2.keys, hocc, or_self]
  have hlen : s2.views.length = rows.length := by
    have hp : s2.views.keys.Perm (List.range' lo rows.length) := by
      refine (List.perm_ext_iff_of_nodup g2.views.wf (List.nodup_range')).mpr fun i => ?_
      rw [hkeys, List.mem_range'_1]
    have := hp.length_eq
    simpa [Dict.keys] using this
  have htbl : s2.tbl = s.tbl := by unfold tbl; rw [g2.X]
  have hinv : Inv s2 := by
    refine Inv.of (n := s.nRows) ?_ h.pos g2.crp (by rw [g2.alpha]; exact h.alpha) ?_ ?_ ?_
    · rw [g2.X, g2.outputs]; exact h.data
    · rw [g2.outputs]; exact g2.cols
    · rw [htbl, g2.outputs]; exact g2.views
    · intro i; rw [hkeys, hocc]
  have hbuilt : ∃ schema Zv order rows, Props.LegalInit s.X s.nRows schema s.crp.alpha Zv order rows ∧
      init s.X schema s.crp.alpha Zv order rows s.Cd s.Ci = .ok s2 := by
    obtain ⟨⟨D, K, crp, k1, k2, k3, k4, k5, k6, k7⟩, V, W, v1, v2, v3, v4⟩ := hE2
    rw [List.nil_append] at k1 k3 k4 v4
    obtain ⟨f, hf⟩ : ∃ f : Col → Nat, f = fun c => ((target c).map (· + lo)).getD 0 := ⟨_, rfl⟩
    simp only [show ∀ c, ((target c).map (· + lo)).getD 0 = f c from fun c => by rw [hf]] at k1 k3 k4 v4
    set done : Dict Col Nat := s.outputs.map fun c => (c, f c) with hdone
    have hdk : done.keys = s.outputs := by
      rw [hdone]; simp [Dict.keys, Function.comp_def]
    have hdg : ∀ c, done.get? c = if c ∈ s.outputs then some (f c) else none := get?_map_self f _
    have hD : D = [] := by
      rcases D with _ | ⟨p, D⟩
      · rfl
      · exfalso
        have hwf := g2.crp.wfData
        have hp : s2.Zv p.1 = some p.2 := by
          unfold Zv; rw [k4]; simp [Dict.get?]
        have hpo : p.1 ∈ done.keys := by
          rw [hdk]; exact (g2.cols p.1).mp (by rw [hp]; simp)
        rw [k4] at hwf
        unfold Dict.WF Dict.keys at hwf
        rw [List.map_append, List.map_cons, List.cons_append, List.nodup_cons] at hwf
        exact hwf.1 (List.mem_append_right _ hpo)
    have hK : K = [] := by
      rcases K with _ | ⟨p, K⟩
      · rfl
      · exfalso
        have hp : p.1 ∈ s2.crp.counts.keys := by rw [k5]; simp [Dict.keys]
        obtain ⟨c, hc⟩ := (Crp.occupied_iff g2.crp p.1).mp hp
        have := hmem c p.1 hc
        have := k6 p.1 (by simp [Dict.keys])
        omega
    have hV : V = [] := by
      rcases V with _ | ⟨p, V⟩
      · rfl
      · exfalso
        have hp : p.1 ∈ s2.views.keys := by rw [v1]; simp [Dict.keys]
        have := (hkeys p.1).mp hp
        have := v2 p.1 (by simp [Dict.keys])
        omega
    rw [hD, List.nil_append] at k4
    rw [hK, List.nil_append] at k5
    rw [hV, List.nil_append] at v1
    have hwd : done.WF := by unfold Dict.WF; rw [hdk]; exact h.data.nodup
    have hcrp : s2.crp = crp := by
      obtain ⟨crp', m1, -, m3, -⟩ := seatCols_ok done (Crp.inv_init s.crp.alpha) hwd (fun _ _ => rfl)
      rw [k1] at m1; cases m1
      have e1 : s2.crp.alpha = crp.alpha := by rw [g2.alpha, m3]; rfl
      have e2 : s2.crp.N = crp.N := by rw [g2.crp.hN, k2.hN, k3, k4]
      have e3 : s2.crp.data = crp.data := by rw [k3, k4]
      cases hs2 : s2.crp
      cases hc : crp
      simp_all
    refine ⟨schema, done, W.keys, fun i => (rows[i - lo]?).getD (1, []), ?_, ?_⟩
    · have hdim : ∀ c ∈ s.X.keys, ∃ v view d, s.views.get? v = some view ∧
          view.dims.get? c = some d ∧ schema c = View.specOf d ∧ DimOk s.tbl view.seat c d ∧
          VOk s.tbl s.nRows s.Zv (· ∈ s.outputs) v view := by
        intro c hc
        rw [h.data.keys] at hc
        obtain ⟨v, view, d, -, q2, q3, q4, q5, q6⟩ := h.dim hc
        exact ⟨v, view, d, q2, q3, hsch c d q4, q6, q5⟩
      refine ⟨⟨h.data.wf, ?_⟩, h.data.len, h.pos, h.alpha, ⟨hwd, fun c => ?_⟩,
        ⟨by rw [v3]; exact List.nodup_range', fun v => ?_⟩, fun v hv => ?_, fun c hc => ?_,
        fun c hc i hi => ?_, fun c hc r hr => ?_⟩
      · intro e
        exact h.data.ne (by rw [← h.data.keys, e]; rfl)
      · rw [hdk, h.data.keys]
      · rw [← v1, hkeys, ← hocc]
        simp only [Zv, k4]
      · rw [v3, List.mem_range'_1] at hv
        have hlt : v - lo < rows.length := by omega
        rw [List.getElem?_eq_getElem hlt, Option.getD_some]
        exact hrows _ (List.getElem_mem hlt)
      · obtain ⟨v, view, d, -, -, q4, q5, -⟩ := hdim c hc
        rw [q4]; exact q5.hyp
      · obtain ⟨v, view, d, -, q3, q4, q5, q6⟩ := hdim c hc
        rw [q4] at hi
        rw [h.data.keys]
        exact q6.ins (c, d) (Dict.mem_of_get? q3) i hi
      · obtain ⟨v, view, d, -, q3, q4, q5, q6⟩ := hdim c hc
        rw [admissible_iff, q4]
        obtain ⟨k, hk⟩ := Option.ne_none_iff_exists'.mp ((q6.rows r).mpr hr)
        have hfr : Dim.Frame (Dim.new c d.inputs d.kind d.hyp) d := ⟨q5.index, rfl, rfl, rfl⟩
        exact (View.accepts_frame hfr r).mp (q5.acc r k hk)
    · have hb := buildViews_of (X := tblOf s.X) (schema := schema) (outputs := s.X.keys) (crp := crp)
        (rows := fun i => (rows[i - lo]?).getD (1, [])) W (by unfold Dict.WF; rw [v3]; exact List.nodup_range')
        (fun i v hi => by
          have hmi := Dict.mem_keys_of_get? hi
          rw [v3, List.mem_range'_1] at hmi
          have hlt : i - lo < rows.length := by omega
          obtain ⟨v0, w, w1, w2, w3⟩ := v4 (i - lo) _ (List.getElem?_eq_getElem hlt)
          rw [show lo + (i - lo) = i by omega] at w2 w3
          rw [hi] at w2
          cases w2
          refine ⟨v0, ?_, ?_⟩
          · simp only [List.getElem?_eq_getElem hlt, Option.getD_some]; exact w1
          · rw [← w3, hdone, filter_map_self f i, h.data.keys]
            congr 1
            refine List.filter_congr fun c hc => ?_
            rw [k3, hdg, if_pos hc]
            simp)
      unfold init
      rw [k1]
      simp only [hb]
      rw [if_neg]
      · congr 1
        have := g2.X; have := g2.outputs; have := g2.Cd; have := g2.Ci; have := h.data.keys
        cases hs2 : s2
        simp_all
      · have e1 : crp.data.length = s.outputs.length := by rw [k3, hdone, List.length_map]
        have e2 : s.X.length = s.outputs.length := by
          rw [← h.data.keys]; simp [Dict.keys]
        rw [e1, e2]; simp
  refine ⟨s2, ?_, hinv, g2.X, g2.outputs, g2.Cd, g2.Ci, g2.alpha, hZ, hkeys, g2.new, g2.frames, hbuilt⟩
  unfold installPartition
  rw [if_neg hne]
  simp only
  rw [← hlo, h1]
  simp only
  rw [h2.outputs, g1]
  simp only
  rw [if_pos hlen]

end State
end Cgpm
