import Verif.Lemmas.ViewAns

/-! The constraints used for a row of the view, and the direct computation. -/
namespace Cgpm.Props
open Cgpm Cgpm.View Cgpm.Net

variable {C : Cat} {Ω : Type}

/-! ### constraints -/

theorem hyp_of_new {X : C.Tbl} {v : View C} (hI : Inv X v) {rowid : Option Row}
    (h : ∀ r, rowid = some r → v.seat r = none ∧ {r | v.seat r ≠ none}.ncard ≤ r) :
    v.hypothetical rowid = true ∧ NewRow v rowid := by
  refine ⟨?_, fun r hr => (h r hr).1⟩
  cases rowid with
  | none => rfl
  | some r =>
    have := (h r rfl).2
    rw [rows_ncard hI] at this
    simp [hypothetical, this]

theorem any_has_false {T : List Nat} {E : Dict Nat (Val C)} (h : ∀ c ∈ T, c ∉ E.keys) :
    (T.any fun t => E.has t) = false := by
  rw [List.any_eq_false]
  intro t ht
  simp only [Bool.not_eq_true]
  exact (Dict.has_false_iff _ _).mpr ((Dict.get?_eq_none_iff _ _).mpr (h t ht))

theorem populate_new {close : C.V → C.V → Bool} {X : C.Tbl} {v : View C} {z : Nat}
    {rowid : Option Row} (hh : v.hypothetical rowid = true) {T : List Nat} {E : Dict Nat (Val C)}
    (hd : ∀ c ∈ T, c ∉ E.keys) : populateConstraints close X v z rowid T E = .ok E := by
  unfold populateConstraints validateQuery
  rw [any_has_false hd, hh]
  cases rowid <;> rfl

theorem populate_overlap {close : C.V → C.V → Bool} {X : C.Tbl} {v : View C} {z : Nat}
    {rowid : Option Row} {T : List Nat} {E : Dict Nat (Val C)} (c : Nat) (h1 : c ∈ T)
    (h2 : c ∈ E.keys) : populateConstraints close X v z rowid T E = .error .valueError := by
  have : (T.any fun t => E.has t) = true :=
    List.any_eq_true.mpr ⟨c, h1, (Dict.has_iff _ _).mpr h2⟩
  unfold populateConstraints validateQuery
  rw [this]; rfl

theorem hyp_of_old {X : C.Tbl} {v : View C} (hI : Inv X v) {r : Row}
    (h : r < {r | v.seat r ≠ none}.ncard) : v.hypothetical (some r) = false := by
  rw [rows_ncard hI] at h
  simp [hypothetical, h]

theorem populate_token {close : C.V → C.V → Bool} {X : C.Tbl} {v : View C} {z : Nat}
    {r : Row} (hh : v.hypothetical (some r) = false) {T : List Nat} {E : Dict Nat (Val C)}
    (h : z ∈ T ∨ z ∈ E.keys) :
    populateConstraints close X v z (some r) T E = .error .valueError := by
  have hz : (T.contains z || E.has z) = true := by
    rcases h with h | h
    · simp [h]
    · simp [(Dict.has_iff E z).mpr h]
  have : validateQuery close X v z (some r) T E = .error .valueError := by
    unfold validateQuery
    simp only [hh, hz, if_true, ite_self]
  unfold populateConstraints
  rw [this]

theorem good_iff {close : C.V → C.V → Bool} {X : C.Tbl} {v : View C} {r : Row}
    {E : Dict Col C.Cell} (hE : E.WF) :
    ((cellsOf E).any fun p => !goodConstraint close X v r p.1 p.2) = false ↔
      Agrees close X v r E := by
  rw [List.any_eq_false]
  have hgood : ∀ c x, goodConstraint close X v r c (.cell x) = true ↔
      (c ∈ v.dims.keys → ∀ y, X c r = some y → ∃ w, x = some w ∧ close y w) := by
    intro c x
    unfold goodConstraint
    by_cases hc : c ∈ v.dims.keys
    · rw [if_pos ((Dict.has_iff _ _).mpr hc)]
      cases hX : X c r with
      | none => simp
      | some y =>
        cases x with
        | none => simp [hc]
        | some w => simp [hc]
    · have : ¬ (v.dims.has c = true) := fun h => hc ((Dict.has_iff _ _).mp h)
      rw [if_neg this]
      simp [hc]
  constructor
  · intro h c x hx
    have hm := Dict.mem_of_get? hx
    have := h (c, .cell x) (List.mem_map.mpr ⟨(c, x), hm, rfl⟩)
    simp only [Bool.not_eq_true, Bool.not_eq_false'] at this
    exact (hgood c x).mp this
  · intro h p hp
    obtain ⟨⟨c, x⟩, hm, rfl⟩ := List.mem_map.mp hp
    simp only [Bool.not_eq_true, Bool.not_eq_false']
    exact (hgood c x).mpr (h c x (Dict.get?_of_mem hE hm))

theorem populate_disagree {close : C.V → C.V → Bool} {X : C.Tbl} {v : View C} {z : Nat}
    {r : Row} (hh : v.hypothetical (some r) = false) {T : List Nat}
    {E : Dict Col C.Cell} (hE : E.WF) (h : ¬ Agrees close X v r E) :
    populateConstraints close X v z (some r) T (cellsOf E) = .error .valueError := by
  have hany : ((cellsOf E).any fun p => !goodConstraint close X v r p.1 p.2) = true := by
    cases ha : ((cellsOf E).any fun p => !goodConstraint close X v r p.1 p.2) with
    | true => rfl
    | false => exact absurd ((good_iff hE).mp ha) h
  have : validateQuery close X v z (some r) T (cellsOf E) = .error .valueError := by
    unfold validateQuery
    simp only [hh, hany, if_true, ite_self]
  unfold populateConstraints
  rw [this]

theorem populate_old {close : C.V → C.V → Bool} {X : C.Tbl} {v : View C} (hI : Inv X v) {z : Nat}
    {r : Row} {T E : Dict Col C.Cell} (hz : z ∉ v.dims.keys) (hq : OldRowQuery v z r T E)
    (hd : ∀ c ∈ T.keys, c ∉ E.keys) (ha : Agrees close X v r E) :
    ∃ D k, populateConstraints close X v z (some r) (cellsOf T).keys (cellsOf E) = .ok D ∧
      v.seat r = some k ∧ Holds z k (known X v r T E) D := by
  classical
  have hh := hyp_of_old hI hq.row.2
  obtain ⟨k, hk⟩ := Option.ne_none_iff_exists'.mp hq.row.1
  have hz' : (T.keys.contains z || (cellsOf E).has z) = false := by
    have h1 : (cellsOf E).has z = false := (Dict.has_false_iff _ _).mpr (by
      rw [Dict.get?_eq_none_iff, cellsOf_keys]; exact hq.token.2)
    rw [h1, Bool.or_false, ← Bool.not_eq_true, List.contains_iff_mem]
    exact hq.token.1
  have hv : validateQuery close X v z (some r) (cellsOf T).keys (cellsOf E) = .ok () := by
    unfold validateQuery
    rw [cellsOf_keys, any_has_false (by rw [cellsOf_keys]; exact hd), hh]
    simp only [Bool.false_eq_true, if_false, hz', (good_iff hq.evidence).mpr ha]
  refine ⟨Dict.update (cellsOf E) ((v.dims.keys.filter fun c => !(cellsOf T).keys.contains c &&
      !(cellsOf E).has c && (X c r).isSome).map (fun c => (c, Val.cell (X c r))) ++
      [(z, Val.tab k)]), k, ?_, hk, ?_⟩
  · unfold populateConstraints
    simp only [hv, hh, hk]
  set f : Col → Bool := fun c => !(cellsOf T).keys.contains c && !(cellsOf E).has c && (X c r).isSome
    with hf
  set data : Dict Nat (Val C) := (v.dims.keys.filter f).map fun c => (c, Val.cell (X c r)) with hdata
  have hkeys : data.keys = v.dims.keys.filter f := by
    simp [hdata, Dict.keys, Function.comp_def]
  have hkz : (data ++ [(z, Val.tab k)] : Dict Nat (Val C)).keys = v.dims.keys.filter f ++ [z] := by
    rw [← hkeys]; simp [Dict.keys]
  have hwf : (data ++ [(z, Val.tab k)] : Dict Nat (Val C)).WF := by
    unfold Dict.WF
    rw [hkz]
    refine List.Nodup.append (hI.wf.filter _) (by simp) ?_
    simp only [List.disjoint_singleton]
    exact fun h => hz (List.mem_of_mem_filter h)
  have hfc : ∀ c, c ∈ v.dims.keys.filter f ↔
      (c ∈ v.dims.keys ∧ c ∉ T.keys ∧ c ∉ E.keys ∧ X c r ≠ none) := by
    intro c
    rw [List.mem_filter]
    have h1 : (cellsOf E).has c = false ↔ c ∉ E.keys := by
      rw [Dict.has_false_iff, Dict.get?_eq_none_iff, cellsOf_keys]
    simp only [hf, Bool.and_eq_true, Bool.not_eq_true', h1, cellsOf_keys, Option.isSome_iff_ne_none,
      and_assoc]
    rw [← Bool.not_eq_true (T.keys.contains c), List.contains_iff_mem]
  have hget : ∀ c, data.get? c =
      if c ∈ v.dims.keys.filter f then some (Val.cell (X c r)) else none := by
    intro c
    by_cases h : c ∈ v.dims.keys.filter f
    · rw [if_pos h]
      refine Dict.get?_of_mem ?_ (List.mem_map.mpr ⟨c, h, rfl⟩)
      unfold Dict.WF; rw [hkeys]; exact hI.wf.filter _
    · rw [if_neg h, Dict.get?_eq_none_iff, hkeys]; exact h
  refine ⟨Dict.wf_update (cellsOf_wf hq.evidence) _, ?_, fun c hc => ?_⟩
  · rw [Dict.get?_update _ _ hwf, Dict.get?_append, hget]
    have : z ∉ v.dims.keys.filter f := fun h => hz (List.mem_of_mem_filter h)
    simp [this, Dict.get?]
  · rw [Dict.get?_update _ _ hwf, Dict.get?_append, hget, cellsOf_get?]
    unfold known
    by_cases h : c ∈ v.dims.keys.filter f
    · rw [if_pos h, if_pos ((hfc c).mp h)]; rfl
    · rw [if_neg h, if_neg (fun h' => h ((hfc c).mpr h'))]
      simp [Dict.get?, Ne.symm hc]

/-! ### the direct computation -/

/-- The columns of `D` are columns of the view without inputs. -/
def Plain (v : View C) (D : Dict Col C.Cell) : Prop :=
  ∀ c ∈ D.keys, ∃ d, v.dims.get? c = some d ∧ d.inputs = []

theorem rowDensity_plain {X : C.Tbl} {v : View C} (hI : Inv X v) (k : Tab) {D : Dict Col C.Cell}
    (hw : D.WF) (hp : Plain v D) :
    rowDensity v k D.get? = (D.map fun p => match v.dims.get? p.1 with
      | none => 1
      | some d => cellDensity d k p.2 []).prod := by
  set F : Col → ENNReal := fun c => match D.get? c, v.dims.get? c with
    | some x, some d => cellDensity d k x []
    | _, _ => 1 with hF
  have h1 : rowDensity v k D.get? = (v.dims.keys.map F).prod := by
    unfold rowDensity Dict.keys
    rw [List.map_map]
    congr 1
    refine List.map_congr_left fun p hpm => ?_
    have hg := Dict.get?_of_mem hI.wf (k := p.1) (v := p.2) hpm
    simp only [Function.comp_apply, hF, hg]
    cases hx : D.get? p.1 with
    | none => rfl
    | some x =>
      obtain ⟨d, hd, hi⟩ := hp p.1 (Dict.mem_keys_of_get? hx)
      rw [hg] at hd; cases hd
      rw [hi]; rfl
  have h2 : (D.map fun p => match v.dims.get? p.1 with
      | none => 1
      | some d => cellDensity d k p.2 []).prod = (D.keys.map F).prod := by
    unfold Dict.keys
    rw [List.map_map]
    congr 1
    refine List.map_congr_left fun p hpm => ?_
    have hg := Dict.get?_of_mem hw (k := p.1) (v := p.2) hpm
    simp only [Function.comp_apply, hF, hg]
    cases v.dims.get? p.1 <;> rfl
  rw [h1, h2, ← List.prod_toFinset _ hI.wf, ← List.prod_toFinset _ hw]
  symm
  refine Finset.prod_subset ?_ ?_
  · intro c hc
    obtain ⟨d, hd, -⟩ := hp c (List.mem_toFinset.mp hc)
    exact List.mem_toFinset.mpr (Dict.mem_keys_of_get? hd)
  · intro c _ hc
    have : D.get? c = none := (Dict.get?_eq_none_iff _ _).mpr fun h => hc (List.mem_toFinset.mpr h)
    simp only [hF, this]

theorem logpdfRow_ok {X : C.Tbl} {v : View C} (hI : Inv X v) (k : Tab) {D : Dict Col C.Cell}
    (hw : D.WF) (hp : Plain v D) :
    ∃ w, v.logpdfRow D k = .ok w ∧ mass (Fl.ofLogP w) = rowDensity v k D.get? := by
  rw [rowDensity_plain hI k hw hp]
  unfold logpdfRow
  suffices H : ∀ (l : Dict Col C.Cell) (s : LogP), (∀ p ∈ l, ∃ d, v.dims.get? p.1 = some d) →
      ∃ w, l.foldl (fun acc p =>
        match acc with
        | .error e => .error e
        | .ok s =>
          match v.dims.get? p.1 with
          | none => .error .keyError
          | some d =>
            match d.logpdf none k p.2 [] with
            | .error e => .error e
            | .ok lp => .ok (s + lp)) (.ok s) = (.ok w : Except Exn LogP) ∧
        mass (Fl.ofLogP w) = mass (Fl.ofLogP s) * (l.map fun p => match v.dims.get? p.1 with
          | none => 1
          | some d => cellDensity d k p.2 []).prod by
    obtain ⟨w, h1, h2⟩ := H D 0 fun p hpm => by
      obtain ⟨d, hd, -⟩ := hp p.1 (List.mem_map.mpr ⟨p, hpm, rfl⟩); exact ⟨d, hd⟩
    exact ⟨w, h1, by rw [h2, mass_ofLogP_zero, one_mul]⟩
  intro l
  induction l with
  | nil => intro s _; exact ⟨s, rfl, by simp⟩
  | cons p t ih =>
    intro s hl
    obtain ⟨d, hd⟩ := hl p (by simp)
    obtain ⟨lp, e1, e2⟩ := dim_logpdf_mass hI (p := (p.1, d)) (Dict.mem_of_get? hd) (rowid := none)
      (fun r h => by cases h) k p.2 []
    obtain ⟨w, h1, h2⟩ := ih (s + lp) fun q hq => hl q (by simp [hq])
    refine ⟨w, ?_, ?_⟩
    · rw [List.foldl_cons]
      simp only [hd] at *
      rw [e1]
      exact h1
    · rw [h2, mass_ofLogP_add, e2, List.map_cons, List.prod_cons, hd, mul_assoc]

theorem collect_forall₂ {α β : Type} {f : α → Except Exn β} {P : α → β → Prop} {l : List α}
    (h : ∀ a ∈ l, ∃ b, f a = .ok b ∧ P a b) : ∃ r, collect f l = .ok r ∧ List.Forall₂ P l r := by
  induction l with
  | nil => exact ⟨[], rfl, .nil⟩
  | cons a t ih =>
    obtain ⟨b, h1, h2⟩ := h a (by simp)
    obtain ⟨r, h3, h4⟩ := ih fun a ha => h a (by simp [ha])
    exact ⟨b :: r, by simp only [collect, h1, h3, Except.map], .cons h2 h4⟩

theorem zip_prior {X : C.Tbl} {v : View C} (hI : Inv X v) {K : List Tab} {lc : List LogP}
    {ρ : Tab → ENNReal} (h : List.Forall₂ (fun k w => mass (Fl.ofLogP w) = ρ k) K lc) :
    List.Forall₂ (fun k (a : Fl) => (a ≠ .nan ∧ a ≠ .pinf) ∧ mass a = prior v k * ρ k) K
      (List.zipWith Fl.add ((K.map fun k => Crp.calcPredictiveLogp k v.crp.data.length
        v.crp.counts v.crp.alpha).map Fl.fin) (lc.map Fl.ofLogP)) := by
  induction h with
  | nil => exact .nil
  | @cons k w K lc h _ ih =>
    refine .cons ?_ ih
    obtain ⟨p1, p2, -⟩ := ofLogP_props w
    obtain ⟨m1, m2, m3⟩ := mass_add (a := .fin (Crp.calcPredictiveLogp k v.crp.data.length
        v.crp.counts v.crp.alpha)) (b := Fl.ofLogP w) (by simp) p1 (by simp) p2
    refine ⟨⟨m2, m3⟩, ?_⟩
    rw [m1, h, ← prior_eq hI, hI.crp.hN]

/-- The weights of the clusters for a new row with the constraint `E`. -/
theorem fast_weights {X : C.Tbl} {v : View C} (hI : Inv X v) (hne : ∃ r, v.seat r ≠ none)
    {E : Dict Col C.Cell} (hEw : E.WF) (hE : Plain v E) :
    ∃ K fresh lc u, v.crp.gibbsTables none 1 = .ok (K ++ [fresh]) ∧ K.Nodup ∧
      (∀ k, k ∈ K ↔ k ∈ occupied v) ∧ fresh ∉ occupied v ∧
      collect (v.logpdfRow E) (K ++ [fresh]) = .ok lc ∧
      u = List.zipWith Fl.add (((K ++ [fresh]).map fun k => Crp.calcPredictiveLogp k
        v.crp.data.length v.crp.counts v.crp.alpha).map Fl.fin) (lc.map Fl.ofLogP) ∧
      List.Forall₂ (fun k (a : Fl) => (a ≠ .nan ∧ a ≠ .pinf) ∧
        mass a = prior v k * rowDensity v k E.get?) (K ++ [fresh]) u ∧
      (∀ a ∈ u, a ≠ .nan ∧ a ≠ .pinf) ∧
      total u = mixture v (fun k => rowDensity v k E.get?) ∧
      ((lc.all fun w => w == (⊥ : LogP)) = true ↔
        mixture v (fun k => rowDensity v k E.get?) = 0) := by
  obtain ⟨K, fresh, hK, hnd, hmem, hf⟩ := tables_ok hI hne
  obtain ⟨lc, c1, c2⟩ := collect_forall₂ (f := v.logpdfRow E) (l := K ++ [fresh])
    (fun k _ => logpdfRow_ok hI k hEw hE)
  have hu := zip_prior hI c2
  refine ⟨K, fresh, lc, _, hK, hnd, hmem, hf, c1, rfl, hu, ?_⟩
  set u := List.zipWith Fl.add (((K ++ [fresh]).map fun k => Crp.calcPredictiveLogp k
    v.crp.data.length v.crp.counts v.crp.alpha).map Fl.fin) (lc.map Fl.ofLogP) with hudef
  have hsum : total u = mixture v fun k => rowDensity v k E.get? := by
    unfold total
    rw [map_eq_of_forall₂ (hu.imp fun _ _ h => h.2)]
    exact tables_sum hnd hmem hf fun k k' h h' => rowDensity_fresh hI _ h h'
  refine ⟨?_, hsum, ?_⟩
  · intro a ha
    obtain ⟨i, hi, rfl⟩ := List.getElem_of_mem ha
    exact ((List.forall₂_iff_get.mp hu).2 i (by rw [hu.length_eq]; exact hi) hi).1
  rw [List.all_eq_true, ← hsum]
  have h0 : total u = 0 ↔ ∀ k ∈ K ++ [fresh], rowDensity v k E.get? = 0 := by
    unfold total
    rw [map_eq_of_forall₂ (hu.imp fun _ _ h => h.2), List.sum_eq_zero_iff]
    constructor
    · intro h k hk
      exact (mul_eq_zero.mp (h _ (List.mem_map.mpr ⟨k, hk, rfl⟩))).resolve_left (prior_pos hI k)
    · intro h x hx
      obtain ⟨k, hk, rfl⟩ := List.mem_map.mp hx
      simp only [h k hk, mul_zero]
  rw [h0]
  constructor
  · intro h k hk
    obtain ⟨i, hi, rfl⟩ := List.getElem_of_mem hk
    have h2 := (List.forall₂_iff_get.mp c2).2 i hi (by rw [← c2.length_eq]; exact hi)
    simp only [List.get_eq_getElem] at h2
    rw [← h2, mass_ofLogP_eq_zero]
    simpa using h _ (List.getElem_mem _)
  · intro h w hw
    obtain ⟨i, hi, rfl⟩ := List.getElem_of_mem hw
    have h2 := (List.forall₂_iff_get.mp c2).2 i (by rw [c2.length_eq]; exact hi) hi
    simp only [List.get_eq_getElem] at h2
    rw [h _ (List.getElem_mem _), mass_ofLogP_eq_zero] at h2
    simp [h2]

theorem fast_new {X : C.Tbl} {v : View C} (hI : Inv X v) (hne : ∃ r, v.seat r ≠ none)
    {rowid : Option Row} (hh : v.hypothetical rowid = true) {T E : Dict Col C.Cell}
    (hTw : T.WF) (hEw : E.WF) (hT : Plain v T) (hE : Plain v E) :
    (mixture v (fun k => rowDensity v k E.get?) ≠ 0 → ∃ r, v.fastLogpdf rowid T E = .ok r ∧
      r ≠ .nan ∧ mass r = (mixture v fun k => rowDensity v k T.get? * rowDensity v k E.get?) /
        mixture v (fun k => rowDensity v k E.get?)) ∧
    (mixture v (fun k => rowDensity v k E.get?) = 0 →
      v.fastLogpdf rowid T E = .error .valueError) := by
  obtain ⟨K, fresh, lc, u, hK, hnd, hmem, hf, c1, hudef, hu, hufin, hsum, hbot⟩ :=
    fast_weights hI hne hEw hE
  obtain ⟨lt, t1, t2⟩ := collect_forall₂ (f := v.logpdfRow T) (l := K ++ [fresh])
    (fun k _ => logpdfRow_ok hI k hTw hT)
  have heq : v.fastLogpdf rowid T E =
      if lc.all fun w => w == (⊥ : LogP) then .error .valueError
        else match logNormalize u with
          | .error e => .error e
          | .ok lpCluster => logsumexp (List.zipWith Fl.add lpCluster (lt.map Fl.ofLogP)) := by
    unfold fastLogpdf
    rw [hh]
    cases rowid <;> simp only [hK, c1, t1, hudef] <;> rfl
  rw [heq]
  constructor
  · intro h0
    rw [if_neg (fun h => h0 (hbot.mp h))]
    obtain ⟨q, hq1, hq2, -⟩ := C35_log_normalize u hufin (hsum ▸ h0)
    have ht : List.Forall₂ (fun k (b : Fl) => b ≠ .nan ∧ b ≠ .pinf ∧
        prior v k * rowDensity v k E.get? * mass b =
          prior v k * (rowDensity v k T.get? * rowDensity v k E.get?)) (K ++ [fresh])
        (lt.map Fl.ofLogP) := by
      rw [List.forall₂_map_right_iff]
      refine t2.imp fun k w h => ⟨(ofLogP_props w).1, (ofLogP_props w).2.1, ?_⟩
      rw [h]; ring
    obtain ⟨m1, m2⟩ := mix_sum (hu.imp fun _ _ h => h.2) hq2 ht
    obtain ⟨r, r1, r2, r3⟩ := C35_logsumexp (List.zipWith Fl.add q (lt.map Fl.ofLogP))
      (fun h => (m1 _ h).1 rfl) (fun h => (m1 _ h.1).2 rfl)
    refine ⟨r, by simp only [hq1, r1], r2, ?_⟩
    rw [tables_sum hnd hmem hf (f := fun k => rowDensity v k T.get? * rowDensity v k E.get?)
      (fun k k' h h' => by rw [rowDensity_fresh hI _ h h', rowDensity_fresh hI E.get? h h']),
      ← r3, hsum] at m2
    rw [ENNReal.eq_div_iff h0 (mixture_top v _), mul_comm]
    exact m2
  · intro h0
    rw [if_pos (hbot.mpr h0)]

/-- Without inputs, the columns of `T` and of `E` contribute separate factors. -/
theorem rowDensity_both {X : C.Tbl} {v : View C} (hI : Inv X v) (k : Tab)
    {T E : Col → Option C.Cell} (hd : ∀ c, E c ≠ none → T c = none)
    (hT : ∀ c d, v.dims.get? c = some d → T c ≠ none → ∀ i ∈ d.inputs, T i ≠ none)
    (hE : InputsIn v E) :
    rowDensity v k (fun c => (T c).or (E c)) = rowDensity v k T * rowDensity v k E := by
  unfold rowDensity
  rw [← List.prod_map_mul]
  congr 1
  refine List.map_congr_left fun p hp => ?_
  have hg := Dict.get?_of_mem hI.wf (k := p.1) (v := p.2) hp
  cases hx : E p.1 with
  | none =>
    cases hy : T p.1 with
    | none => simp only [hx, hy, Option.or_none, mul_one]
    | some y =>
      simp only [hx, hy, Option.some_or, mul_one]
      congr 1
      refine List.map_congr_left fun i hi => ?_
      obtain ⟨w, hw⟩ := Option.ne_none_iff_exists'.mp (hT p.1 p.2 hg (by simp [hy]) i hi)
      rw [hw]; rfl
  | some x =>
    have := hd p.1 (by simp [hx])
    simp only [this, hx, Option.none_or, one_mul]
    congr 1
    refine List.map_congr_left fun i hi => ?_
    rw [hd i (hE p.1 p.2 hg (by simp [hx]) i hi), Option.none_or]

end Cgpm.Props
