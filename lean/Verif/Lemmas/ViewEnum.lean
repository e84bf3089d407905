import Verif.Lemmas.ViewQuery

/-! Densities computed by the network of a view, and their sum over the clusters. -/
namespace Cgpm.Props
open Cgpm Cgpm.View Cgpm.Net

variable {C : Cat} {Ω : Type}

theorem prior_pos {X : C.Tbl} {v : View C} (hI : Inv X v) (k : Tab) : prior v k ≠ 0 := by
  rw [← prior_eq hI]
  simp [mass, Real.exp_pos]

theorem prior_fin (v : View C) (k : Tab) : prior v k ≠ ⊤ := ENNReal.ofReal_ne_top

theorem mass_ofLogP_fin (w : LogP) : mass (Fl.ofLogP w) ≠ ⊤ := by
  have := (total_ofLogP [w]).2
  simpa [total] using this

theorem cellDensity_fin (d : Dim C) (k : Tab) (x : C.Cell) (ins : List C.Cell) :
    cellDensity d k x ins ≠ ⊤ := by
  unfold cellDensity
  split
  · exact mass_ofLogP_fin _
  · exact ENNReal.one_ne_top

theorem prod_ne_top {l : List ENNReal} (h : ∀ x ∈ l, x ≠ ⊤) : l.prod ≠ ⊤ := by
  induction l with
  | nil => simp
  | cons a t ih =>
    rw [List.prod_cons]
    exact ENNReal.mul_ne_top (h a (by simp)) (ih fun x hx => h x (by simp [hx]))

theorem rowDensity_fin (v : View C) (k : Tab) (D : Col → Option C.Cell) :
    rowDensity v k D ≠ ⊤ := by
  refine prod_ne_top fun x hx => ?_
  obtain ⟨p, -, rfl⟩ := List.mem_map.mp hx
  split
  · exact ENNReal.one_ne_top
  · exact cellDensity_fin _ _ _ _

theorem ne_pinf_of_mass {r : Fl} (h : mass r ≠ ⊤) : r ≠ .pinf := by
  rintro rfl; exact h rfl

/-- The values given do not change the density when they are the same. -/
theorem rowDensity_congr (v : View C) (k : Tab) {D D' : Col → Option C.Cell}
    (h : ∀ c, D c = D' c) : rowDensity v k D = rowDensity v k D' := by
  rw [show D = D' from funext h]

theorem rowDensity_fresh {X : C.Tbl} {v : View C} (hI : Inv X v) (D : Col → Option C.Cell)
    {k k' : Tab} (hk : k ∉ occupied v) (hk' : k' ∉ occupied v) :
    rowDensity v k D = rowDensity v k' D := by
  have hnone : ∀ p ∈ v.dims, ∀ k, k ∉ occupied v → p.2.clusters.get? k = none := by
    intro p hp k hk
    rw [Dict.get?_eq_none_iff, (hI.dim p hp).keys]
    rw [mem_occupied hI, Crp.occupied_iff hI.crp] at hk
    exact hk
  unfold rowDensity
  congr 1
  refine List.map_congr_left fun p hp => ?_
  split
  · rfl
  · unfold cellDensity
    rw [hnone p hp k hk, hnone p hp k' hk']

/-! ### the network's density, for fully specified constraints -/

section
variable {ord : PyOrder} (hord : ord.Lists) {sim : Simulator C Ω} {z : Nat}
  {v : View C} {X : C.Tbl} (hI : Inv X v) (hs : Schema v z)
  {net : Network (Option Row) (Val C) Ω} (hb : v.buildNetwork ord sim z = .ok net)
  (hacc : net.accuracy = 1)
  {rowid : Option Row} (hr : NewRow v rowid) {k : Tab} {D' : Col → Option C.Cell}
  {D : Dict Nat (Val C)} (hD : Holds z k D' D) (hin : InputsIn v D') (ω : Draws Ω) (n : Nat)

include hord hI hs hb hacc hr hD hin

theorem netLogpdf_marginal : ∃ r, netLogpdf ord ω n rowid net D [] [] = .ok r ∧ r ≠ .nan ∧
    r ≠ .pinf ∧ mass r = prior v k * rowDensity v k D' := by
  obtain ⟨s, w, h1, h2⟩ := closed_weight hord hI hs hb hr hD hin (ω (2 * n) 0)
  have hj : ∀ i < net.accuracy, weightedSample ord (ω (2 * n) i) rowid net [] (D.update [])
      [] = .ok (s, w) := by
    intro i hi
    have : i = 0 := by omega
    subst this
    exact h1
  obtain ⟨sm, wm, m1⟩ : ∃ sm wm, ∀ i < net.accuracy, weightedSample ord (ω (2 * n + 1) i) rowid
      net [] [] [] = .ok (sm, wm) := by
    -- an empty query
    have hq : GoodQuery (nodes sim z v) [] [] [] :=
      ⟨Dict.wf_nil, Dict.wf_nil, List.nodup_nil, by simp, by simp⟩
    have hneed : ∀ x, ¬ Needed (nodes sim z v) (· ∈ ([] : List Nat))
        (· ∈ Dict.keys ([] : Dict Nat (Val C))) x := by
      intro x hx
      induction hx with
      | target h => simp at h
      | input _ _ _ _ ih => exact ih
      | constr _ _ h _ => simp [Dict.keys] at h
    cases hrun : weightedSample ord (ω (2 * n + 1) 0) rowid net [] [] [] with
    | error e =>
      obtain ⟨c, hc, ⟨o, ho, hact⟩, -⟩ := C27_failure ord hord _ _ net hb (nodes_simKeys sim z v)
        [] [] [] hq _ rowid e hrun
      exact (hact.elim (hneed o) (by simp [Dict.keys])).elim
    | ok r =>
      refine ⟨r.1, r.2, fun i hi => ?_⟩
      have : i = 0 := by omega
      subst this
      exact hrun
  obtain ⟨r, r1, r2, r3⟩ := (C27_logpdf ord (ω (2 * n)) (ω (2 * n + 1)) rowid net (by omega) D [] []
    (fun _ => s) (fun _ => sm) (fun _ => w) (fun _ => wm) hj m1).1 rfl
  have hm : mass r = prior v k * rowDensity v k D' := by
    rw [r3, hacc]
    simpa [total] using h2
  refine ⟨r, r1, r2, ne_pinf_of_mass ?_, hm⟩
  rw [hm]
  exact ENNReal.mul_ne_top (prior_fin v k) (rowDensity_fin v k D')

theorem netLogpdf_cond {T : Dict Nat (Val C)} {J' : Col → Option C.Cell}
    (hJ : Holds z k J' (T.update D)) (hinJ : InputsIn v J') :
    (rowDensity v k D' ≠ 0 → ∃ r, netLogpdf ord ω n rowid net T D [] = .ok r ∧ r ≠ .nan ∧
      r ≠ .pinf ∧ mass r * rowDensity v k D' = rowDensity v k J') ∧
    (rowDensity v k D' = 0 → netLogpdf ord ω n rowid net T D [] = .error .valueError) := by
  obtain ⟨s, w, h1, h2⟩ := closed_weight hord hI hs hb hr hJ hinJ (ω (2 * n) 0)
  obtain ⟨sm, wm, m1, m2⟩ := closed_weight hord hI hs hb hr hD hin (ω (2 * n + 1) 0)
  have hj : ∀ i < net.accuracy, weightedSample ord (ω (2 * n) i) rowid net [] (T.update D)
      [] = .ok (s, w) := by
    intro i hi
    have : i = 0 := by omega
    subst this
    exact h1
  have hm : ∀ i < net.accuracy, weightedSample ord (ω (2 * n + 1) i) rowid net [] D
      [] = .ok (sm, wm) := by
    intro i hi
    have : i = 0 := by omega
    subst this
    exact m1
  have hDne : D ≠ [] := by
    rintro rfl
    have := hD.cluster
    simp [Dict.get?] at this
  obtain ⟨-, hz, hp⟩ := C27_logpdf ord (ω (2 * n)) (ω (2 * n + 1)) rowid net (by omega) T D []
    (fun _ => s) (fun _ => sm) (fun _ => w) (fun _ => wm) hj hm
  have hiff : wm = ⊥ ↔ rowDensity v k D' = 0 := by
    rw [← (ofLogP_props wm).2.2, m2, mul_eq_zero]
    exact or_iff_right (prior_pos hI k)
  constructor
  · intro hpos
    obtain ⟨r, r1, r2, -, r4⟩ := hp hDne (fun h => hpos (hiff.mp (h 0 (by omega))))
    have hm : mass r * rowDensity v k D' = rowDensity v k J' := by
      rw [hacc] at r4
      simp only [List.range_one, List.map_cons, List.map_nil, total, List.sum_cons, List.sum_nil,
        add_zero, h2, m2] at r4
      rw [mul_left_comm] at r4
      exact (ENNReal.mul_right_inj (prior_pos hI k) (prior_fin v k)).mp r4
    refine ⟨r, r1, r2, ne_pinf_of_mass fun ht => ?_, hm⟩
    rw [ht, ENNReal.top_mul hpos] at hm
    exact rowDensity_fin v k J' hm.symm
  · intro h0
    exact hz hDne (fun _ _ => hiff.mpr h0)
end

/-! ### list comprehensions over the clusters -/

theorem collect_zip {α β γ : Type} (f : β × Nat → Except Exn γ) (g : α → β) (P : α → γ → Prop)
    (l : List α) (h : ∀ a ∈ l, ∀ i, ∃ b, f (g a, i) = .ok b ∧ P a b) :
    ∃ r, collect f (l.map g).zipIdx = .ok r ∧ List.Forall₂ P l r := by
  suffices H : ∀ n, ∃ r, collect f ((l.map g).zipIdx n) = .ok r ∧ List.Forall₂ P l r from H 0
  induction l with
  | nil => intro n; exact ⟨[], rfl, .nil⟩
  | cons a t ih =>
    intro n
    obtain ⟨b, h1, h2⟩ := h a (by simp) n
    obtain ⟨r, h3, h4⟩ := ih (fun a ha => h a (by simp [ha])) (n + 1)
    exact ⟨b :: r, by simp only [List.map_cons, List.zipIdx_cons, collect, h1, h3, Except.map],
      .cons h2 h4⟩

theorem collect_zip_err {α β γ : Type} (f : β × Nat → Except Exn γ) (g : α → β) (e : Exn)
    (l : List α) (h : ∀ a ∈ l, ∀ i, (∃ b, f (g a, i) = .ok b) ∨ f (g a, i) = .error e)
    (hx : ∃ a ∈ l, ∀ i, f (g a, i) = .error e) :
    collect f (l.map g).zipIdx = .error e := by
  suffices H : ∀ n, collect f ((l.map g).zipIdx n) = .error e from H 0
  induction l with
  | nil => simp at hx
  | cons a t ih =>
    intro n
    simp only [List.map_cons, List.zipIdx_cons, collect]
    rcases h a (by simp) n with ⟨b, hb⟩ | hb
    · rw [hb]
      obtain ⟨a', ha', hx⟩ := hx
      rcases List.mem_cons.mp ha' with rfl | ha'
      · rw [hx n] at hb; cases hb
      · rw [ih (fun a ha => h a (by simp [ha])) ⟨a', ha', hx⟩ (n + 1)]; rfl
    · rw [hb]

theorem mix_sum {K : List Tab} {u q t : List Fl} {S : ENNReal} {A W : Tab → ENNReal}
    (hu : List.Forall₂ (fun k (a : Fl) => mass a = A k) K u)
    (hq : List.Forall₂ (fun (b a : Fl) => b ≠ .nan ∧ b ≠ .pinf ∧ mass b * S = mass a) q u)
    (ht : List.Forall₂ (fun k (b : Fl) => b ≠ .nan ∧ b ≠ .pinf ∧ A k * mass b = W k) K t) :
    (∀ a ∈ List.zipWith Fl.add q t, a ≠ .nan ∧ a ≠ .pinf) ∧
    total (List.zipWith Fl.add q t) * S = (K.map W).sum := by
  induction hu generalizing q t with
  | nil => cases hq; cases ht; simp [total]
  | @cons k a K u h1 _ ih =>
    cases hq with
    | cons h2 hq =>
      cases ht with
      | cons h3 ht =>
        rename_i b q' c t'
        obtain ⟨i1, i2⟩ := ih hq ht
        obtain ⟨m3, m1, m2⟩ := mass_add h2.1 h3.1 h2.2.1 h3.2.1
        constructor
        · intro x hx
          rcases List.mem_cons.mp hx with rfl | hx
          · exact ⟨m1, m2⟩
          · exact i1 x hx
        · simp only [List.zipWith_cons_cons, total, List.map_cons, List.sum_cons] at i2 ⊢
          rw [add_mul, i2, m3]
          congr 1
          rw [mul_right_comm, h2.2.2, h1, h3.2.2]

/-! ### the clusters considered -/

/-- The candidate clusters: those in use and one more. -/
theorem tables_ok {X : C.Tbl} {v : View C} (hI : Inv X v) (hne : ∃ r, v.seat r ≠ none) :
    ∃ K fresh, v.crp.gibbsTables none 1 = .ok (K ++ [fresh]) ∧ K.Nodup ∧
      (∀ k, k ∈ K ↔ k ∈ occupied v) ∧ fresh ∉ occupied v := by
  refine ⟨pySorted v.crp.counts.keys, pyMax v.crp.counts.keys + 1 + 0, ?_, ?_, ?_, ?_⟩
  · unfold Crp.gibbsTables
    have : ¬ (v.crp.counts.isEmpty = true) := by
      obtain ⟨r, hr⟩ := hne
      obtain ⟨k, hk⟩ := Option.ne_none_iff_exists'.mp hr
      have : k ∈ v.crp.counts.keys := (Crp.occupied_iff hI.crp k).mpr ⟨r, hk⟩
      intro h
      rw [List.isEmpty_iff] at h
      rw [h] at this; simp [Dict.keys] at this
    simp [this, Crp.singleton]
  · exact (pySorted_perm _).nodup_iff.mpr hI.crp.wfCounts
  · intro k; rw [(pySorted_perm _).mem_iff, mem_occupied hI]
  · rw [mem_occupied hI]; exact fresh_not_mem _ 0

theorem freshTab_not_mem (v : View C) : freshTab v ∉ occupied v := by
  intro h
  have : id (freshTab v) ≤ (occupied v).sup id := Finset.le_sup h
  exact absurd this (Nat.not_succ_le_self _)

theorem prior_fresh (v : View C) {k k' : Tab} (h : k ∉ occupied v) (h' : k' ∉ occupied v) :
    prior v k = prior v k' := by simp [prior, h, h']

theorem tables_sum {v : View C} {K : List Tab} {fresh : Tab} (hnd : K.Nodup)
    (hK : ∀ k, k ∈ K ↔ k ∈ occupied v) (hf : fresh ∉ occupied v) {f : Tab → ENNReal}
    (hff : ∀ k k', k ∉ occupied v → k' ∉ occupied v → f k = f k') :
    ((K ++ [fresh]).map fun k => prior v k * f k).sum = mixture v f := by
  unfold mixture
  have : occupied v = K.toFinset := by ext k; simp [hK]
  rw [List.map_append, List.sum_append, this, ← List.sum_toFinset _ hnd]
  simp only [List.map_cons, List.map_nil, List.sum_cons, List.sum_nil, add_zero]
  rw [prior_fresh v hf (freshTab_not_mem v), hff _ _ hf (freshTab_not_mem v)]

/-! ### enumeration of the clusters -/

theorem cellsOf_keys (D : Dict Col C.Cell) : (cellsOf D).keys = D.keys := by
  simp [cellsOf, Dict.keys, Function.comp_def]

theorem cellsOf_get? (D : Dict Col C.Cell) (c : Col) :
    (cellsOf D).get? c = (D.get? c).map .cell := by
  induction D with
  | nil => rfl
  | cons p t ih =>
    obtain ⟨a, x⟩ := p
    simp only [cellsOf, List.map_cons, Dict.get?] at ih ⊢
    split
    · rfl
    · exact ih

theorem cellsOf_wf {D : Dict Col C.Cell} (h : D.WF) : (cellsOf D).WF := by
  unfold Dict.WF at *; rw [cellsOf_keys]; exact h

theorem holds_merge {z : Nat} {E : Dict Nat (Val C)} {E' : Col → Option C.Cell} (hw : E.WF)
    (hE : ∀ c, c ≠ z → E.get? c = (E' c).map .cell) (k : Tab) :
    Holds z k E' (E.update [(z, .tab k)]) := by
  have hw1 : Dict.WF [(z, (Val.tab k : Val C))] := by simp [Dict.WF, Dict.keys]
  refine ⟨Dict.wf_update hw _, ?_, fun c hc => ?_⟩
  · rw [Dict.get?_update _ _ hw1]; simp [Dict.get?]
  · rw [Dict.get?_update _ _ hw1]
    simp only [Dict.get?, if_neg (Ne.symm hc)]
    exact hE c hc

theorem holds_joint {z : Nat} {k : Tab} {T D : Dict Nat (Val C)} {T' D' : Col → Option C.Cell}
    (hT : T.WF) (hTc : ∀ c, c ≠ z → T.get? c = (T' c).map .cell)
    (hdisj : ∀ c, D' c ≠ none → T' c = none) (hD : Holds z k D' D) :
    Holds z k (fun c => (T' c).or (D' c)) (T.update D) := by
  refine ⟨Dict.wf_update hT _, ?_, fun c hc => ?_⟩
  · rw [Dict.get?_update _ _ hD.wf, hD.cluster]; rfl
  · rw [Dict.get?_update _ _ hD.wf, hD.cell c hc, hTc c hc]
    cases h : D' c with
    | none => simp
    | some x => rw [hdisj c (by simp [h])]; simp

section
variable {ord : PyOrder} (hord : ord.Lists) {sim : Simulator C Ω} {z : Nat}
  {v : View C} {X : C.Tbl} (hI : Inv X v) (hs : Schema v z)
  {net : Network (Option Row) (Val C) Ω} (hb : v.buildNetwork ord sim z = .ok net)
  (hacc : net.accuracy = 1) (hne : ∃ r, v.seat r ≠ none)
  {rowid : Option Row} (hr : NewRow v rowid) (ω : Draws Ω)
  {T E : Dict Nat (Val C)} {T' E' : Col → Option C.Cell}
  (hTw : T.WF) (hT : ∀ c, c ≠ z → T.get? c = (T' c).map .cell)
  (hEw : E.WF) (hE : ∀ c, c ≠ z → E.get? c = (E' c).map .cell)
  (hdisj : ∀ c, E' c ≠ none → T' c = none)
  (hinE : InputsIn v E') (hinJ : InputsIn v fun c => (T' c).or (E' c))

include hord hI hs hb hacc hne hr hTw hT hEw hE hdisj hinE hinJ

theorem logpdfEnum_cases :
    ((∀ k, rowDensity v k E' ≠ 0) → ∃ r, logpdfEnum ord ω v z net rowid T E [] = .ok r ∧
      r ≠ .nan ∧ r ≠ .pinf ∧ mixture v (fun k => rowDensity v k E') ≠ 0 ∧
      mixture v (fun k => rowDensity v k E') ≠ ⊤ ∧
      mass r * mixture v (fun k => rowDensity v k E') =
        mixture v fun k => rowDensity v k fun c => (T' c).or (E' c)) ∧
    ((∃ k, rowDensity v k E' = 0) →
      logpdfEnum ord ω v z net rowid T E [] = .error .valueError) := by
  obtain ⟨K, fresh, hK, hnd, hmem, hf⟩ := tables_ok hI hne
  have hD : ∀ k, Holds z k E' (E.update [(z, .tab k)]) := holds_merge hEw hE
  have hJ : ∀ k, Holds z k (fun c => (T' c).or (E' c)) (T.update (E.update [(z, .tab k)])) :=
    fun k => holds_joint hTw hT hdisj (hD k)
  have hsum : ∀ D : Col → Option C.Cell, ((K ++ [fresh]).map fun k => prior v k *
      rowDensity v k D).sum = mixture v fun k => rowDensity v k D := fun D =>
    tables_sum hnd hmem hf fun k k' h h' => rowDensity_fresh hI D h h'
  have hall : (∀ k ∈ K ++ [fresh], rowDensity v k E' ≠ 0) ↔ ∀ k, rowDensity v k E' ≠ 0 := by
    constructor
    · intro h k
      by_cases hk : k ∈ occupied v
      · exact h k (by simp [(hmem k).mpr hk])
      · rw [rowDensity_fresh hI E' hk hf]; exact h fresh (by simp)
    · intro h k _; exact h k
  obtain ⟨u, hu1, hu2⟩ := collect_zip (fun p : Dict Nat (Val C) × Nat =>
      netLogpdf ord ω p.2 rowid net p.1 [] []) (fun k => E.update [(z, .tab k)])
    (fun k (a : Fl) => a ≠ .nan ∧ a ≠ .pinf ∧ mass a = prior v k * rowDensity v k E')
    (K ++ [fresh]) (fun k _ i => netLogpdf_marginal hord hI hs hb hacc hr (hD k) hinE ω i)
  have hmapu : u.map mass = (K ++ [fresh]).map fun k => prior v k * rowDensity v k E' :=
    map_eq_of_forall₂ (hu2.imp fun _ _ h => h.2.2)
  have htot : total u = mixture v fun k => rowDensity v k E' := by
    unfold total; rw [hmapu, hsum]
  have hufin : ∀ a ∈ u, a ≠ .nan ∧ a ≠ .pinf := by
    intro a ha
    obtain ⟨i, hi, rfl⟩ := List.getElem_of_mem ha
    have := (List.forall₂_iff_get.mp hu2).2 i (by rw [hu2.length_eq]; exact hi) hi
    exact ⟨this.1, this.2.1⟩
  have hcond := fun k i => netLogpdf_cond hord hI hs hb hacc hr (hD k) hinE ω i (hJ k) hinJ
  constructor
  · intro hpos
    have h0 : total u ≠ 0 := by
      rw [htot]
      unfold mixture
      intro h
      rw [add_eq_zero, mul_eq_zero] at h
      exact h.2.elim (prior_pos hI _) (hpos _)
    have htop : total u ≠ ⊤ := by
      unfold total
      rw [hmapu]
      intro h
      have h2 : ∀ l : List Tab, (l.map fun k => prior v k * rowDensity v k E').sum ≠ ⊤ := by
        intro l
        induction l with
        | nil => simp
        | cons a t ih =>
          rw [List.map_cons, List.sum_cons]
          exact ENNReal.add_ne_top.mpr ⟨ENNReal.mul_ne_top (prior_fin v a)
            (rowDensity_fin v a E'), ih⟩
      exact h2 _ h
    obtain ⟨q, hq1, hq2, -⟩ := C35_log_normalize u hufin h0
    obtain ⟨t, ht1, ht2⟩ := collect_zip (fun p : Dict Nat (Val C) × Nat =>
        netLogpdf ord ω ((K ++ [fresh]).length + p.2) rowid net T p.1 [])
      (fun k => E.update [(z, .tab k)])
      (fun k (b : Fl) => b ≠ .nan ∧ b ≠ .pinf ∧ mass b * rowDensity v k E' =
        rowDensity v k fun c => (T' c).or (E' c))
      (K ++ [fresh]) (fun k _ i => (hcond k _).1 (hpos k))
    obtain ⟨m1, m2⟩ := mix_sum (hu2.imp fun _ _ h => h.2.2) hq2
      (ht2.imp fun k b h => ⟨h.1, h.2.1, by
        rw [mul_assoc, mul_comm (rowDensity v k E'), h.2.2]⟩)
    obtain ⟨r, r1, r2, r3⟩ := C35_logsumexp (List.zipWith Fl.add q t)
      (fun h => (m1 _ h).1 rfl) (fun h => (m1 _ h.1).2 rfl)
    rw [hsum, ← r3, htot] at m2
    refine ⟨r, ?_, r2, ?_, htot ▸ h0, htot ▸ htop, m2⟩
    · unfold logpdfEnum
      simp only [hK, hu1, hq1, ht1, r1]
    · refine ne_pinf_of_mass ?_
      rw [r3]
      intro h
      have := total_eq_rel 0 (l := List.zipWith Fl.add q t) (fun h => (m1 _ h).2 rfl)
      rw [this] at h
      exact ENNReal.ofReal_ne_top h
  · intro hz
    obtain ⟨q, hq⟩ : ∃ q, logNormalize u = .ok q := by
      obtain ⟨r, r1, -⟩ := C35_logsumexp u (fun h => (hufin _ h).1 rfl)
        (fun h => (hufin _ h.1).2 rfl)
      exact ⟨u.map fun a => a.sub r, by simp only [logNormalize, r1, Except.map]⟩
    have herr := collect_zip_err (fun p : Dict Nat (Val C) × Nat =>
        netLogpdf ord ω ((K ++ [fresh]).length + p.2) rowid net T p.1 [])
      (fun k => E.update [(z, .tab k)]) .valueError (K ++ [fresh])
      (fun k _ i => by
        by_cases h : rowDensity v k E' = 0
        · exact .inr ((hcond k _).2 h)
        · obtain ⟨r, r1, -⟩ := (hcond k ((K ++ [fresh]).length + i)).1 h
          exact .inl ⟨r, r1⟩)
      (by
        have : ∃ k ∈ K ++ [fresh], rowDensity v k E' = 0 := by
          by_contra hcon
          push Not at hcon
          obtain ⟨k, hk⟩ := hz
          exact hall.mp hcon k hk
        obtain ⟨k, hk, h0⟩ := this
        exact ⟨k, hk, fun i => (hcond k _).2 h0⟩)
    unfold logpdfEnum
    simp only [hK, hu1, hq, herr]
end

end Cgpm.Props
