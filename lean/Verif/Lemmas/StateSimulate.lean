import Verif.Lemmas.StateLogpdf
import Verif.Lemmas.ViewFast
import Verif.Model.StateSimulate
import Verif.Props.LogSpace

/-! Lemmas about the simulation of rows (Model/StateSimulate.lean). -/
namespace Cgpm.Props
open Cgpm Cgpm.View Cgpm.Net MeasureTheory

variable {C : Cat}

theorem logPflipMany_ok {α : Type} {logp : List Fl} {array : List α} {pick : ℝ → α} {us : List ℝ}
    (h : ∀ u ∈ us, logPflip logp array u = .ok (pick u)) :
    logPflipMany logp array us = .ok (us.map pick) := by
  unfold logPflipMany
  induction us with
  | nil => rfl
  | cons u t ih =>
    rw [List.mapM_cons, h u (by simp), ih fun u hu => h u (by simp [hu])]
    rfl

/-- One sample of the columns `T`, each value being the `j`-th drawn for cluster `k`. -/
def sampleOf (draw : Col → Tab → Nat → C.V) (T : List Col) (p : Tab × Nat) : Dict Col C.Cell :=
  T.map fun c => (c, some (draw c p.1 p.2))

/-- Cluster and number of each sample, one cluster after the other. -/
def slotsOf (order ks : List Tab) : List (Tab × Nat) :=
  order.flatMap fun k => (List.range (ks.count k)).map fun j => (k, j)

theorem sampleOf_get? (draw : Col → Tab → Nat → C.V) (T : List Col) (p : Tab × Nat) (c : Col) :
    (sampleOf draw T p).get? c = if c ∈ T then some (some (draw c p.1 p.2)) else none := by
  unfold sampleOf
  induction T with
  | nil => rfl
  | cons a t ih =>
    rw [List.map_cons, Dict.get?_cons]
    by_cases h : a = c
    · subst h; simp
    · have h' : c ≠ a := fun e => h e.symm
      simp [h, h', ih]

theorem simulateRow_ok {v : View C} {draw : Col → Tab → Nat → C.V} {T : List Col} {k : Tab}
    {N : Nat} (hT : ∀ c ∈ T, c ∈ v.dims.keys) (hne : T ≠ []) :
    v.simulateRow draw T k N = .ok ((List.range N).map fun j => sampleOf draw T (k, j)) := by
  unfold View.simulateRow sampleOf
  rw [if_pos (by
    rw [List.all_eq_true]
    intro c hc
    exact (Dict.has_iff _ _).mpr (hT c hc)), if_neg (by
    rw [List.isEmpty_iff]; exact hne)]

theorem simulateRows_ok {v : View C} {draw : Col → Tab → Nat → C.V} {T : List Col}
    {ks order : List Tab} (hT : ∀ c ∈ T, c ∈ v.dims.keys) (hne : T ≠ []) :
    v.simulateRows draw T ks order = .ok ((slotsOf order ks).map (sampleOf draw T)) := by
  induction order with
  | nil => rfl
  | cons k t ih =>
    simp only [View.simulateRows, simulateRow_ok hT hne, ih, Except.map, slotsOf,
      List.flatMap_cons, List.map_append, List.map_map]
    rfl

theorem slotsOf_nodup {order ks : List Tab} (h : order.Nodup) : (slotsOf order ks).Nodup := by
  unfold slotsOf
  rw [List.nodup_flatMap]
  refine ⟨fun k _ => List.Nodup.map (fun a b e => (Prod.mk.inj e).2) List.nodup_range, ?_⟩
  refine h.imp fun {a b} hab => ?_
  simp only [Function.onFun, List.disjoint_left, List.mem_map]
  rintro p ⟨j, -, rfl⟩ ⟨j', -, e⟩
  exact hab (Prod.mk.inj e).1.symm

theorem slotsOf_fst {order ks : List Tab} :
    (slotsOf order ks).map Prod.fst = order.flatMap fun k => List.replicate (ks.count k) k := by
  unfold slotsOf
  rw [List.map_flatMap]
  congr 1
  funext k
  rw [List.map_map]
  have : (Prod.fst ∘ fun j : Nat => (k, j)) = fun _ => k := rfl
  rw [this, List.map_const', List.length_range]

theorem slotsOf_perm {order ks : List Tab} (h : order.Nodup) (hm : ∀ k, k ∈ order ↔ k ∈ ks) :
    ((slotsOf order ks).map Prod.fst).Perm ks := by
  rw [slotsOf_fst, List.perm_iff_count]
  intro a
  rw [List.count_flatMap]
  by_cases ha : a ∈ ks
  · have : (order.map (List.count a ∘ fun k => List.replicate (ks.count k) k)) =
        order.map fun k => if k = a then ks.count a else 0 := by
      refine List.map_congr_left fun k _ => ?_
      simp only [Function.comp, List.count_replicate]
      by_cases e : k = a
      · subst e; simp
      · simp [e]
    rw [this, List.sum_map_ite, List.map_const', List.map_const', List.sum_replicate]
    have hc := List.count_eq_one_of_mem h ((hm a).mpr ha)
    rw [List.count_eq_length_filter] at hc
    have hf : (order.filter fun k => decide (k = a)).length = 1 := by
      rw [← hc]; congr 2
    simp [hf]
  · rw [List.count_eq_zero_of_not_mem ha]
    refine List.sum_eq_zero fun x hx => ?_
    obtain ⟨k, hk, rfl⟩ := List.mem_map.mp hx
    simp only [Function.comp, List.count_replicate]
    split
    · rename_i e
      have : k = a := by simpa using e
      subst this
      exact absurd ((hm k).mp hk) ha
    · rfl

theorem drawnTabs_nodup (ks : List Tab) : (drawnTabs ks).Nodup :=
  (List.mergeSort_perm _ _).nodup_iff.mpr (List.nodup_dedup ks)

theorem mem_drawnTabs (ks : List Tab) (k : Tab) : k ∈ drawnTabs ks ↔ k ∈ ks := by
  unfold drawnTabs
  rw [(List.mergeSort_perm _ _).mem_iff, List.mem_dedup]

theorem drawnTabs_sorted (ks : List Tab) : (drawnTabs ks).Pairwise (· ≤ ·) := by
  have := List.pairwise_mergeSort (α := Nat) (le := fun a b => decide (a ≤ b))
    (fun a b c h1 h2 => by simp at *; exact le_trans h1 h2) (fun a b => by simp [le_total]) ks.dedup
  exact this.imp fun h => by simpa using h

theorem slotsOf_sorted {ks : List Tab} :
    ((slotsOf (drawnTabs ks) ks).map Prod.fst).Pairwise (· ≤ ·) := by
  rw [slotsOf_fst]
  have h := drawnTabs_sorted ks
  revert h
  generalize drawnTabs ks = order
  intro h
  rw [List.pairwise_flatMap]
  refine ⟨fun k _ => ?_, h.imp fun {a b} hab x hx y hy => ?_⟩
  · rw [List.pairwise_replicate]; exact Or.inr le_rfl
  · rw [List.eq_of_mem_replicate hx, List.eq_of_mem_replicate hy]; exact hab

/-- How the cluster of a new row is drawn. -/
theorem fast_pick {X : C.Tbl} {v : View C} (hI : Inv X v) (hne : ∃ r, v.seat r ≠ none)
    {rowid : Option Row} (hh : v.hypothetical rowid = true) {E : Dict Col C.Cell}
    (hEw : E.WF) (hE : Plain v E) (ord : PyOrder) :
    (mixture v (fun k => rowDensity v k E.get?) ≠ 0 → ∃ fresh ∉ occupied v, ∃ pick : ℝ → Tab,
      (∀ u, 0 ≤ u → u < 1 → pick u ∈ occupied v ∨ pick u = fresh) ∧
      (∀ k, k ∈ occupied v ∨ k = fresh → volume {u : ℝ | 0 ≤ u ∧ u < 1 ∧ pick u = k} =
        prior v k * rowDensity v k E.get? / mixture v fun k => rowDensity v k E.get?) ∧
      ∀ T us draw, (∀ u ∈ us, 0 ≤ u ∧ u < 1) → v.fastSimulate ord rowid T E us draw =
        v.simulateRows draw T (us.map pick) (ord.set (drawnTabs (us.map pick)))) ∧
    (mixture v (fun k => rowDensity v k E.get?) = 0 → ∀ T us draw,
      v.fastSimulate ord rowid T E us draw = .error .valueError) := by
  obtain ⟨K, fresh, lc, u, hK, hnd, hmem, hf, c1, hudef, hu, hufin, hsum, hbot⟩ :=
    fast_weights hI hne hEw hE
  have heq : ∀ T us draw, v.fastSimulate ord rowid T E us draw =
      if lc.all fun w => w == (⊥ : LogP) then .error .valueError
        else match logPflipMany u (K ++ [fresh]) us with
          | .error e => .error e
          | .ok ks => v.simulateRows draw T ks (ord.set (drawnTabs ks)) := by
    intro T us draw
    unfold fastSimulate
    rw [hh]
    cases rowid <;> simp only [hK, c1, hudef] <;> rfl
  have hlen : u.length = (K ++ [fresh]).length := hu.length_eq.symm
  have hmem' : ∀ k, k ∈ K ++ [fresh] ↔ k ∈ occupied v ∨ k = fresh := by
    intro k; rw [List.mem_append, hmem, List.mem_singleton]
  constructor
  · intro h0
    have hnd' : (K ++ [fresh]).Nodup := by
      rw [List.nodup_append]
      refine ⟨hnd, by simp, fun a ha b hb => ?_⟩
      rw [List.mem_singleton] at hb
      subst hb
      rintro rfl
      exact hf ((hmem a).mp ha)
    let pick : ℝ → Tab := fun x => match logPflip u (K ++ [fresh]) x with
      | .ok k => k
      | .error _ => 0
    have hpick : ∀ x, 0 ≤ x → x < 1 → logPflip u (K ++ [fresh]) x = .ok (pick x) ∧
        (pick x ∈ K ++ [fresh]) := by
      intro x h1 h2
      obtain ⟨i, hi, -, e, -⟩ := C36_draw_has_positive_weight u (K ++ [fresh]) hufin
        (hsum ▸ h0) hlen x h1 h2
      simp only [pick, e]
      exact ⟨trivial, List.getElem_mem hi⟩
    refine ⟨fresh, hf, pick, fun x h1 h2 => (hmem' _).mp (hpick x h1 h2).2, fun k hk => ?_,
      fun T us draw hus => ?_⟩
    · obtain ⟨i, hi, rfl⟩ := List.getElem_of_mem ((hmem' k).mpr hk)
      have hi' : i < u.length := by rw [hlen]; exact hi
      have hm := ((List.forall₂_iff_get.mp hu).2 i hi hi').2
      simp only [List.get_eq_getElem] at hm
      rw [← hm, ← hsum, ← C36_draw_probability u (K ++ [fresh]) hnd' hufin (hsum ▸ h0) hlen i hi hi']
      congr 1
      ext x
      simp only [Set.mem_ofPred_eq]
      refine and_congr_right fun h1 => and_congr_right fun h2 => ?_
      rw [(hpick x h1 h2).1]
      constructor
      · intro e; rw [e]
      · intro e; exact Except.ok.inj e
    · rw [heq, if_neg (fun h => h0 (hbot.mp h)),
        logPflipMany_ok fun x hx => (hpick x (hus x hx).1 (hus x hx).2).1]
  · intro h0 T us draw
    rw [heq, if_pos (hbot.mpr h0)]

theorem zipMerged_length {N : Nat} : ∀ {Ls : List (List (Dict Col C.Cell))}, Ls ≠ [] →
    (∀ l ∈ Ls, l.length = N) → (State.zipMerged Ls).length = N
  | [l], _, h => h l (by simp)
  | l :: l' :: t, _, h => by
    have := zipMerged_length (Ls := l' :: t) (by simp) fun x hx => h x (by simp [hx])
    simp only [State.zipMerged, List.length_zipWith, h l (by simp)] at this ⊢
    omega

/-- The values of a merged sample are those of the samples of the views. -/
theorem zipMerged_get {N i : Nat} (hi : i < N) : ∀ {Ls : List (List (Dict Col C.Cell))}, Ls ≠ [] →
    (∀ l ∈ Ls, l.length = N) → (∀ l ∈ Ls, ∀ row, l[i]? = some row → row.WF) →
    ∃ d, (State.zipMerged Ls)[i]? = some d ∧ d.WF ∧ ∀ c,
      (∀ x, d.get? c = some x → ∃ l ∈ Ls, ∃ row, l[i]? = some row ∧ row.get? c = some x) ∧
      (d.get? c = none → ∀ l ∈ Ls, ∀ row, l[i]? = some row → row.get? c = none)
  | [l], _, h, hw => by
    obtain ⟨d, hd⟩ : ∃ d, l[i]? = some d :=
      ⟨_, List.getElem?_eq_getElem (by rw [h l (by simp)]; exact hi)⟩
    refine ⟨d, hd, hw l (by simp) d hd,
      fun c => ⟨fun x hx => ⟨l, by simp, d, hd, hx⟩, fun hn l' hl' row hr => ?_⟩⟩
    rw [List.mem_singleton] at hl'
    subst hl'
    rw [hd] at hr; cases hr; exact hn
  | l :: l' :: t, _, h, hw => by
    obtain ⟨d, hd, hdw, ih⟩ := zipMerged_get hi (Ls := l' :: t) (by simp)
      (fun x hx => h x (by simp [hx])) fun x hx => hw x (by simp [hx])
    obtain ⟨e, he⟩ : ∃ e, l[i]? = some e :=
      ⟨_, List.getElem?_eq_getElem (by rw [h l (by simp)]; exact hi)⟩
    refine ⟨Dict.update e d, ?_, Dict.wf_update (hw l (by simp) e he) d, fun c => ?_⟩
    · have : State.zipMerged (l :: l' :: t) =
          List.zipWith Dict.update l (State.zipMerged (l' :: t)) := rfl
      rw [this, List.getElem?_zipWith, he, hd]
    · rw [Dict.get?_update _ _ hdw]
      constructor
      · intro x hx
        rcases Option.or_eq_some_iff.mp hx with hx | ⟨-, hx⟩
        · obtain ⟨m, hm, r⟩ := (ih c).1 x hx
          exact ⟨m, List.mem_cons_of_mem _ hm, r⟩
        · exact ⟨l, by simp, e, he, hx⟩
      · intro hn
        rw [Option.or_eq_none_iff] at hn
        intro m hm row hr
        rcases List.mem_cons.mp hm with rfl | hm
        · rw [he] at hr; cases hr; exact hn.2
        · exact (ih c).2 hn.1 m hm row hr

/-- The loop over the views with targets, when every view answers. -/
theorem drawViews_ok {ord : PyOrder} {s : State C} {rowid : Option Row} {us : Nat → List ℝ}
    {draw : Col → Tab → Nat → C.V} {Ev : Dict Nat (Dict Col C.Cell)}
    {P : Nat × List Col → List (Dict Col C.Cell) → Prop} {l : Dict Nat (List Col)}
    (h : ∀ p ∈ l, ∃ view r, s.views.get? p.1 = some view ∧
      view.fastSimulate ord rowid p.2 ((Ev.get? p.1).getD []) (us p.1) draw = .ok r ∧ P p r) :
    ∃ Ls, s.drawViews ord rowid us draw Ev l = .ok Ls ∧ List.Forall₂ P l Ls := by
  induction l with
  | nil => exact ⟨[], rfl, .nil⟩
  | cons p t ih =>
    obtain ⟨view, r, h1, h2, h3⟩ := h p (by simp)
    obtain ⟨Ls, e1, e2⟩ := ih fun p hp => h p (by simp [hp])
    exact ⟨r :: Ls, by simp only [State.drawViews, h1, h2, e1, Except.map], .cons h3 e2⟩

theorem drawViews_refused {ord : PyOrder} {s : State C} {rowid : Option Row} {us : Nat → List ℝ}
    {draw : Col → Tab → Nat → C.V} {Ev : Dict Nat (Dict Col C.Cell)} {l : Dict Nat (List Col)}
    {e : Exn} (h : ∀ p ∈ l, ∃ view, s.views.get? p.1 = some view ∧
      (view.fastSimulate ord rowid p.2 ((Ev.get? p.1).getD []) (us p.1) draw = .error e ∨
        ∃ r, view.fastSimulate ord rowid p.2 ((Ev.get? p.1).getD []) (us p.1) draw = .ok r))
    (hx : ∃ p ∈ l, ∃ view, s.views.get? p.1 = some view ∧
      view.fastSimulate ord rowid p.2 ((Ev.get? p.1).getD []) (us p.1) draw = .error e) :
    s.drawViews ord rowid us draw Ev l = .error e := by
  induction l with
  | nil => obtain ⟨p, hp, -⟩ := hx; cases hp
  | cons p t ih =>
    obtain ⟨view, h1, h2⟩ := h p (by simp)
    rcases h2 with h2 | ⟨r, h2⟩
    · simp only [State.drawViews, h1, h2]
    · simp only [State.drawViews, h1, h2]
      rw [ih (fun p hp => h p (by simp [hp])) ?_]
      · rfl
      · obtain ⟨q, hq, w, hw, he⟩ := hx
        rcases List.mem_cons.mp hq with rfl | hq
        · rw [h1] at hw; cases hw; rw [h2] at he; cases he
        · exact ⟨q, hq, w, hw, he⟩

end Cgpm.Props
