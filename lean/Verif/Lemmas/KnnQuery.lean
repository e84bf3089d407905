import Verif.Lemmas.KnnLaw

/-!
The queries of a nearest neighbour model.
-/
namespace Cgpm.Rand
open Cgpm

variable {α β : Type}

theorem Evenly.bind' {m : Rand α} {L : List α} (h : Evenly m L) {f : α → Rand β} {g : α → β}
    (hf : ∀ a ∈ L, f a = .pure (g a)) : Evenly (m.bind f) (L.map g) := by
  refine ⟨by simpa using h.1, fun u => ?_, ?_⟩
  · rw [expect_bind, h.2.1, List.map_map, List.length_map]
    congr 2
    refine List.map_congr_left fun a ha => ?_
    rw [hf a ha]
    rfl
  · exact h.2.2.bind fun a ha => by
      rw [hf a ha]
      exact List.mem_map_of_mem (f := g) ha

/-- Independent choices without weights. -/
theorem expect_uniforms {ι : Type} {R : List ι} (hR : R ≠ []) (hs : List (Nat → ℝ)) (Hs : List (ι → ℝ))
    (hH : List.Forall₂ (fun h H => ∀ i (hi : i < R.length), h i = H R[i]) hs Hs) :
    expect (prodFn hs) (traverse (fun _ => uniform R.length) (List.range hs.length))
      = (Hs.map fun H => (R.map H).sum / (R.length : ℝ)).prod := by
  have hlen : (R.length : ℝ) ≠ 0 := by exact_mod_cast (List.length_pos_of_ne_nil hR).ne'
  unfold uniform
  rw [expect_draws]
  · induction hH with
    | nil => rfl
    | cons h _ ih =>
      rw [List.map_cons, List.map_cons, List.prod_cons, List.prod_cons, ih]
      congr 1
      rw [List.length_replicate, div_eq_mul_inv (List.sum _), ← List.sum_map_mul_right]
      refine Kde.sum_range_getD R _ _ fun i hi => ?_
      rw [List.getD_eq_getElem _ _ (by simpa using hi), List.getElem_replicate, h i hi]
      ring
  · intro x hx
    rw [List.eq_of_mem_replicate hx]
    positivity
  · rw [List.sum_replicate, nsmul_eq_mul]
    field_simp

end Cgpm.Rand

namespace Cgpm.Knn
open Cgpm Cgpm.Spec Cgpm.Spec.Knn MeasureTheory

variable {o : Knn} {kd : Tree}

theorem _root_.Cgpm.Spec.Knn.Neighborhoods.length {R : List Row} {qs : List Col} {Ev : Dict Col ℝ} {Ls : List (List Row)}
    (h : Neighborhoods o R qs Ev Ls) : Ls.length = o.K := by
  obtain ⟨ns, h1, h2⟩ := h
  rw [← h2.length_eq, h1.length]

theorem _root_.Cgpm.Spec.Knn.Neighborhoods.good (hV : Valid o) {T : List Col} (hTk : ∀ q ∈ T, q ∈ o.outputs)
    {Ev : Dict Col ℝ} {R : List Row} (hR : R = Spec.Knn.exemplars o (T ++ Ev.keys))
    {qs : List Col} {Ls : List (List Row)} (h : Neighborhoods o R qs Ev Ls) :
    ∀ L ∈ Ls, Good o T L := by
  obtain ⟨ns, h1, h2⟩ := h
  intro L hL
  obtain ⟨i, hi, rfl⟩ := List.getElem_of_mem hL
  have hl := h2.get (by rw [h2.length_eq]; exact hi) hi
  simp only [List.get_eq_getElem] at hl
  refine ⟨fun h0 => ?_, fun q hq r hr => ?_⟩
  · have := hl.length
    rw [h0] at this
    have h1 := hV.K
    have h2 := hV.M
    simp at this
    omega
  · exact sensible_val hV (hR ▸ hl.rows r hr) (List.mem_append_left _ hq) (hTk q hq)

theorem locals_eq {T : List Col} (hTk : ∀ q ∈ T, q ∈ o.outputs) {R : List Row}
    {ex : List (List Nat)} (hb : ∀ e ∈ ex, ∀ j ∈ e, j < R.length)
    (hg : ∀ e ∈ ex, Good o T (e.map (R.getD · 0))) :
    o.locals T (R.map fun r => T.map (val o r)) ex
      = .ok ((ex.map fun e => e.map (R.getD · 0)).map (jointOf o T)) := by
  unfold locals
  rw [Kde.collect_map (g := fun e => jointOf o T (e.map (R.getD · 0)))]
  · rw [List.map_map]; rfl
  · intro e he
    rw [← localJoint_eq hTk (hg e he), List.map_map]
    congr 1
    refine List.map_congr_left fun j hj => ?_
    rw [List.getD_eq_getElem _ _ (by simpa using hb e he j hj), List.getElem_map,
      Function.comp_apply, List.getD_eq_getElem _ _ (hb e he j hj)]

open Classical in
/-- What the search for neighbourhoods gives, as a list of equally probable neighbourhoods. -/
theorem search (hkd : Finds kd) (hV : Valid o) {T : List Col} (hT : T.Nodup)
    (hTk : ∀ q ∈ T, q ∈ o.outputs) {C : Dict Col ℝ} (hC : Mv.Assigns o.outputs C) (hne : C ≠ [])
    (hp : Proper o C) (hK : o.K ≤ (Spec.Knn.exemplars o (T ++ C.keys)).length) :
    ∃ A : List (List (List Row)),
      (∀ Ls ∈ A, Neighborhoods o (Spec.Knn.exemplars o (T ++ C.keys)) (T ++ C.keys) C Ls) ∧
      Rand.Evenly ((findNeighborhoods kd o T C).bind fun De => Rand.ofExcept (o.locals T De.1 De.2))
        (A.map fun Ls => Ls.map (jointOf o T)) ∧
      ((∃ N, Nearest o (Spec.Knn.exemplars o (T ++ C.keys)) C N) → ∃ Ls, A = [Ls] ∧
        ((findNeighborhoods kd o T C).bind fun De => Rand.ofExcept (o.locals T De.1 De.2))
          = .pure (Ls.map (jointOf o T))) ∧
      (o.K < ((Spec.Knn.exemplars o (T ++ C.keys)).countP fun n =>
          ((Spec.Knn.exemplars o (T ++ C.keys)).countP fun s => far o C s < far o C n) < o.K) →
        ∀ ns, Neighbors o (Spec.Knn.exemplars o (T ++ C.keys)) C ns → ∃ Ls ∈ A,
          List.Forall₂ (Locality o (Spec.Knn.exemplars o (T ++ C.keys)) (T ++ C.keys)) ns Ls) := by
  generalize hR : Spec.Knn.exemplars o (T ++ C.keys) = R at *
  have hRn : R.Nodup := hR ▸ exemplars_nodup hV _
  obtain ⟨L, h1, h2, h3, h4⟩ := neighborhoods_spec hkd hV hTk hC hp hR.symm hK
  rw [findNeighborhoods_eq hV hT hTk hC hne hp hR.symm hK, Rand.bind_assoc]
  have hnb : ∀ ns ∈ L, Neighborhoods o R (T ++ C.keys) C
      ((ns.map (locate kd o R (T ++ C.keys))).map fun e => e.map (R.getD · 0)) := by
    intro ns hns
    obtain ⟨a1, a2, a3⟩ := h2 ns hns
    refine ⟨_, a2, ?_⟩
    rw [List.map_map, List.forall₂_map_left_iff, List.forall₂_map_right_iff, List.forall₂_same]
    exact fun i hi => (a3 i hi).2
  have hloc : ∀ ns ∈ L, o.locals T (R.map fun r => T.map (val o r))
      (ns.map (locate kd o R (T ++ C.keys)))
      = .ok (((ns.map (locate kd o R (T ++ C.keys))).map fun e => e.map (R.getD · 0)).map
          (jointOf o T)) := by
    intro ns hns
    refine locals_eq hTk (fun e he => ?_) fun e he => ?_
    · obtain ⟨i, hi, rfl⟩ := List.mem_map.mp he
      exact ((h2 ns hns).2.2 i hi).1
    · exact (hnb ns hns).good hV hTk hR.symm _ (List.mem_map_of_mem he)
  by_cases hN : ∃ N, Nearest o R C N
  · obtain ⟨ns, hns⟩ := h3 hN
    have hmem : ns ∈ L := by
      have := h1.2.2
      rw [hns] at this
      exact this
    rw [hns]
    refine ⟨[(ns.map (locate kd o R (T ++ C.keys))).map fun e => e.map (R.getD · 0)], ?_, ?_,
      fun _ => ⟨_, rfl, ?_⟩, fun hmany => ?_⟩
    · intro Ls hLs
      rw [List.mem_singleton.mp hLs]
      exact hnb ns hmem
    · change Rand.Evenly (Rand.ofExcept (o.locals T _ _)) _
      rw [hloc ns hmem]
      exact Rand.evenly_pure _
    · change Rand.ofExcept (o.locals T _ _) = _
      rw [hloc ns hmem]
      rfl
    · exfalso
      obtain ⟨N, hN⟩ := hN
      rw [List.countP_eq_length_filter] at hmany
      have hcand : (R.filter fun n => decide ((R.countP fun s => far o C s < far o C n) < o.K)).Subperm
          N := by
        refine List.subperm_of_subset (hRn.filter _) fun n hn => ?_
        have hn' := List.mem_filter.mp hn
        by_contra hnot
        have hall : ∀ m ∈ N, far o C m < far o C n := fun m hm => hN.near m hm n hn'.1 hnot
        have hsub : N.Subperm (R.filter fun s => far o C s < far o C n) :=
          List.subperm_of_subset hN.nodup fun m hm =>
            List.mem_filter.mpr ⟨hN.rows m hm, decide_eq_true (hall m hm)⟩
        have h5 := hsub.length_le
        have h6 := of_decide_eq_true hn'.2
        rw [← List.countP_eq_length_filter, hN.length] at h5
        omega
      have := hcand.length_le
      rw [hN.length] at this
      omega
  · refine ⟨L.map fun ns => (ns.map (locate kd o R (T ++ C.keys))).map fun e => e.map (R.getD · 0),
      fun Ls hLs => ?_, ?_, fun h => absurd h hN, fun hmany ns hns => ?_⟩
    · obtain ⟨ns, hns, rfl⟩ := List.mem_map.mp hLs
      exact hnb ns hns
    · rw [List.map_map]
      refine h1.bind' fun ns hns => ?_
      change Rand.ofExcept (o.locals T _ _) = _
      rw [hloc ns hns]
      rfl
    · have hmem := h4 hmany ns hns
      refine ⟨_, List.mem_map_of_mem hmem, ?_⟩
      obtain ⟨-, -, a3⟩ := h2 _ hmem
      rw [List.map_map, List.map_map, List.forall₂_map_right_iff, List.forall₂_same]
      intro n hn
      have hlt := List.idxOf_lt_length_iff.mpr (hns.rows n hn)
      have := (a3 _ (List.mem_map_of_mem hn)).2
      rw [List.getD_eq_getElem _ _ hlt, List.getElem_idxOf hlt] at this
      exact this

/-- The end of `logpdf`: the average of the local densities. -/
noncomputable def average' (T : Dict Col ℝ) (ms : List (Dict Col Local)) : Except Exn Fl := do
  let lp ← Net.collect (fun m => jointLogpdf m T) ms
  let s ← logsumexp lp
  .ok (s.sub (.fin (Real.log ms.length)))

theorem average'_eq {T : Dict Col ℝ} (hT : T.keys.Nodup) (hp : Proper o T) {Ls : List (List Row)}
    (h0 : Ls ≠ []) :
    ∃ a, average' T (Ls.map (jointOf o T.keys)) = .ok a ∧ IsLog a (mixture o Ls T) := by
  choose a h1 h2 h3 using fun L => jointLogpdf_eq hT hp L
  obtain ⟨s, hs, hl⟩ := isLog_average h0 (a := a) (p := dens o T) (fun L _ => dens_nonneg T L)
    fun L _ => ⟨h2 L, h3 L⟩
  refine ⟨_, ?_, hl⟩
  unfold average'
  have : Net.collect (fun m => jointLogpdf m T) (Ls.map (jointOf o T.keys)) = .ok (Ls.map a) := by
    rw [show Net.collect (fun m => jointLogpdf m T) (Ls.map (jointOf o T.keys))
      = Net.collect (fun L => jointLogpdf (jointOf o T.keys L) T) Ls from by
        clear h0 hs hl
        induction Ls with
        | nil => rfl
        | cons L Ls ih => rw [List.map_cons, Net.collect, Net.collect, ih]]
    exact Kde.collect_map fun L _ => h1 L
  rw [this]
  change (logsumexp (Ls.map a)).bind _ = _
  rw [hs, List.length_map]
  rfl

theorem ofExcept_bind {α β : Type} (m : Except Exn α) (f : α → Except Exn β) :
    Rand.ofExcept (m >>= f) = (Rand.ofExcept m).bind fun a => Rand.ofExcept (f a) := by
  cases m <;> rfl

theorem validate_ok (hV : Valid o) {T : List Col} (hne : T ≠ []) (hTk : ∀ q ∈ T, q ∈ o.outputs)
    {C : Dict Col ℝ} (hC : ∀ q ∈ C.keys, q ∈ o.outputs) (hd : ∀ q ∈ T, q ∉ C.keys)
    (hN : o.K ≤ o.rows.data.length) {n : Option Int} (hn : ∀ x, n = some x → 0 < x) :
    o.validate T C n = .ok () := by
  unfold validate
  rw [if_neg, if_neg, if_neg (by simpa using hne), if_neg (by simpa using hTk),
    if_neg (by simpa using hC), if_neg]
  · rw [List.any_eq_true]
    rintro ⟨q, hq, h⟩
    exact hd q hq ((Dict.has_iff _ _).mp h)
  · rw [hV.count]
    push Not
    exact_mod_cast hN
  · cases n with
    | none => simp
    | some x => have := hn x rfl; simpa using this

theorem count_of_exemplars (hV : Valid o) {qs : List Col}
    (hK : o.K ≤ (Spec.Knn.exemplars o qs).length) : o.K ≤ o.rows.data.length := by
  refine hK.trans ?_
  have : (Spec.Knn.exemplars o qs).length ≤ o.rows.data.keys.length := List.length_filter_le _ _
  simpa [Dict.keys] using this

theorem noNan_ofDict' (T : Dict Col ℝ) : Kde.noNan (Mv.ofDict T) = some T := by
  unfold Kde.noNan Mv.ofDict
  rw [List.mapM_map]
  refine (MvRows.mapM_some (g := id) fun p _ => rfl).trans ?_
  rw [List.map_id]

theorem ofDict_keys' (T : Dict Col ℝ) : (Mv.ofDict T).keys = T.keys := by
  unfold Mv.ofDict Dict.keys
  rw [List.map_map]
  rfl

/-- `logpdf` after its checks. -/
theorem logpdf_eq (hV : Valid o) (r : Option Row) {T C Ev : Dict Col ℝ} (hne : T ≠ [])
    (hTk : ∀ q ∈ T.keys, q ∈ o.outputs) (hE : Ev ≠ []) (hEk : ∀ q ∈ Ev.keys, q ∈ o.outputs)
    (hd : ∀ q ∈ T.keys, q ∉ Ev.keys) (hN : o.K ≤ o.rows.data.length)
    (hEv : o.rows.populate o.outputs r T.keys C = .ok Ev) :
    logpdf kd o r (Mv.ofDict T) C []
      = ((findNeighborhoods kd o T.keys Ev).bind fun De =>
          Rand.ofExcept (o.locals T.keys De.1 De.2)).bind fun ms => Rand.ofExcept (average' T ms) := by
  unfold logpdf
  rw [ofDict_keys', hEv]
  change (if _ then _ else _) = _
  rw [if_neg (by simpa using hE),
    validate_ok hV (by simpa [Dict.keys] using hne) hTk hEk hd hN (by simp), noNan_ofDict']
  change Rand.bind (findNeighborhoods kd o T.keys Ev) _ = _
  rw [Rand.bind_assoc]
  congr 1
  funext De
  exact ofExcept_bind _ _

/-- Distribution of the samples of `simulate`, given evidence. -/
noncomputable def samplesOf (T : List Col) (n : Nat) (ms : List (Dict Col Local)) :
    Rand (List (Dict Col ℝ)) :=
  (Rand.traverse (fun _ => Rand.uniform ms.length) (List.range n)).bind fun is =>
    Rand.traverse (fun i => jointSimulate (ms.getD i []) T) is

theorem simulateGiven_eq (T : List Col) (C : Dict Col ℝ) (n : Nat) :
    simulateGiven kd o T C n
      = ((findNeighborhoods kd o T C).bind fun De =>
          Rand.ofExcept (o.locals T De.1 De.2)).bind (samplesOf T n) := by
  unfold simulateGiven
  rw [Rand.bind_assoc]
  rfl

theorem samplesOf_length (T : List Col) (n : Nat) (ms : List (Dict Col Local)) :
    Rand.Always (fun l => l.length = n) (samplesOf T n ms) := by
  unfold samplesOf
  refine (Rand.always_traverse _).bind fun is his => ?_
  exact (Rand.always_traverse _).mono fun bs hbs => by rw [hbs, his, List.length_range]

open Classical in
theorem expect_samplesOf {T : List Col} (hT : T.Nodup) {Ls : List (List Row)} (h0 : Ls ≠ [])
    (hg : ∀ L ∈ Ls, Good o T L) (Ss : List (Col → Set ℝ)) :
    Rand.expect (Rand.prodFn (Ss.map fun S d => if Mv.InBox T S d then 1 else 0))
        (samplesOf T Ss.length (Ls.map (jointOf o T)))
      = (Ss.map fun S => (Ls.map (boxIn o T S)).sum / Ls.length).prod := by
  unfold samplesOf
  rw [Rand.expect_bind, funext fun is => Rand.expect_traverse (fun i =>
    jointSimulate ((Ls.map (jointOf o T)).getD i []) T)
    (Ss.map fun S d => if Mv.InBox T S d then (1 : ℝ) else 0) is]
  rw [List.map_map, List.length_map]
  have hlen : Ss.length = (Ss.map ((fun (g : Dict Col ℝ → ℝ) a =>
      Rand.expect g (jointSimulate ((Ls.map (jointOf o T)).getD a []) T))
      ∘ fun S d => if Mv.InBox T S d then (1 : ℝ) else 0)).length := by simp
  rw [hlen]
  refine (Rand.expect_uniforms h0 _ (Ss.map (boxIn o T)) ?_).trans ?_
  · rw [List.forall₂_map_left_iff, List.forall₂_map_right_iff, List.forall₂_same]
    intro S _ i hi
    rw [Function.comp_apply, List.getD_eq_getElem _ _ (by simpa using hi), List.getElem_map]
    exact expect_jointSimulate hT (hg _ (List.getElem_mem hi)) S
  · rw [List.map_map]
    rfl

/-- `simulate` after its checks, given evidence. -/
theorem simulate_eq (hV : Valid o) (r : Option Row) {T : List Col} {C Ev : Dict Col ℝ} (hne : T ≠ [])
    (hTk : ∀ q ∈ T, q ∈ o.outputs) (hE : Ev ≠ []) (hEk : ∀ q ∈ Ev.keys, q ∈ o.outputs)
    (hd : ∀ q ∈ T, q ∉ Ev.keys) (hN : o.K ≤ o.rows.data.length)
    (hEv : o.rows.populate o.outputs r T C = .ok Ev) {N : Option Int} (hpos : ∀ x, N = some x → 0 < x) :
    simulate kd o r T C [] N
      = (((findNeighborhoods kd o T Ev).bind fun De =>
          Rand.ofExcept (o.locals T De.1 De.2)).bind (samplesOf T (N.getD 1).toNat)).bind fun l =>
        match N with
        | none => .pure (.inl (l.headD []))
        | some _ => .pure (.inr l) := by
  unfold simulate
  rw [if_neg (by simp), hEv]
  change Rand.bind (Rand.ofExcept (o.validate T Ev (some (N.getD 1)))) _ = _
  rw [validate_ok hV hne hTk hEk hd hN (by
    intro x hx
    cases hx
    cases N with
    | none => simp
    | some y => exact hpos y rfl)]
  change Rand.bind (if _ then _ else _) _ = _
  rw [if_pos (by simpa using hE), simulateGiven_eq]
  rfl

end Cgpm.Knn
