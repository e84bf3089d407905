import Verif.Lemmas.KnnQuery
import Verif.Props.Kde

/-!
C66: `MultivariateKnn` answers queries about the local models of the nearest rows.
-/
namespace Cgpm.Props
open Cgpm Cgpm.Spec Cgpm.Spec.Knn MeasureTheory

variable {o : Knn} {kd : Knn.Tree}

theorem far_perm {C D : Dict Col ℝ} (h : C.Perm D) (r : Row) : far o C r = far o D r :=
  (h.map _).sum_eq

theorem apart_perm {qs ps : List Col} (h : qs.Perm ps) (r s : Row) :
    apart o qs r s = apart o ps r s := (h.map _).sum_eq

theorem knn_exemplars_perm {qs ps : List Col} (h : ∀ q, q ∈ qs ↔ q ∈ ps) :
    Spec.Knn.exemplars o qs = Spec.Knn.exemplars o ps := by
  refine List.filter_congr fun r _ => ?_
  rw [Bool.eq_iff_iff, List.all_eq_true, List.all_eq_true]
  exact ⟨fun hh q hq => hh q ((h q).mpr hq), fun hh q hq => hh q ((h q).mp hq)⟩

theorem locality_perm {R : List Row} {qs ps : List Col} (h : qs.Perm ps) {n : Row} {L : List Row}
    (hl : Locality o R qs n L) : Locality o R ps n L :=
  ⟨hl.length, hl.nodup, hl.rows, fun s hs u hu hn => by
    rw [← apart_perm h, ← apart_perm h]; exact hl.near s hs u hu hn⟩

theorem neighbors_perm {R : List Row} {C D : Dict Col ℝ} (h : C.Perm D) {ns : List Row}
    (hn : Neighbors o R C ns) : Neighbors o R D ns :=
  ⟨hn.length, hn.nodup, hn.rows, fun n hm => by
    simp only [← far_perm h]; exact hn.near n hm⟩

theorem nearest_perm {R : List Row} {C D : Dict Col ℝ} (h : C.Perm D) {ns : List Row}
    (hn : Nearest o R C ns) : Nearest o R D ns :=
  ⟨hn.length, hn.nodup, hn.rows, fun n hm s hs hnot => by
    rw [← far_perm h, ← far_perm h]; exact hn.near n hm s hs hnot⟩

theorem evidence_proper (hV : Valid o) {r : Option Row} {T : List Col} {C Ev : Dict Col ℝ}
    (hE : Mv.Evidence o.outputs o.rows r T C Ev) (hC : Mv.Assigns o.outputs C) (hp : Proper o C) :
    Proper o Ev := by
  rintro ⟨q, v⟩ hm k hty
  have hg := Dict.get?_of_mem hE.nodup hm
  rw [hE.get] at hg
  cases hc : C.get? q with
  | some w =>
    rw [hc] at hg
    cases hg
    exact hp (q, v) (Dict.mem_of_get? hc) k hty
  | none =>
    rw [hc, Option.none_or] at hg
    split at hg
    · cases hg
    · cases r with
      | none => cases hg
      | some r =>
        have hq : q ∈ o.outputs := (hE.assigns hV.toFull hC).known q (List.mem_map_of_mem (f := Prod.fst) hm)
        exact hV.cells q hq k hty r v hg

theorem mixture_nonneg (Ls : List (List Row)) (T : Dict Col ℝ) : 0 ≤ mixture o Ls T := by
  refine div_nonneg (List.sum_nonneg fun x hx => ?_) (by positivity)
  obtain ⟨L, -, rfl⟩ := List.mem_map.mp hx
  exact Knn.dens_nonneg T L

open Classical in
/-- The neighbourhoods of a query, which are equally probable, determine the answers of `logpdf` and the
distribution of the samples of `simulate`. -/
theorem knn_core (hkd : Finds kd) (hV : Valid o) {r : Option Row} {T : List Col} {C Ev : Dict Col ℝ}
    (hA : Asked o r T C Ev) :
    ∃ A : List (List (List Row)), A ≠ [] ∧
      (∀ Ls ∈ A, Neighborhoods o (Spec.Knn.exemplars o (T ++ Ev.keys)) (T ++ Ev.keys) Ev Ls) ∧
      (∀ D : Dict Col ℝ, D.keys = T → Proper o D → ∃ a : List (List Row) → Fl,
        (∀ Ls ∈ A, IsLog (a Ls) (mixture o Ls D)) ∧
        Rand.Evenly (Knn.logpdf kd o r (Mv.ofDict D) C []) (A.map a) ∧
        ((∃ N, Nearest o (Spec.Knn.exemplars o (T ++ Ev.keys)) Ev N) → ∃ Ls ∈ A,
          Knn.logpdf kd o r (Mv.ofDict D) C [] = .pure (a Ls))) ∧
      (∀ (N : Option Int) (Ss : List (Col → Set ℝ)), (∀ x, N = some x → 0 < x) →
        (∀ S ∈ Ss, ∀ q, MeasurableSet (S q)) → Ss.length = (N.getD 1).toNat →
        ∃ m : Rand (List (Dict Col ℝ)),
          Knn.simulate kd o r T C [] N = (m.bind fun l => match N with
            | none => .pure (.inl (l.headD []))
            | some _ => .pure (.inr l)) ∧
          Rand.Always (fun l => l.length = (N.getD 1).toNat) m ∧
          Rand.expect (Rand.prodFn (Ss.map fun S d => if Mv.InBox T S d then 1 else 0)) m
            = (A.map fun Ls => (Ss.map fun S => Spec.Kde.total (typ o) T
              fun d => mixture o Ls d * if Mv.InBox T S d then 1 else 0).prod).sum / A.length) ∧
      ((∃ N, Nearest o (Spec.Knn.exemplars o (T ++ Ev.keys)) Ev N) → A.length = 1) ∧
      (o.K < ((Spec.Knn.exemplars o (T ++ Ev.keys)).countP fun n =>
          ((Spec.Knn.exemplars o (T ++ Ev.keys)).countP fun s => far o Ev s < far o Ev n) < o.K) →
        ∀ ns, Neighbors o (Spec.Knn.exemplars o (T ++ Ev.keys)) Ev ns → ∃ Ls ∈ A,
          List.Forall₂ (Locality o (Spec.Knn.exemplars o (T ++ Ev.keys)) (T ++ Ev.keys)) ns Ls) := by
  obtain ⟨cs, hcs, hE⟩ := MvRows.populate_ok hV.toFull r T hA.constraints.nodup
  have hp : cs.Perm Ev := hE.perm hA.evidence
  have hqp : (T ++ cs.keys).Perm (T ++ Ev.keys) := (List.Perm.refl _).append (hp.map Prod.fst)
  have hex := knn_exemplars_perm (o := o) fun q => hqp.mem_iff
  have hcs' := hE.assigns hV.toFull hA.constraints
  have hprop := evidence_proper hV hE hA.constraints hA.proper
  have hne : cs ≠ [] := fun h => hA.given (List.nil_perm.mp (h ▸ hp))
  have hK : o.K ≤ (Spec.Knn.exemplars o (T ++ cs.keys)).length := by rw [hex]; exact hA.enough
  have hd := hE.disjoint hA.disjoint
  have hN := Knn.count_of_exemplars hV hK
  obtain ⟨A, h1, h2, h3, h4⟩ := Knn.search hkd hV hA.nodup hA.known hcs' hne hprop hK
  have hA0 : A ≠ [] := by simpa using h2.1
  have hgood : ∀ Ls ∈ A, ∀ L ∈ Ls, Knn.Good o T L := fun Ls hLs =>
    (h1 Ls hLs).good hV hA.known rfl
  have hLs0 : ∀ Ls ∈ A, Ls ≠ [] := fun Ls hLs h0 => by
    have := (h1 Ls hLs).length
    have h2 := hV.K
    rw [h0] at this
    simp at this
    omega
  have hnear : (∃ N, Nearest o (Spec.Knn.exemplars o (T ++ Ev.keys)) Ev N) →
      ∃ N, Nearest o (Spec.Knn.exemplars o (T ++ cs.keys)) cs N := fun ⟨N, hN⟩ =>
    ⟨N, by rw [hex]; exact nearest_perm hp.symm hN⟩
  refine ⟨A, hA0, fun Ls hLs => ?_, fun D hD hDp => ?_, fun N Ss hpos hS hlen => ?_, fun hn => ?_,
    fun hmany ns hns => ?_⟩
  · obtain ⟨ns, a1, a2⟩ := h1 Ls hLs
    rw [hex] at a1 a2
    exact ⟨ns, neighbors_perm hp a1, a2.imp fun _ _ h => locality_perm hqp h⟩
  · subst hD
    have key := fun (Ls : List (List Row)) (h : Ls ≠ []) =>
      Knn.average'_eq (o := o) (T := D) hA.nodup hDp h
    have : Inhabited Fl := ⟨.nan⟩
    choose! a e1 e2 using key
    have heq := Knn.logpdf_eq (kd := kd) hV r (fun h => hA.some (by rw [h]; rfl)) hA.known hne
      hcs'.known hd hN hcs
    refine ⟨a, fun Ls hLs => e2 Ls (hLs0 Ls hLs), ?_, fun hn => ?_⟩
    · rw [heq]
      have := h2
      refine ⟨by simpa using hA0, fun g => ?_, ?_⟩
      · rw [Rand.expect_bind, h2.2.1, List.map_map, List.map_map, List.length_map, List.length_map]
        congr 2
        refine List.map_congr_left fun Ls hLs => ?_
        rw [Function.comp_apply, e1 Ls (hLs0 Ls hLs)]
        rfl
      · refine h2.2.2.bind fun ms hms => ?_
        obtain ⟨Ls, hLs, rfl⟩ := List.mem_map.mp hms
        rw [e1 Ls (hLs0 Ls hLs)]
        exact List.mem_map_of_mem (f := a) hLs
    · obtain ⟨Ls, rfl, e⟩ := h3 (hnear hn)
      refine ⟨Ls, List.mem_singleton_self _, ?_⟩
      rw [heq, e]
      change Rand.ofExcept (Knn.average' D _) = _
      rw [e1 Ls (hLs0 Ls (List.mem_singleton_self _))]
      rfl
  · refine ⟨_, Knn.simulate_eq hV r hA.some hA.known hne hcs'.known hd hN hcs hpos, ?_, ?_⟩
    · exact (Rand.always_true _).bind fun ms _ => Knn.samplesOf_length T _ ms
    · rw [Rand.expect_bind, h2.2.1, List.map_map, List.length_map]
      congr 2
      refine List.map_congr_left fun Ls hLs => ?_
      rw [Function.comp_apply, ← hlen, Knn.expect_samplesOf hA.nodup (hLs0 Ls hLs) (hgood Ls hLs)]
      congr 1
      exact List.map_congr_left fun S hSm => (Knn.total_box (hS S hSm)).symm
  · obtain ⟨Ls, rfl, -⟩ := h3 (hnear hn)
    rfl
  · rw [hex] at h4
    obtain ⟨Ls, h5, h6⟩ := h4 (by simpa only [far_perm hp] using hmany) ns
      (neighbors_perm hp.symm hns)
    exact ⟨Ls, h5, h6.imp fun _ _ h => locality_perm hqp h⟩

/-- **C66** Every answer of `logpdf` is the log of the average of the densities of the local models of K
neighbours of the evidence: rows with fewer than K nearer ones, each with a locality of the min(M, K) rows
nearest to it. -/
theorem C66_logpdf (hkd : Finds kd) (hV : Valid o) {r : Option Row} {T C Ev : Dict Col ℝ}
    (hA : Asked o r T.keys C Ev) (hT : Proper o T) :
    (Knn.logpdf kd o r (Mv.ofDict T) C []).Surely fun a => ∃ Ls,
      Neighborhoods o (Spec.Knn.exemplars o (T.keys ++ Ev.keys)) (T.keys ++ Ev.keys) Ev Ls ∧
      IsLog a (mixture o Ls T) := by
  obtain ⟨A, -, h2, h3, -, -, -⟩ := knn_core hkd hV hA
  obtain ⟨a, e1, e2, -⟩ := h3 T rfl hT
  refine e2.2.2.mono fun x hx => ?_
  obtain ⟨Ls, hLs, rfl⟩ := List.mem_map.mp hx
  exact ⟨Ls, h2 Ls hLs, e1 Ls hLs⟩

open Classical in
theorem nearest_unique {R : List Row} {Ev : Dict Col ℝ} {N ns : List Row} (hN : Nearest o R Ev N)
    (hn : Neighbors o R Ev ns) : ns.Perm N := by
  refine (List.subperm_of_subset hn.nodup fun n hmem => ?_).perm_of_length_le
    (by rw [hn.length, hN.length])
  by_contra hnot
  have hall : ∀ m ∈ N, far o Ev m < far o Ev n := fun m hm => hN.near m hm n (hn.rows n hmem) hnot
  have hsub : N.Subperm (R.filter fun s => far o Ev s < far o Ev n) :=
    List.subperm_of_subset hN.nodup fun m hm =>
      List.mem_filter.mpr ⟨hN.rows m hm, decide_eq_true (hall m hm)⟩
  have h1 := hsub.length_le
  have h2 := hn.near n hmem
  rw [← List.countP_eq_length_filter, hN.length] at h1
  omega

/-- **C66** If K rows are nearer to the evidence than all the others, then `logpdf` always gives the same
answer: the log of the average of the densities of the local models of these rows. -/
theorem C66_nearest_partial (hkd : Finds kd) (hV : Valid o) {r : Option Row} {T C Ev : Dict Col ℝ}
    (hA : Asked o r T.keys C Ev) (hT : Proper o T) {N : List Row}
    (hN : Nearest o (Spec.Knn.exemplars o (T.keys ++ Ev.keys)) Ev N) :
    ∃ a ns Ls, Knn.logpdf kd o r (Mv.ofDict T) C [] = .pure a ∧ ns.Perm N ∧
      List.Forall₂ (Locality o (Spec.Knn.exemplars o (T.keys ++ Ev.keys)) (T.keys ++ Ev.keys)) ns Ls ∧
      IsLog a (mixture o Ls T) := by
  obtain ⟨A, -, h2, h3, -, -, -⟩ := knn_core hkd hV hA
  obtain ⟨a, e1, -, e3⟩ := h3 T rfl hT
  obtain ⟨Ls, hLs, e⟩ := e3 ⟨N, hN⟩
  obtain ⟨ns, n1, n2⟩ := h2 Ls hLs
  exact ⟨a Ls, ns, Ls, e, nearest_unique hN n1, n2, e1 Ls hLs⟩

/-! ### The distribution -/

theorem total_congr_proper {T : List Col} {f g : Dict Col ℝ → ℝ}
    (h : ∀ d : Dict Col ℝ, d.keys = T → Proper o d → f d = g d) :
    Spec.Kde.total (typ o) T f = Spec.Kde.total (typ o) T g := by
  induction T generalizing f g with
  | nil => exact h [] rfl fun p hp => by cases hp
  | cons q T ih =>
    unfold Spec.Kde.total
    have key : ∀ x, Kde.Sensible (typ o q) x →
        Spec.Kde.total (typ o) T (fun d => f ((q, x) :: d))
          = Spec.Kde.total (typ o) T fun d => g ((q, x) :: d) := fun x hx => by
      refine ih fun d hd hp => h _ ?_ ?_
      · change q :: d.keys = _
        rw [hd]
      · intro p hp' k hk
        rcases List.mem_cons.mp hp' with rfl | hm
        · exact hx k hk
        · exact hp p hm k hk
    unfold Spec.Kde.over
    cases hty : typ o q with
    | numerical =>
      simp only
      congr 1
      funext x
      exact key x fun k hk => by rw [hty] at hk; cases hk
    | nominal k =>
      simp only
      refine Finset.sum_congr rfl fun i hi => key i fun k' hk => ?_
      rw [hty] at hk
      cases hk
      exact ⟨i, Finset.mem_range.mp hi, rfl⟩

open Classical in
/-- The sum of an average of mixtures over a box. -/
theorem total_average {T : List Col} (A : List (List (List Row))) {S : Col → Set ℝ}
    (hS : ∀ q, MeasurableSet (S q)) :
    Spec.Kde.total (typ o) T
        (fun d => (A.map fun Ls => mixture o Ls d).sum / A.length * if Mv.InBox T S d then 1 else 0)
      = (A.map fun Ls => Spec.Kde.total (typ o) T
          fun d => mixture o Ls d * if Mv.InBox T S d then 1 else 0).sum / A.length := by
  set W : List (ℝ × List Row) := A.flatMap fun Ls =>
    Ls.map fun L => (((A.length : ℝ))⁻¹ * ((Ls.length : ℝ))⁻¹, L) with hW
  have hsum : ∀ F : List Row → ℝ, (W.map fun p => p.1 * F p.2).sum
      = (A.map fun Ls => (Ls.map F).sum / (Ls.length : ℝ)).sum / (A.length : ℝ) := by
    intro F
    rw [hW, List.map_flatMap, List.flatMap_def, List.sum_flatten, List.map_map, div_eq_mul_inv, ← List.sum_map_mul_right]
    congr 1
    refine List.map_congr_left fun Ls _ => ?_
    rw [Function.comp_apply, List.map_map]
    change (Ls.map fun L => ((A.length : ℝ))⁻¹ * ((Ls.length : ℝ))⁻¹ * F L).sum = _
    rw [List.sum_map_mul_left]
    ring
  have key := Kde.total_mixture (typ := typ o) (T := T) W (fun p => p.1)
    (φ := fun p q x => localDensity (typ o q) (values o p.2 q) x * if x ∈ S q then 1 else 0)
    fun p _ q _ => Knn.summable_localDensity _ _ (hS q)
  have e2 := hsum (Knn.boxIn o T S)
  unfold Knn.boxIn at e2
  rw [e2] at key
  rw [List.map_congr_left fun Ls _ => Knn.total_box (o := o) (T := T) (Ls := Ls) hS]
  refine Eq.trans (Kde.total_congr fun d hd => ?_) key
  have hbox : (if Mv.InBox T S d then (1 : ℝ) else 0)
      = (d.map fun p => if p.2 ∈ S p.1 then (1 : ℝ) else 0).prod := by
    rw [show Mv.InBox T S d ↔ ∀ p ∈ d, p.2 ∈ S p.1 from ⟨fun hh => hh.2, fun hh => ⟨hd, hh⟩⟩]
    clear hd
    induction d with
    | nil => simp
    | cons p t ih =>
      rw [List.map_cons, List.prod_cons, ← ih, List.forall_mem_cons]
      by_cases h1 : p.2 ∈ S p.1
      · simp [h1]
      · simp [h1]
  have e3 := hsum (Knn.dens o d)
  rw [show (A.map fun Ls => mixture o Ls d).sum / (A.length : ℝ)
    = (W.map fun p => p.1 * Knn.dens o d p.2).sum from e3.symm, ← List.sum_map_mul_right]
  congr 1
  refine List.map_congr_left fun p _ => ?_
  rw [mul_assoc]
  congr 1
  unfold Knn.dens
  rw [hbox, ← List.prod_map_mul]

theorem isLog_toReal {a : Fl} {p : ℝ} (hp : 0 ≤ p) (h : IsLog a p) : (mass a).toReal = p := by
  rw [h.2, ENNReal.toReal_ofReal hp]

/-- The expected density is the average over the neighbourhoods. -/
theorem density_average {r : Option Row} {C : Dict Col ℝ} {A : List (List (List Row))}
    {D : Dict Col ℝ} {a : List (List Row) → Fl} (h1 : ∀ Ls ∈ A, IsLog (a Ls) (mixture o Ls D))
    (h2 : Rand.Evenly (Knn.logpdf kd o r (Mv.ofDict D) C []) (A.map a)) :
    density kd o r C D = (A.map fun Ls => mixture o Ls D).sum / A.length := by
  unfold density
  rw [h2.2.1, List.map_map, List.length_map]
  congr 2
  exact List.map_congr_left fun Ls hLs => isLog_toReal (mixture_nonneg _ _) (h1 Ls hLs)

open Classical in
/-- **C66** `simulate` samples from the distribution whose density `logpdf` reports on average: the
probability that a sample lies in a box is the sum of the density over the box. -/
theorem C66_simulate (hkd : Finds kd) (hV : Valid o) {r : Option Row} {T : List Col}
    {C Ev : Dict Col ℝ} (hA : Asked o r T C Ev) {S : Col → Set ℝ} (hS : ∀ q, MeasurableSet (S q)) :
    (Knn.simulate kd o r T C [] none).prob (fun a => ∃ d, a = .inl d ∧ Mv.InBox T S d)
      = Spec.Kde.total (typ o) T fun d => if Mv.InBox T S d then density kd o r C d else 0 := by
  obtain ⟨A, -, -, h3, h4, -, -⟩ := knn_core hkd hV hA
  obtain ⟨m, m1, m2, m3⟩ := h4 none [S] (by simp) (by simpa using hS) rfl
  unfold Rand.prob
  rw [m1, Rand.expect_bind, Rand.expect_always m2
    (h := Rand.prodFn ([S].map fun S d => if Mv.InBox T S d then 1 else 0)), m3]
  · simp only [List.map_cons, List.map_nil, List.prod_cons, List.prod_nil, mul_one]
    rw [← total_average A hS]
    refine total_congr_proper fun d hd hp => ?_
    obtain ⟨a, a1, a2, -⟩ := h3 d hd hp
    rw [density_average a1 a2]
    split <;> ring
  · intro l hl
    obtain ⟨d, rfl⟩ := List.length_eq_one_iff.mp hl
    change (if _ then (1 : ℝ) else 0) = _
    rw [List.map_cons, Rand.prodFn_cons]
    simp [Rand.prodFn]

/-- **C66** The density that `logpdf` reports on average adds up to one over the values of the targets. -/
theorem C66_normalised (hkd : Finds kd) (hV : Valid o) {r : Option Row} {T : List Col}
    {C Ev : Dict Col ℝ} (hA : Asked o r T C Ev) :
    Spec.Kde.total (typ o) T (density kd o r C) = 1 := by
  classical
  obtain ⟨A, hA0, h2, h3, -, -, -⟩ := knn_core hkd hV hA
  have h := total_average (o := o) (T := T) A (S := fun _ => Set.univ) fun _ => MeasurableSet.univ
  have e : Spec.Kde.total (typ o) T (density kd o r C)
      = Spec.Kde.total (typ o) T (fun d => (A.map fun Ls => mixture o Ls d).sum / A.length
          * if Mv.InBox T (fun _ => Set.univ) d then 1 else 0) :=
    total_congr_proper fun d hd hp => by
      obtain ⟨a, a1, a2, -⟩ := h3 d hd hp
      rw [density_average a1 a2, if_pos ⟨hd, fun _ _ => Set.mem_univ _⟩, mul_one]
  rw [e, h]
  have h1 : ∀ Ls ∈ A, Spec.Kde.total (typ o) T
      (fun d => mixture o Ls d * if Mv.InBox T (fun _ => Set.univ) d then 1 else 0) = 1 := by
    intro Ls hLs
    have hne : (Ls.length : ℝ) ≠ 0 := by
      rw [(h2 Ls hLs).length]
      have := hV.K
      exact_mod_cast (by omega : o.K ≠ 0)
    rw [Knn.total_box fun _ => MeasurableSet.univ]
    have hb : ∀ L ∈ Ls, Knn.boxIn o T (fun _ => Set.univ) L = 1 := by
      intro L hL
      have hg := (h2 Ls hLs).good hV hA.known rfl L hL
      unfold Knn.boxIn
      rw [List.prod_eq_one]
      intro x hx
      obtain ⟨q, hq, rfl⟩ := List.mem_map.mp hx
      simp only [Set.mem_univ, if_true, mul_one]
      exact Knn.over_localDensity (hg.values hq).1 (hg.values hq).2
    rw [List.map_congr_left hb]
    simp [hne]
  rw [List.map_congr_left h1]
  have hlen : (A.length : ℝ) ≠ 0 := by exact_mod_cast (List.length_pos_of_ne_nil hA0).ne'
  simp [hlen]

open Classical in
/-- **C66** If K rows are nearer to the evidence than all the others, then the samples of `N=n` are
independent and each has that distribution. -/
theorem C66_many_partial (hkd : Finds kd) (hV : Valid o) {r : Option Row} {T : List Col}
    {C Ev : Dict Col ℝ} (hA : Asked o r T C Ev) {N : List Row}
    (hN : Nearest o (Spec.Knn.exemplars o (T ++ Ev.keys)) Ev N)
    {Ss : List (Col → Set ℝ)} (h0 : Ss ≠ []) (hS : ∀ S ∈ Ss, ∀ q, MeasurableSet (S q)) :
    (Knn.simulate kd o r T C [] (some Ss.length)).prob
        (fun a => ∃ l, a = .inr l ∧ List.Forall₂ (Mv.InBox T) Ss l)
      = (Ss.map fun S => Spec.Kde.total (typ o) T
          fun d => if Mv.InBox T S d then density kd o r C d else 0).prod := by
  obtain ⟨A, -, -, h3, h4, h5, -⟩ := knn_core hkd hV hA
  obtain ⟨Ls, rfl⟩ := List.length_eq_one_iff.mp (h5 ⟨N, hN⟩)
  obtain ⟨m, m1, m2, m3⟩ := h4 (some Ss.length) Ss (fun x hx => by
    cases hx
    exact_mod_cast List.length_pos_of_ne_nil h0) hS (by simp)
  unfold Rand.prob
  rw [m1, Rand.expect_bind]
  rw [Rand.expect_always m2 (h := Rand.prodFn (Ss.map fun S d => if Mv.InBox T S d then 1 else 0)), m3]
  · simp only [List.map_cons, List.map_nil, List.sum_cons, List.sum_nil, add_zero,
      List.length_singleton, Nat.cast_one, div_one]
    congr 1
    refine List.map_congr_left fun S _ => total_congr_proper fun d hd hp => ?_
    obtain ⟨a, a1, a2, -⟩ := h3 d hd hp
    rw [density_average a1 a2]
    simp
  · intro l hl
    change (if ∃ l', (Sum.inr l : Dict Col ℝ ⊕ List (Dict Col ℝ)) = .inr l' ∧
        List.Forall₂ (Mv.InBox T) Ss l' then (1 : ℝ) else 0) = _
    rw [show (∃ l', (Sum.inr l : Dict Col ℝ ⊕ List (Dict Col ℝ)) = .inr l' ∧
        List.Forall₂ (Mv.InBox T) Ss l') ↔ List.Forall₂ (Mv.InBox T) Ss l from
      ⟨fun ⟨l', e, h⟩ => by cases e; exact h, fun h => ⟨l, rfl, h⟩⟩]
    have hl' : l.length = Ss.length := by simpa using hl
    clear h4 hS m1 m2 m3 hl h0
    induction Ss generalizing l with
    | nil =>
      obtain rfl := List.length_eq_zero_iff.mp hl'
      simp [Rand.prodFn]
    | cons S Ss ih =>
      cases l with
      | nil => simp at hl'
      | cons d l =>
        rw [List.map_cons, Rand.prodFn_cons, ← ih l (by simpa using hl'), List.forall₂_cons]
        by_cases hb : Mv.InBox T S d
        · simp [hb]
        · simp [hb]

open Classical in
/-- **C66** If more than K rows have fewer than K nearer ones, then any K of them may be the neighbours:
`logpdf` gives the answer for them with a positive probability. -/
theorem C66_ties (hkd : Finds kd) (hV : Valid o) {r : Option Row} {T C Ev : Dict Col ℝ}
    (hA : Asked o r T.keys C Ev) (hT : Proper o T) {R : List Row}
    (hR : R = Spec.Knn.exemplars o (T.keys ++ Ev.keys))
    (hmany : o.K < R.countP fun n => (R.countP fun s => far o Ev s < far o Ev n) < o.K)
    {ns : List Row} (hns : Neighbors o R Ev ns) :
    ∃ a Ls, List.Forall₂ (Locality o R (T.keys ++ Ev.keys)) ns Ls ∧ IsLog a (mixture o Ls T) ∧
      0 < (Knn.logpdf kd o r (Mv.ofDict T) C []).prob (· = a) := by
  subst hR
  obtain ⟨A, hA0, -, h3, -, -, h6⟩ := knn_core hkd hV hA
  obtain ⟨Ls, hLs, hf⟩ := h6 hmany ns hns
  obtain ⟨a, e1, e2, -⟩ := h3 T rfl hT
  refine ⟨a Ls, Ls, hf, e1 Ls hLs, ?_⟩
  unfold Rand.prob
  rw [e2.2.1]
  refine div_pos ?_ (by rw [List.length_map]; exact_mod_cast List.length_pos_of_ne_nil hA0)
  have hnn : ∀ x ∈ (A.map a).map (fun x => if x = a Ls then (1 : ℝ) else 0), 0 ≤ x := by
    intro x hx
    obtain ⟨y, -, rfl⟩ := List.mem_map.mp hx
    split <;> norm_num
  have hmem : (1 : ℝ) ∈ (A.map a).map (fun x => if x = a Ls then (1 : ℝ) else 0) :=
    List.mem_map.mpr ⟨a Ls, List.mem_map_of_mem hLs, if_pos rfl⟩
  exact lt_of_lt_of_le one_pos (List.single_le_sum hnn _ hmem)

/-! ### Queries without evidence -/

theorem knn_simulateOne (hV : Valid o) (r : Option Row) (T : List Col) {C : Dict Col ℝ}
    (hC : C.keys.Nodup) (h0 : C ≠ []) :
    Knn.simulate kd o r T C [] none = (Knn.simulateOne kd o r T C).bind fun d => .pure (.inl d) := by
  obtain ⟨cs, hcs, hE⟩ := MvRows.populate_ok hV.toFull r T hC
  have hne : cs ≠ [] := by
    rintro rfl
    obtain ⟨p, hp⟩ := List.exists_mem_of_ne_nil _ h0
    have := hE.get p.1
    rw [Dict.get?_of_mem hC hp] at this
    cases this
  unfold Knn.simulate Knn.simulateOne
  rw [if_neg (by simp), hcs]
  change Rand.bind (Rand.ofExcept (o.validate T cs (some 1))) _
    = Rand.bind (Rand.bind (Rand.ofExcept (o.validate T cs (some 1))) _) _
  rw [Rand.bind_assoc]
  congr 1
  funext _
  rw [if_pos (by simpa using hne), Rand.bind_assoc]
  rfl

theorem knn_update (d e : Dict Col ℝ) (h : (d ++ e).keys.Nodup) : Dict.update d e = d ++ e := by
  induction e generalizing d with
  | nil => simp [Dict.update]
  | cons p e ih =>
    obtain ⟨k, v⟩ := p
    have hk : d.get? k = none := by
      rw [Dict.get?_eq_none_iff]
      unfold Dict.keys at h
      rw [List.map_append, List.nodup_append] at h
      intro hm
      exact h.2.2 k hm k (by simp) rfl
    have h2 : Dict.keys ((d ++ [(k, v)]) ++ e) |>.Nodup := by simpa using h
    change Dict.update (d.set k v) e = d ++ (k, v) :: e
    rw [Dict.set_of_not_mem v hk, ih _ h2]
    simp

theorem knn_update_nil {e : Dict Col ℝ} (h : e.keys.Nodup) : Dict.update [] e = e := by
  simpa using knn_update [] e h

theorem knn_cells_keys (s : Row) (qs : List Col) : (cellsOf o s qs).keys = qs := by
  unfold cellsOf Dict.keys
  rw [List.map_map]
  exact List.map_id _

open Classical in
/-- `simulate` without evidence draws a row, and then a sample given the cells `dummy` of this row. -/
theorem knn_fallback (hV : Valid o) {r : Option Row} {T : List Col} (hB : Bare o r T)
    {N : Option Int} (hpos : ∀ x, N = some x → 0 < x) {dummy rest : List Col}
    (hd : dummy = if T.length = o.outputs.length then T.take 1
      else o.outputs.filter fun q => !T.contains q)
    (hr : rest = if T.length = o.outputs.length then T.drop 1 else T)
    (hnd : dummy.Nodup) (hdk : ∀ q ∈ dummy, q ∈ o.outputs)
    (hR : Spec.Knn.exemplars o dummy ≠ []) {gs : List (Dict Col ℝ → ℝ)}
    (hgs : gs.length = (N.getD 1).toNat) :
    ∃ m : Rand (List (Dict Col ℝ)),
      Knn.simulate kd o r T [] [] N = (m.bind fun l => match N with
        | none => .pure (.inl (l.headD []))
        | some _ => .pure (.inr l)) ∧
      Rand.Always (fun l => l.length = (N.getD 1).toNat) m ∧
      Rand.expect (Rand.prodFn gs) m
        = (gs.map fun g => ((Spec.Knn.exemplars o dummy).map fun s =>
            Rand.expect (fun d => g (if T.length = o.outputs.length
              then Dict.update d (cellsOf o s dummy) else d))
              (Knn.simulateOne kd o r rest (cellsOf o s dummy))).sum
            / (Spec.Knn.exemplars o dummy).length).prod := by
  obtain ⟨cs, hcs, hE⟩ := MvRows.populate_ok hV.toFull r T (C := []) List.nodup_nil
  obtain rfl : cs = [] := List.perm_nil.mp (hE.perm hB.evidence)
  have hmerged : ¬ (T.length = o.outputs.length ∧ (o.outputs.filter fun q => !T.contains q) ≠ []) := by
    rintro ⟨h1, h2⟩
    apply h2
    rw [List.filter_eq_nil_iff]
    intro q hq
    have hp : T.Perm o.outputs := (List.subperm_of_subset hB.nodup hB.known).perm_of_length_le
      (by omega)
    simpa using hp.mem_iff.mpr hq
  have hzip' : ∀ s, dummy.zip (dummy.map (Knn.val o s)) = cellsOf o s dummy := by
      intro s
      unfold cellsOf
      clear hd hR hnd hdk
      induction dummy with
      | nil => rfl
      | cons q t ih => rw [List.map_cons, List.map_cons, List.zip_cons_cons, ih]; rfl
  have hzip : ∀ s, Dict.update [] (dummy.zip (dummy.map (Knn.val o s))) = cellsOf o s dummy := by
    intro s
    rw [hzip']
    exact knn_update_nil (show Dict.WF _ from by
      change (cellsOf o s dummy).keys.Nodup
      rw [knn_cells_keys]; exact hnd)
  refine ⟨Knn.simulateFallback kd o r T (N.getD 1).toNat, ?_, ?_, ?_⟩
  · unfold Knn.simulate
    rw [if_neg (by simp), hcs]
    change Rand.bind (Rand.ofExcept (o.validate T [] (some (N.getD 1)))) _ = _
    rw [Knn.validate_ok hV hB.some hB.known (fun q hq => by cases hq) (fun q _ hq => by cases hq)
      hB.enough (by
        intro x hx
        cases hx
        cases N with
        | none => simp
        | some y => exact hpos y rfl)]
    rfl
  all_goals
    unfold Knn.simulateFallback
    simp only
    rw [if_neg hmerged, ← hd, ← hr, Knn.dataset_ok hV hdk]
  · change Rand.Always _ (Rand.bind (Rand.traverse _ _) _)
    exact ((Rand.always_traverse _)).bind fun is his =>
      (Rand.always_traverse _).mono fun bs hbs => by rw [hbs, his, List.length_range]
  · change Rand.expect _ (Rand.bind (Rand.traverse _ _) _) = _
    rw [List.length_map, Rand.expect_bind, funext fun is => Rand.expect_traverse _ gs is, ← hgs]
    rw [show gs.length = (gs.map fun (g : Dict Col ℝ → ℝ) (i : Nat) => Rand.expect g
      ((Knn.simulateOne kd o r rest (Dict.update [] (dummy.zip
        (((Spec.Knn.exemplars o dummy).map fun r => dummy.map (Knn.val o r)).getD i [])))).bind fun s =>
      .pure (if T.length = o.outputs.length then Dict.update s (dummy.zip
        (((Spec.Knn.exemplars o dummy).map fun r => dummy.map (Knn.val o r)).getD i [])) else s))).length
      by rw [List.length_map]]
    refine (Rand.expect_uniforms hR _ (gs.map fun g s => Rand.expect (fun d => g
      (if T.length = o.outputs.length then Dict.update d (cellsOf o s dummy) else d))
        (Knn.simulateOne kd o r rest (cellsOf o s dummy))) ?_).trans ?_
    · rw [List.forall₂_map_left_iff, List.forall₂_map_right_iff, List.forall₂_same]
      intro g _ i hi
      beta_reduce
      rw [List.getD_eq_getElem _ _ (by simpa using hi), List.getElem_map, hzip, Rand.expect_bind, hzip']
      rfl
    · rw [List.map_map]
      rfl

open Classical in
theorem knn_one (hV : Valid o) (r : Option Row) (T : List Col) {C : Dict Col ℝ}
    (hC : C.keys.Nodup) (h0 : C ≠ []) (E : Dict Col ℝ → Prop) :
    (Knn.simulate kd o r T C [] none).prob (fun a => ∃ d, a = .inl d ∧ E d)
      = Rand.expect (fun d => if E d then 1 else 0) (Knn.simulateOne kd o r T C) := by
  unfold Rand.prob
  rw [knn_simulateOne hV r T hC h0, Rand.expect_bind]
  congr 1
  funext d
  change (if ∃ d', (Sum.inl d : Dict Col ℝ ⊕ List (Dict Col ℝ)) = .inl d' ∧ E d' then (1 : ℝ) else 0) = _
  rw [show (∃ d', (Sum.inl d : Dict Col ℝ ⊕ List (Dict Col ℝ)) = .inl d' ∧ E d') ↔ E d from
    ⟨fun ⟨d', e, h⟩ => by cases e; exact h, fun h => ⟨d, rfl, h⟩⟩]

open Classical in
theorem prodFn_events (Es : List (Dict Col ℝ → Prop)) (l : List (Dict Col ℝ)) :
    Rand.prodFn (Es.map fun E d => if E d then (1 : ℝ) else 0) l
      = if List.Forall₂ (fun E d => E d) Es l then 1 else 0 := by
  induction Es generalizing l with
  | nil => cases l <;> simp [Rand.prodFn]
  | cons E Es ih =>
    cases l with
    | nil => simp [Rand.prodFn]
    | cons d l =>
      rw [List.map_cons, Rand.prodFn_cons, ih]
      simp only [List.forall₂_cons]
      by_cases h : E d <;> simp [h]

open Classical in
/-- From the samples to the answers of `simulate`. -/
theorem knn_answers {m : Rand (List (Dict Col ℝ))} {M : Rand (Dict Col ℝ ⊕ List (Dict Col ℝ))}
    {n : Nat} (hM : M = m.bind fun l => .pure (.inr l)) (E : List (Dict Col ℝ → Prop)) :
    M.prob (fun a => ∃ l, a = .inr l ∧ List.Forall₂ (fun E d => E d) E l)
      = Rand.expect (Rand.prodFn (E.map fun E d => if E d then (1 : ℝ) else 0)) m := by
  unfold Rand.prob
  rw [hM, Rand.expect_bind]
  congr 1
  funext l
  rw [prodFn_events]
  change (if ∃ l', (Sum.inr l : Dict Col ℝ ⊕ List (Dict Col ℝ)) = .inr l' ∧
    List.Forall₂ (fun E d => E d) E l' then (1 : ℝ) else 0) = _
  rw [show (∃ l', (Sum.inr l : Dict Col ℝ ⊕ List (Dict Col ℝ)) = .inr l' ∧
    List.Forall₂ (fun E d => E d) E l') ↔ List.Forall₂ (fun E d => E d) E l from
    ⟨fun ⟨l', e, h⟩ => by cases e; exact h, fun h => ⟨l, rfl, h⟩⟩]
  split <;> rfl

open Classical in
theorem knn_answer {m : Rand (List (Dict Col ℝ))} {M : Rand (Dict Col ℝ ⊕ List (Dict Col ℝ))}
    (hM : M = m.bind fun l => .pure (.inl (l.headD [])))
    (hl : Rand.Always (fun l => l.length = 1) m) (E : Dict Col ℝ → Prop) :
    M.prob (fun a => ∃ d, a = .inl d ∧ E d)
      = Rand.expect (Rand.prodFn ([E].map fun E d => if E d then (1 : ℝ) else 0)) m := by
  unfold Rand.prob
  rw [hM, Rand.expect_bind]
  refine Rand.expect_always hl fun l h => ?_
  obtain ⟨d, rfl⟩ := List.length_eq_one_iff.mp h
  rw [prodFn_events]
  simp only [List.forall₂_cons]
  change (if ∃ d', (Sum.inl d : Dict Col ℝ ⊕ List (Dict Col ℝ)) = .inl d' ∧ E d' then (1 : ℝ) else 0) = _
  rw [show (∃ d', (Sum.inl d : Dict Col ℝ ⊕ List (Dict Col ℝ)) = .inl d' ∧ E d') ↔ E d from
    ⟨fun ⟨d', e, h⟩ => by cases e; exact h, fun h => ⟨d, rfl, h⟩⟩]
  simp

theorem knn_cells_ne (s : Row) {qs : List Col} (h : qs ≠ []) : cellsOf o s qs ≠ [] := by
  unfold cellsOf
  simpa using h

/-- **C66** Without evidence and with other variables than the targets, `simulate` draws a row without
missing cells among the other variables, and then a sample given these cells of that row.  The samples of
`N=n` are independent. -/
theorem C66_fallback (hV : Valid o) {r : Option Row} {T : List Col} (hB : Bare o r T)
    {others : List Col} (ho : others = o.outputs.filter fun q => q ∉ T) (hne : others ≠ [])
    (hR : Spec.Knn.exemplars o others ≠ []) :
    (∀ E : Dict Col ℝ → Prop, (Knn.simulate kd o r T [] [] none).prob (fun a => ∃ d, a = .inl d ∧ E d)
      = ((Spec.Knn.exemplars o others).map fun s =>
          (Knn.simulate kd o r T (cellsOf o s others) [] none).prob fun a => ∃ d, a = .inl d ∧ E d).sum
        / (Spec.Knn.exemplars o others).length) ∧
    ∀ Es : List (Dict Col ℝ → Prop), Es ≠ [] →
      (Knn.simulate kd o r T [] [] (some Es.length)).prob
          (fun a => ∃ l, a = .inr l ∧ List.Forall₂ (fun E d => E d) Es l)
        = (Es.map fun E =>
            (Knn.simulate kd o r T [] [] none).prob fun a => ∃ d, a = .inl d ∧ E d).prod := by
  classical
  have hlen : ¬ T.length = o.outputs.length := by
    intro h
    apply hne
    rw [ho, List.filter_eq_nil_iff]
    intro q hq
    have hp : T.Perm o.outputs := (List.subperm_of_subset hB.nodup hB.known).perm_of_length_le
      (by omega)
    simpa using hp.mem_iff.mpr hq
  have hd : others = if T.length = o.outputs.length then T.take 1
      else o.outputs.filter fun q => !T.contains q := by
    rw [if_neg hlen, ho]
    refine List.filter_congr fun q _ => ?_
    simp
  have hr : T = if T.length = o.outputs.length then T.drop 1 else T := by rw [if_neg hlen]
  have hnd : others.Nodup := ho ▸ hV.nodup.filter _
  have hk : ∀ q ∈ others, q ∈ o.outputs := fun q hq => by
    rw [ho] at hq; exact (List.mem_filter.mp hq).1
  have hone : ∀ E : Dict Col ℝ → Prop,
      (Knn.simulate kd o r T [] [] none).prob (fun a => ∃ d, a = .inl d ∧ E d)
      = ((Spec.Knn.exemplars o others).map fun s =>
          (Knn.simulate kd o r T (cellsOf o s others) [] none).prob fun a => ∃ d, a = .inl d ∧ E d).sum
        / (Spec.Knn.exemplars o others).length := by
    intro E
    obtain ⟨m, m1, m2, m3⟩ := knn_fallback (kd := kd) hV hB (N := none) (by simp) hd hr hnd hk hR
      (gs := [E].map fun E d => if E d then (1 : ℝ) else 0) rfl
    rw [knn_answer m1 m2, m3, List.map_map, List.map_singleton, List.prod_singleton]
    refine congrArg (fun x => List.sum x / _) (List.map_congr_left fun s _ => ?_)
    rw [knn_one hV r T (by rw [knn_cells_keys]; exact hnd) (knn_cells_ne s hne)]
    simp only [if_neg hlen]
  refine ⟨hone, fun Es h0 => ?_⟩
  obtain ⟨m, m1, m2, m3⟩ := knn_fallback (kd := kd) hV hB (N := some Es.length) (fun x hx => by
    cases hx
    exact_mod_cast List.length_pos_of_ne_nil h0) hd hr hnd hk hR
    (gs := Es.map fun E d => if E d then (1 : ℝ) else 0) (by simp)
  rw [knn_answers (n := 0) m1, m3, List.map_map]
  congr 1
  refine List.map_congr_left fun E _ => ?_
  rw [hone, Function.comp_apply]
  refine congrArg (fun x => List.sum x / _) (List.map_congr_left fun s _ => ?_)
  rw [knn_one hV r T (by rw [knn_cells_keys]; exact hnd) (knn_cells_ne s hne)]
  simp only [if_neg hlen]

/-- **C66** Without evidence and with all the variables as targets, `simulate` draws a value of the first
target from the rows, and then the other targets given this value.  The samples of `N=n` are
independent. -/
theorem C66_fallback_all (hV : Valid o) {r : Option Row} {q : Col} {T : List Col}
    (hB : Bare o r (q :: T)) (hall : ∀ c ∈ o.outputs, c ∈ q :: T)
    (hR : Spec.Knn.exemplars o [q] ≠ []) :
    (∀ E : Dict Col ℝ → Prop,
      (Knn.simulate kd o r (q :: T) [] [] none).prob (fun a => ∃ d, a = .inl d ∧ E d)
      = ((Spec.Knn.exemplars o [q]).map fun s =>
          (Knn.simulate kd o r T (cellsOf o s [q]) [] none).prob fun a =>
            ∃ d, a = .inl d ∧ E (d.set q ((cell o s q).getD 0))).sum
        / (Spec.Knn.exemplars o [q]).length) ∧
    ∀ Es : List (Dict Col ℝ → Prop), Es ≠ [] →
      (Knn.simulate kd o r (q :: T) [] [] (some Es.length)).prob
          (fun a => ∃ l, a = .inr l ∧ List.Forall₂ (fun E d => E d) Es l)
        = (Es.map fun E =>
            (Knn.simulate kd o r (q :: T) [] [] none).prob fun a => ∃ d, a = .inl d ∧ E d).prod := by
  classical
  have hlen : (q :: T).length = o.outputs.length :=
    le_antisymm (List.subperm_of_subset hB.nodup hB.known).length_le
      (List.subperm_of_subset hV.nodup hall).length_le
  have hd : [q] = if (q :: T).length = o.outputs.length then (q :: T).take 1
      else o.outputs.filter fun c => !(q :: T).contains c := by rw [if_pos hlen]; rfl
  have hr : T = if (q :: T).length = o.outputs.length then (q :: T).drop 1 else (q :: T) := by
    rw [if_pos hlen]; rfl
  have hnd : [q].Nodup := List.nodup_singleton q
  have hk : ∀ c ∈ [q], c ∈ o.outputs := fun c hc => hB.known c (by
    rw [List.mem_singleton] at hc; exact hc ▸ List.mem_cons_self)
  have hne : [q] ≠ [] := by simp
  have hone : ∀ E : Dict Col ℝ → Prop,
      (Knn.simulate kd o r (q :: T) [] [] none).prob (fun a => ∃ d, a = .inl d ∧ E d)
      = ((Spec.Knn.exemplars o [q]).map fun s =>
          (Knn.simulate kd o r T (cellsOf o s [q]) [] none).prob fun a =>
            ∃ d, a = .inl d ∧ E (d.set q ((cell o s q).getD 0))).sum
        / (Spec.Knn.exemplars o [q]).length := by
    intro E
    obtain ⟨m, m1, m2, m3⟩ := knn_fallback (kd := kd) hV hB (N := none) (by simp) hd hr hnd hk hR
      (gs := [E].map fun E d => if E d then (1 : ℝ) else 0) rfl
    rw [knn_answer m1 m2, m3, List.map_map, List.map_singleton, List.prod_singleton]
    refine congrArg (fun x => List.sum x / _) (List.map_congr_left fun s _ => ?_)
    rw [knn_one hV r T (by rw [knn_cells_keys]; exact hnd) (knn_cells_ne s hne)]
    simp only [if_pos hlen]
    rfl
  refine ⟨hone, fun Es h0 => ?_⟩
  obtain ⟨m, m1, m2, m3⟩ := knn_fallback (kd := kd) hV hB (N := some Es.length) (fun x hx => by
    cases hx
    exact_mod_cast List.length_pos_of_ne_nil h0) hd hr hnd hk hR
    (gs := Es.map fun E d => if E d then (1 : ℝ) else 0) (by simp)
  rw [knn_answers (n := 0) m1, m3, List.map_map]
  congr 1
  refine List.map_congr_left fun E _ => ?_
  rw [hone, Function.comp_apply]
  refine congrArg (fun x => List.sum x / _) (List.map_congr_left fun s _ => ?_)
  rw [knn_one hV r T (by rw [knn_cells_keys]; exact hnd) (knn_cells_ne s hne)]
  simp only [if_pos hlen]
  rfl

/-! ### Refused queries -/

theorem knn_validate_error (T : List Col) (C : Dict Col ℝ) (n : Option Int) :
    o.validate T C n = .ok () ∨ o.validate T C n = .error .valueError := by
  unfold Knn.validate
  repeat' split
  all_goals first
    | exact .inl rfl
    | exact .inr rfl

theorem knn_validate_ok {T : List Col} {C : Dict Col ℝ} {n : Option Int}
    (h : o.validate T C n = .ok ()) : (∀ x, n = some x → 0 < x) ∧ (o.K : ℤ) ≤ o.rows.N ∧ T ≠ [] ∧
      (∀ q ∈ T, q ∈ o.outputs) ∧ (∀ q ∈ C.keys, q ∈ o.outputs) ∧ ∀ q ∈ T, q ∉ C.keys := by
  unfold Knn.validate at h
  split at h
  · cases h
  split at h
  · cases h
  split at h
  · cases h
  split at h
  · cases h
  split at h
  · cases h
  split at h
  · cases h
  next h1 h2 h3 h4 h5 h6 =>
  refine ⟨fun x hx => ?_, by omega, by simpa using h3, by simpa using h4, by simpa using h5,
    fun q hq hc => h6 (List.any_eq_true.mpr ⟨q, hq, (Dict.has_iff _ _).mpr hc⟩)⟩
  subst hx
  simpa using h1

theorem knn_find_refused (hV : Valid o) {T : List Col} (hT : ∀ q ∈ T, q ∈ o.outputs) {C : Dict Col ℝ}
    (hC : ∀ q ∈ C.keys, q ∈ o.outputs) (h : (Spec.Knn.exemplars o (T ++ C.keys)).length < o.K) :
    Knn.findNeighborhoods kd o T C = .raise .valueError := by
  unfold Knn.findNeighborhoods
  split
  · rfl
  rw [Knn.dataset_ok hV fun q hq => (List.mem_append.mp hq).elim (hT q) (hC q)]
  change (if _ then _ else _) = _
  rw [if_pos (by simpa using h)]

/-- **C66** `logpdf` raises ValueError for inputs, without evidence, with fewer than K rows or fewer than K
rows without missing cells, for no targets, unknown variables, targets that are constrained and missing
values. -/
theorem C66_logpdf_refused (hV : Valid o) (r : Option Row) (T : Vals) {C Ev : Dict Col ℝ}
    (hC : C.keys.Nodup) (hEv : Mv.Evidence o.outputs o.rows r T.keys C Ev) (inputs : List Col)
    (h : inputs ≠ [] ∨ Ev = [] ∨ o.rows.data.length < o.K ∨
      (Spec.Knn.exemplars o (T.keys ++ Ev.keys)).length < o.K ∨ T = [] ∨ (∃ q, (q, none) ∈ T) ∨
      (∃ q ∈ T.keys, q ∉ o.outputs) ∨ (∃ q ∈ C.keys, q ∉ o.outputs) ∨ ∃ q ∈ T.keys, q ∈ C.keys) :
    Knn.logpdf kd o r T C inputs = .raise .valueError := by
  unfold Knn.logpdf
  obtain ⟨cs, hcs, hE⟩ := MvRows.populate_ok hV.toFull r T.keys hC
  have hp := hE.perm hEv
  rw [hcs]
  change (if _ then _ else _) = _
  by_cases h1 : inputs = []
  swap
  · rw [if_pos (by simpa using h1)]
  rw [if_neg (by simpa using h1)]
  by_cases h2 : cs = []
  · rw [if_pos (by simpa using h2)]
  rw [if_neg (by simpa using h2)]
  rcases knn_validate_error (o := o) T.keys cs none with hv | hv
  swap
  · rw [hv]; rfl
  rw [hv]
  change (match Kde.noNan T with | none => _ | some ts => _) = _
  cases h3 : Kde.noNan T with
  | none => rfl
  | some ts =>
    simp only
    obtain ⟨-, v2, v3, v4, v5, v6⟩ := knn_validate_ok hv
    have hsub : ∀ q ∈ C.keys, q ∈ cs.keys := fun q hq => by
      rw [← Dict.get?_isSome_iff, hE.get, Option.isSome_or, (Dict.get?_isSome_iff _ _).mpr hq]
      rfl
    have hkeys : ts.keys = T.keys := by
      unfold Kde.noNan at h3
      clear v6 v4 v3 hv hp hE hcs hEv h
      induction T generalizing ts with
      | nil => cases h3; rfl
      | cons p T ih =>
        rw [List.mapM_cons] at h3
        obtain ⟨q, _ | v⟩ := p
        · cases h3
        · cases h4 : List.mapM (fun p : Col × Option ℝ => p.2.map fun v => (p.1, v)) T with
          | none => rw [h4] at h3; cases h3
          | some ts' =>
            rw [h4] at h3
            cases h3
            exact congrArg (q :: ·) (ih ts' h4)
    rcases h with h | h | h | h | h | ⟨q, h⟩ | ⟨q, hq, h⟩ | ⟨q, hq, h⟩ | ⟨q, hq, h⟩
    · exact absurd h1 h
    · exact absurd (List.perm_nil.mp (h ▸ hp)) h2
    · rw [hV.count] at v2
      omega
    · rw [knn_find_refused hV (by rw [hkeys]; exact v4) v5]
      · rfl
      · rw [hkeys, knn_exemplars_perm (o := o) (qs := T.keys ++ cs.keys) (ps := T.keys ++ Ev.keys) fun q =>
          (((List.Perm.refl T.keys).append (hp.map Prod.fst)).mem_iff (a := q))]
        exact h
    · rw [h] at v3
      exact absurd rfl v3
    · unfold Kde.noNan at h3
      rw [MvRows.mapM_none h rfl] at h3
      cases h3
    · exact absurd (v4 q hq) h
    · exact absurd (v5 q (hsub q hq)) h
    · exact absurd (hsub q h) (v6 q hq)

/-- **C66** `simulate` raises ValueError for a number of samples that is not positive, for inputs, with
fewer than K rows or, given evidence, fewer than K rows without missing cells, for no targets, unknown
variables and targets that are constrained. -/
theorem C66_simulate_refused (hV : Valid o) (r : Option Row) (T : List Col) {C Ev : Dict Col ℝ}
    (hC : C.keys.Nodup) (hEv : Mv.Evidence o.outputs o.rows r T C Ev) (inputs : List Col)
    (N : Option Int)
    (h : (∃ n, N = some n ∧ n ≤ 0) ∨ inputs ≠ [] ∨ o.rows.data.length < o.K ∨
      (Ev ≠ [] ∧ (Spec.Knn.exemplars o (T ++ Ev.keys)).length < o.K) ∨ T = [] ∨
      (∃ q ∈ T, q ∉ o.outputs) ∨ (∃ q ∈ C.keys, q ∉ o.outputs) ∨ ∃ q ∈ T, q ∈ C.keys) :
    Knn.simulate kd o r T C inputs N = .raise .valueError := by
  unfold Knn.simulate
  by_cases h1 : inputs = []
  swap
  · rw [if_pos (by simpa using h1)]
  rw [if_neg (by simpa using h1)]
  obtain ⟨cs, hcs, hE⟩ := MvRows.populate_ok hV.toFull r T hC
  have hp := hE.perm hEv
  rw [hcs]
  change Rand.bind (Rand.ofExcept (o.validate T cs (some (N.getD 1)))) _ = _
  rcases knn_validate_error (o := o) T cs (some (N.getD 1)) with hv | hv
  swap
  · rw [hv]; rfl
  rw [hv]
  obtain ⟨v1, v2, v3, v4, v5, v6⟩ := knn_validate_ok hv
  have hsub : ∀ q ∈ C.keys, q ∈ cs.keys := fun q hq => by
    rw [← Dict.get?_isSome_iff, hE.get, Option.isSome_or, (Dict.get?_isSome_iff _ _).mpr hq]
    rfl
  rcases h with ⟨n, rfl, hn⟩ | h | h | ⟨hne, h⟩ | h | ⟨q, hq, h⟩ | ⟨q, hq, h⟩ | ⟨q, hq, h⟩
  · have := v1 n rfl
    omega
  · exact absurd h1 h
  · rw [hV.count] at v2
    omega
  · change Rand.bind (if _ then _ else _) _ = _
    have h2 : cs ≠ [] := fun h0 => hne (List.nil_perm.mp (h0 ▸ hp))
    rw [if_pos (by simpa using h2)]
    unfold Knn.simulateGiven
    rw [knn_find_refused hV v4 v5]
    · rfl
    · rw [knn_exemplars_perm (o := o) (qs := T ++ cs.keys) (ps := T ++ Ev.keys) fun q =>
          (((List.Perm.refl T).append (hp.map Prod.fst)).mem_iff (a := q))]
      exact h
  · exact absurd h v3
  · exact absurd (v4 q hq) h
  · exact absurd (v5 q (hsub q hq)) h
  · exact absurd (hsub q h) (v6 q hq)

/-! ### Histories -/

theorem knn_inc (hV : Valid o) (r : Row) (obs ins : Vals) (ha : Allowed o (.inc r obs ins)) :
    Valid (o.incorporate r obs ins).state := by
  unfold Knn.incorporate MvRows.incorporate
  by_cases h1 : o.rows.data.has r
  · rw [if_pos h1]; exact hV
  rw [if_neg h1]
  split
  · exact hV
  split
  · exact hV
  split
  · exact hV
  split
  · exact hV
  have hnone : o.rows.data.get? r = none := by
    rw [← Dict.has_false_iff]; simpa using h1
  change Valid { o with rows := _ }
  refine ⟨⟨hV.nodup, ?_, ?_, ?_⟩, hV.types, hV.outputs, hV.K, hV.M, hV.nominal, ?_⟩
  · exact Dict.wf_set hV.keys _ _
  · change o.rows.N + 1 = ((o.rows.data.set r _).length : ℤ)
    rw [Dict.set_of_not_mem _ hnone, hV.count, List.length_append]
    push_cast
    rfl
  · intro r' vs hvs
    change (o.rows.data.set r _).get? r' = some vs at hvs
    rw [Dict.get?_set] at hvs
    split at hvs
    · cases hvs; exact List.length_map _
    · exact hV.full r' vs hvs
  · intro q hq k hk r' v hv
    change (((o.rows.data.set r _).get? r').bind fun vs => vs[o.outputs.idxOf q]?).join = some v at hv
    rw [Dict.get?_set] at hv
    split at hv
    · change ((o.outputs.map fun q => (obs.get? q).getD none)[o.outputs.idxOf q]?).join = some v at hv
      rw [inputRow_getElem o.outputs obs hq] at hv
      refine ha q hq k v hk ?_
      cases hg : obs.get? q with
      | none => rw [hg] at hv; cases hv
      | some w => rw [hg] at hv; exact congrArg some hv
    · exact hV.cells q hq k hk r' v hv

theorem knn_unc (hV : Valid o) (r : Row) : Valid (o.unincorporate r).state := by
  unfold Knn.unincorporate MvRows.unincorporate
  by_cases h1 : o.rows.data.has r
  · rw [if_pos h1]
    obtain ⟨vs, hvs⟩ := Option.isSome_iff_exists.mp h1
    change Valid { o with rows := _ }
    refine ⟨⟨hV.nodup, ?_, ?_, ?_⟩, hV.types, hV.outputs, hV.K, hV.M, hV.nominal, ?_⟩
    · exact Dict.wf_erase hV.keys _
    · change o.rows.N - 1 = ((o.rows.data.erase r).length : ℤ)
      have hl := Dict.length_erase hV.keys hvs
      rw [hV.count, hl]
      push_cast
      ring
    · intro r' vs' hvs'
      change (o.rows.data.erase r).get? r' = some vs' at hvs'
      by_cases hr : r' = r
      · subst hr; rw [Dict.get?_erase_self] at hvs'; cases hvs'
      · rw [Dict.get?_erase_ne _ hr] at hvs'; exact hV.full r' vs' hvs'
    · intro q hq k hk r' v hv
      change (((o.rows.data.erase r).get? r').bind fun vs => vs[o.outputs.idxOf q]?).join = some v at hv
      by_cases hr : r' = r
      · subst hr; rw [Dict.get?_erase_self] at hv; cases hv
      · rw [Dict.get?_erase_ne _ hr] at hv; exact hV.cells q hq k hk r' v hv
  · rw [if_neg h1]; exact hV

theorem knn_apply_schema (op : Knn.Op) : (o.apply op).state.outputs = o.outputs ∧
    (o.apply op).state.types = o.types := by
  cases op with
  | inc r obs ins =>
    change (o.incorporate r obs ins).state.outputs = _ ∧ (o.incorporate r obs ins).state.types = _
    unfold Knn.incorporate
    cases MvRows.incorporate o.outputs [] o.outputs o.rows r obs ins <;> exact ⟨rfl, rfl⟩
  | unc r =>
    change (o.unincorporate r).state.outputs = _ ∧ (o.unincorporate r).state.types = _
    unfold Knn.unincorporate
    cases MvRows.unincorporate o.rows r <;> exact ⟨rfl, rfl⟩

/-- **C66** After any history of calls that observe existing categories, accepted or refused, the
theorems of this file apply. -/
theorem C66_history (hV : Valid o) {ops : List Knn.Op} (ha : ∀ op ∈ ops, Allowed o op) :
    Valid (o.run ops) := by
  unfold Knn.run
  induction ops generalizing o with
  | nil => exact hV
  | cons op ops ih =>
    have hs := knn_apply_schema (o := o) op
    refine ih ?_ fun op' h' => ?_
    · have h0 := ha op List.mem_cons_self
      cases op with
      | inc r obs ins => exact knn_inc hV r obs ins h0
      | unc r => exact knn_unc hV r
    · have h0 := ha op' (List.mem_cons_of_mem _ h')
      have hty : ∀ q, typ (o.apply op).state q = typ o q := fun q => by
        unfold typ; rw [hs.1, hs.2]
      cases op' with
      | inc r obs ins =>
        intro q hq k v hk
        exact h0 q (by rwa [hs.1] at hq) k v (by rw [← hty]; exact hk)
      | unc r => trivial

/-- **C66** The constructor accepts at least two distinct outputs with as many types, each nominal one
with at least two categories, and positive K and M, which is K by default; and the theorems apply to what
it builds. -/
theorem C66_new {outputs : List Col} (h2 : 2 ≤ outputs.length) (hn : outputs.Nodup)
    {types : List KType} (hl : types.length = outputs.length)
    (hk : ∀ k, KType.nominal k ∈ types → 2 ≤ k) {K M : Nat} (hK : 1 ≤ K) (hM : 1 ≤ M)
    {M' : Option Int} (hM' : M' = some (M : Int) ∨ M' = none ∧ M = K) :
    ∃ o, Knn.new outputs [] (some (K : Int)) M' (types.map fun t => match t with
        | .numerical => .numeric
        | .nominal k => .nominal (some k)) = .ok o ∧
      Valid o ∧ o.outputs = outputs ∧ o.types = types ∧ o.K = K ∧ o.M = M ∧
      ∀ r, o.rows.data.get? r = none := by
  unfold Knn.new
  have hc : Net.collect Kde.typeOf (types.map fun t => match t with
        | .numerical => .numeric
        | .nominal k => .nominal (some k)) = .ok types := by
    clear hl hk
    induction types with
    | nil => rfl
    | cons t ts ih =>
      rw [List.map_cons, Net.collect, ih]
      cases t <;> rfl
  rw [if_neg (by simp), if_neg (by omega), if_neg (by rw [List.dedup_eq_self.mpr hn]; simp)]
  simp only
  rw [if_neg (by omega), if_neg (by simp [hl]), hc]
  have hMe : (M'.getD (K : Int)).toNat = M := by
    rcases hM' with rfl | ⟨rfl, rfl⟩ <;> simp
  refine ⟨_, rfl, ?_, rfl, rfl, by simp, hMe, fun r => rfl⟩
  refine ⟨⟨hn, List.nodup_nil, rfl, fun r vs h => by cases h⟩, hl, h2, by simpa using hK,
    by simpa only [hMe] using hM, fun q hq k ht => ?_, fun q hq k hk r v h => by cases h⟩
  have hlt : outputs.idxOf q < types.length := by
    rw [hl]; exact List.idxOf_lt_length_iff.mpr hq
  change types.getD (outputs.idxOf q) .numerical = _ at ht
  rw [List.getD_eq_getElem _ _ hlt] at ht
  exact hk k (ht ▸ List.getElem_mem hlt)

end Cgpm.Props
