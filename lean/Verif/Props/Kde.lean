import Verif.Lemmas.KdeLaw
import Verif.Lemmas.LogSpace

/-!
C65: `MultivariateKde` answers queries about the kernel density estimate of its rows.
-/
namespace Cgpm.Props
open Cgpm Cgpm.Spec Cgpm.Spec.Kde MeasureTheory

variable {o : Kde}

theorem kde_ne_zero (hV : Valid o) {qs : List Col} (hR : Spec.Kde.exemplars o qs ≠ []) :
    o.rows.N ≠ 0 := by
  intro h0
  have := hV.count
  rw [h0] at this
  have hdata : o.rows.data = [] := List.length_eq_zero_iff.mp (by exact_mod_cast this.symm)
  refine hR ?_
  unfold Spec.Kde.exemplars Mv.exemplars
  rw [hdata]
  rfl

theorem ofDict_keys (T : Dict Col ℝ) : (Mv.ofDict T).keys = T.keys := by
  unfold Mv.ofDict Dict.keys
  rw [List.map_map]
  rfl

theorem noNan_ofDict (T : Dict Col ℝ) : Kde.noNan (Mv.ofDict T) = some T := by
  unfold Kde.noNan Mv.ofDict
  rw [List.mapM_map]
  refine (MvRows.mapM_some (g := id) fun p _ => rfl).trans ?_
  rw [List.map_id]

/-- `logpdf` after its checks. -/
theorem kde_logpdf_eq (r : Option Row) {T C Ev : Dict Col ℝ}
    (hT : Mv.Assigns o.outputs T) (hne : T ≠ []) (hd : ∀ q ∈ T.keys, q ∉ Ev.keys)
    (hN : o.rows.N ≠ 0) (hEv : o.rows.populate o.outputs r T.keys C = .ok Ev) :
    o.logpdf r (Mv.ofDict T) C [] = (o.density T Ev).map Kde.npLog := by
  unfold Kde.logpdf
  rw [if_neg hN, ofDict_keys, hEv]
  simp only
  rw [if_neg (by simp), if_neg (by simpa [Mv.ofDict] using hne), noNan_ofDict]
  simp only
  rw [if_neg (by simpa using hT.known), if_neg (by
    rw [List.any_eq_true]
    rintro ⟨q, hq, h⟩
    exact hd q hq ((Dict.has_iff _ _).mp h))]

/-- **C65** `logpdf` is the log of the conditional density of the kernel density estimate, if every
category of the variables of the query occurs among the exemplars, and, without evidence, the exemplars
outnumber the targets. -/
theorem C65_logpdf_partial (hV : Valid o) (r : Option Row) {T C Ev : Dict Col ℝ}
    (hT : Mv.Assigns o.outputs T) (hne : T ≠ []) (hC : Mv.Assigns o.outputs C)
    (hd : ∀ q ∈ T.keys, q ∉ C.keys) (hEv : Mv.Evidence o.outputs o.rows r T.keys C Ev)
    (hs : Seen o (T.keys ++ Ev.keys) (T.keys ++ Ev.keys))
    (hR : Spec.Kde.exemplars o (T.keys ++ Ev.keys) ≠ [])
    (hn : Ev = [] → T.length < (Spec.Kde.exemplars o T.keys).length) :
    o.logpdf r (Mv.ofDict T) C [] = .ok (.fin (Real.log (mixture o T Ev))) ∧
      0 < mixture o T Ev := by
  obtain ⟨cs, hcs, hE⟩ := MvRows.populate_ok hV.toFull r T.keys hC.nodup
  have hp : cs.Perm Ev := hE.perm hEv
  have hmem : ∀ q, q ∈ T.keys ++ cs.keys ↔ q ∈ T.keys ++ Ev.keys := fun q =>
    ((List.Perm.refl _).append (hp.map Prod.fst)).mem_iff
  have hex := Kde.exemplars_perm (o := o) hmem
  have hs' : Seen o (T.keys ++ cs.keys) (T.keys ++ cs.keys) := fun q hq k hk j hj => by
    rw [hex]; exact hs q ((hmem q).mp hq) k hk j hj
  have hcs' := hE.assigns hV.toFull hC
  rw [kde_logpdf_eq r hT hne (hE.disjoint hd) (kde_ne_zero hV hR) hcs,
    Kde.density_eq hV hT.known hcs'.known hs' (by rw [hex]; exact hR) fun h0 => by
      subst h0
      exact hn (List.nil_perm.mp hp),
    Kde.mixture_perm (List.Perm.refl T) hp]
  have hpos := Kde.mixture_pos hV hT.known (hEv.assigns hV.toFull hC).known hR
  refine ⟨?_, hpos⟩
  change Except.ok (Kde.npLog (some _)) = _
  unfold Kde.npLog
  simp only
  rw [if_pos hpos]

/-- **C65** The density adds up to one over the values of the targets. -/
theorem C65_normalised (hV : Valid o) {T : List Col} (hT : ∀ q ∈ T, q ∈ o.outputs)
    {C : Dict Col ℝ} (hC : Mv.Assigns o.outputs C)
    (hR : Spec.Kde.exemplars o (T ++ C.keys) ≠ []) :
    Spec.Kde.total (typ o) T (fun d => mixture o d C) = 1 :=
  Kde.total_mixture_eq_one hV hT hC.known hR

open Classical in
theorem kde_samples (hV : Valid o) (r : Option Row) {T : List Col} {C Ev : Dict Col ℝ}
    (hT : T.Nodup) (hne : T ≠ []) (hk : ∀ q ∈ T, q ∈ o.outputs) (hC : Mv.Assigns o.outputs C)
    (hd : ∀ q ∈ T, q ∉ C.keys) (hEv : Mv.Evidence o.outputs o.rows r T C Ev)
    (hs : Seen o (T ++ Ev.keys) Ev.keys) (hR : Spec.Kde.exemplars o (T ++ Ev.keys) ≠ [])
    (N : Option Nat) {Ss : List (Col → Set ℝ)} (hS : ∀ S ∈ Ss, ∀ q, MeasurableSet (S q))
    (hl : Ss.length = N.getD 1) :
    ∃ m : Rand (List (Dict Col ℝ)),
      o.simulate r T C [] N = (m.bind fun l => match N with
          | none => .pure (.inl (l.headD []))
          | some _ => .pure (.inr l)) ∧
      Rand.Always (fun l => l.length = N.getD 1) m ∧
      Rand.expect (Rand.prodFn (Ss.map fun S d => if Mv.InBox T S d then 1 else 0)) m
        = (Ss.map fun S => Spec.Kde.total (typ o) T
          fun d => mixture o d Ev * if Mv.InBox T S d then 1 else 0).prod := by
  obtain ⟨cs, hcs, hE⟩ := MvRows.populate_ok hV.toFull r T hC.nodup
  have hp : cs.Perm Ev := hE.perm hEv
  have hmem : ∀ q, q ∈ T ++ cs.keys ↔ q ∈ T ++ Ev.keys := fun q =>
    ((List.Perm.refl _).append (hp.map Prod.fst)).mem_iff
  have hex := Kde.exemplars_perm (o := o) hmem
  have hs' : Seen o (T ++ cs.keys) cs.keys := fun q hq k hk j hj => by
    rw [hex]; exact hs q ((hp.map Prod.fst).mem_iff.mp hq) k hk j hj
  have hcs' := hE.assigns hV.toFull hC
  have hR' : Spec.Kde.exemplars o (T ++ cs.keys) ≠ [] := by rw [hex]; exact hR
  have h1 := Kde.simulate_eq hV r hne hk hd hcs hcs'.known hR' hs' N
  have h2 := Kde.expect_members hV hT hk hcs'.known hR' Ss hS
  rw [hl] at h2
  simp only [Kde.mixture_perm (List.Perm.refl _) hp] at h2
  refine ⟨_, ?_, ?_, h2⟩
  · rw [h1]
    generalize Kde.pflipMany _ _ _ = m
    induction m with
    | pure a => rfl
    | raise e => rfl
    | choice p k ih => exact congrArg _ (funext fun i => ih i)
    | normal a b k ih => exact congrArg _ (funext fun i => ih i)
  · refine Rand.Always.bind (P := fun is : List Nat => is.length = N.getD 1) ?_ fun is his => ?_
    · unfold Kde.pflipMany
      split
      · exact List.length_replicate
      · split
        · trivial
        · split
          · trivial
          · exact (Rand.always_traverse _).mono fun bs hbs => by rw [hbs, List.length_range]
    · exact (Rand.always_traverse _).mono fun bs hbs => by rw [hbs, his]

open Classical in
/-- **C65** `simulate` samples from the distribution that `logpdf` evaluates: the probability that the
sample lies in a box is the sum of the density over the box. -/
theorem C65_simulate_partial (hV : Valid o) (r : Option Row) {T : List Col} {C Ev : Dict Col ℝ}
    (hT : T.Nodup) (hne : T ≠ []) (hk : ∀ q ∈ T, q ∈ o.outputs) (hC : Mv.Assigns o.outputs C)
    (hd : ∀ q ∈ T, q ∉ C.keys) (hEv : Mv.Evidence o.outputs o.rows r T C Ev)
    (hs : Seen o (T ++ Ev.keys) Ev.keys) (hR : Spec.Kde.exemplars o (T ++ Ev.keys) ≠ [])
    {S : Col → Set ℝ} (hS : ∀ q, MeasurableSet (S q)) :
    (o.simulate r T C [] none).prob (fun a => ∃ d, a = .inl d ∧ Mv.InBox T S d)
      = Spec.Kde.total (typ o) T fun d => if Mv.InBox T S d then mixture o d Ev else 0 := by
  obtain ⟨m, h1, h2, h3⟩ := kde_samples hV r hT hne hk hC hd hEv hs hR none (Ss := [S])
    (by simpa using hS) rfl
  unfold Rand.prob
  rw [h1, Rand.expect_bind]
  rw [Rand.expect_always h2 (h := Rand.prodFn ([S].map fun S d => if Mv.InBox T S d then 1 else 0)), h3]
  · rw [List.map_cons, List.map_nil, List.prod_cons, List.prod_nil, mul_one]
    refine Kde.total_congr fun d _ => ?_
    split <;> ring
  · intro l hl
    obtain ⟨d, rfl⟩ := List.length_eq_one_iff.mp hl
    change (if _ then (1 : ℝ) else 0) = _
    rw [List.map_cons, Rand.prodFn_cons]
    simp [Rand.prodFn]

open Classical in
/-- **C65** With `N=n`, the `n` samples are independent and each has that distribution. -/
theorem C65_many_partial (hV : Valid o) (r : Option Row) {T : List Col} {C Ev : Dict Col ℝ}
    (hT : T.Nodup) (hne : T ≠ []) (hk : ∀ q ∈ T, q ∈ o.outputs) (hC : Mv.Assigns o.outputs C)
    (hd : ∀ q ∈ T, q ∉ C.keys) (hEv : Mv.Evidence o.outputs o.rows r T C Ev)
    (hs : Seen o (T ++ Ev.keys) Ev.keys) (hR : Spec.Kde.exemplars o (T ++ Ev.keys) ≠ [])
    {Ss : List (Col → Set ℝ)} (hS : ∀ S ∈ Ss, ∀ q, MeasurableSet (S q)) :
    (o.simulate r T C [] (some Ss.length)).prob
        (fun a => ∃ l, a = .inr l ∧ List.Forall₂ (Mv.InBox T) Ss l)
      = (Ss.map fun S => Spec.Kde.total (typ o) T
          fun d => if Mv.InBox T S d then mixture o d Ev else 0).prod := by
  obtain ⟨m, h1, h2, h3⟩ := kde_samples hV r hT hne hk hC hd hEv hs hR (some Ss.length) hS rfl
  unfold Rand.prob
  rw [h1, Rand.expect_bind]
  rw [Rand.expect_always h2 (h := Rand.prodFn (Ss.map fun S d => if Mv.InBox T S d then 1 else 0)), h3]
  · congr 1
    refine List.map_congr_left fun S _ => Kde.total_congr fun d _ => ?_
    split <;> ring
  · intro l hl
    change (if ∃ l', (Sum.inr l : Dict Col ℝ ⊕ List (Dict Col ℝ)) = .inr l' ∧
        List.Forall₂ (Mv.InBox T) Ss l' then (1 : ℝ) else 0) = _
    rw [show (∃ l', (Sum.inr l : Dict Col ℝ ⊕ List (Dict Col ℝ)) = .inr l' ∧
        List.Forall₂ (Mv.InBox T) Ss l') ↔ List.Forall₂ (Mv.InBox T) Ss l from
      ⟨fun ⟨l', e, h⟩ => by cases e; exact h, fun h => ⟨l, rfl, h⟩⟩]
    have hl' : l.length = Ss.length := hl
    clear h3 hS h1 h2 hl
    induction Ss generalizing l with
    | nil =>
      obtain rfl := List.length_eq_zero_iff.mp hl'
      simp [Rand.prodFn]
    | cons S Ss ih =>
      cases l with
      | nil => simp at hl'
      | cons d l =>
        rw [List.map_cons, Rand.prodFn_cons, ← ih l (by simpa using hl'), List.forall₂_cons]
        by_cases hb : Mv.InBox T S d
        · simp [hb]
        · simp [hb]

theorem kde_chain (hV : Valid o)
    (hfull : ∀ r ∈ o.rows.data.keys, ∀ q ∈ o.outputs, (cell o r q).isSome) {T U C : Dict Col ℝ}
    (hT : Mv.Assigns o.outputs T) (hU : Mv.Assigns o.outputs U) (hC : Mv.Assigns o.outputs C)
    (h0 : o.rows.data ≠ []) :
    mixture o (T ++ U) C = mixture o T (U ++ C) * mixture o U C := by
  have hex : ∀ qs : List Col, (∀ q ∈ qs, q ∈ o.outputs) →
      Spec.Kde.exemplars o qs = o.rows.data.keys := fun qs hq =>
    List.filter_eq_self.mpr fun r hr => List.all_eq_true.mpr fun q hqs => hfull r hr q (hq q hqs)
  have hk : ∀ d e : Dict Col ℝ, Dict.keys (d ++ e) = d.keys ++ e.keys := fun d e => List.map_append
  have e1 : Spec.Kde.exemplars o (Dict.keys (T ++ U) ++ C.keys) = o.rows.data.keys := hex _ fun q hq => by
    rw [hk, List.mem_append, List.mem_append] at hq
    rcases hq with (h | h) | h
    · exact hT.known q h
    · exact hU.known q h
    · exact hC.known q h
  have e2 : Spec.Kde.exemplars o (T.keys ++ Dict.keys (U ++ C)) = o.rows.data.keys := hex _ fun q hq => by
    rw [hk, List.mem_append, List.mem_append] at hq
    rcases hq with h | h | h
    · exact hT.known q h
    · exact hU.known q h
    · exact hC.known q h
  have e3 : Spec.Kde.exemplars o (U.keys ++ C.keys) = o.rows.data.keys := hex _ fun q hq => by
    rw [List.mem_append] at hq
    rcases hq with h | h
    · exact hU.known q h
    · exact hC.known q h
  unfold mixture
  rw [e1, e2, e3]
  simp only [Kde.closeness_append]
  have hne : o.rows.data.keys ≠ [] := by simpa [Dict.keys] using h0
  have p1 : ((o.rows.data.keys).map fun r => closeness o r U * closeness o r C).sum ≠ 0 :=
    (Kde.sum_pos_of hne fun r =>
      mul_pos (Kde.closeness_pos hV hU.known r) (Kde.closeness_pos hV hC.known r)).ne'
  rw [show ((o.rows.data.keys).map fun r => closeness o r C * closeness o r U)
    = (o.rows.data.keys).map fun r => closeness o r U * closeness o r C from
      List.map_congr_left fun r _ => mul_comm _ _]
  rw [div_mul_div_cancel₀ p1]
  congr 2
  refine List.map_congr_left fun r _ => by ring

theorem kde_order {o' : Kde} (hV : Valid o) (hV' : Valid o') (h1 : o'.outputs = o.outputs)
    (h2 : o'.types = o.types) (h3 : o'.bw = o.bw)
    (h4 : ∀ r, o'.rows.data.get? r = o.rows.data.get? r) (T C : Dict Col ℝ) :
    mixture o' T C = mixture o T C := by
  have hty : ∀ q, typ o' q = typ o q := fun q => by unfold typ; rw [h1, h2]
  have hbw : ∀ q, band o' q = band o q := fun q => by unfold band; rw [h1, h3]
  have hcell : ∀ r q, cell o' r q = cell o r q := fun r q => by
    change Mv.cell _ _ _ _ = Mv.cell _ _ _ _
    unfold Mv.cell
    rw [h4, h1]
  have hcl : ∀ r d, closeness o' r d = closeness o r d := fun r d => by
    unfold closeness
    simp only [hty, hbw, hcell]
  have hperm : o'.rows.data.keys.Perm o.rows.data.keys :=
    (Dict.perm_of_get? hV'.keys hV.keys h4).map Prod.fst
  have hex : ∀ qs, (Spec.Kde.exemplars o' qs).Perm (Spec.Kde.exemplars o qs) := fun qs => by
    change (Mv.exemplars _ _ _).Perm (Mv.exemplars _ _ _)
    unfold Mv.exemplars
    rw [show (fun r => qs.all fun q => (Mv.cell o'.outputs o'.rows r q).isSome)
      = fun r => qs.all fun q => (Mv.cell o.outputs o.rows r q).isSome from funext fun r => by
        congr 1; funext q; rw [show Mv.cell o'.outputs o'.rows r q = Mv.cell o.outputs o.rows r q from
          hcell r q]]
    exact hperm.filter _
  unfold mixture
  simp only [hcl]
  rw [((hex _).map _).sum_eq, ((hex _).map _).sum_eq]

/-- Without a row, the evidence is the constraints. -/
theorem kde_evidence_none {outputs : List Col} {rows : MvRows} {T : List Col} {C : Dict Col ℝ}
    (hC : C.keys.Nodup) : Mv.Evidence outputs rows none T C C :=
  ⟨hC, fun q => by cases C.get? q <;> simp⟩

/-- **C65** Without missing cells, `logpdf` obeys the chain rule. -/
theorem C65_chain_partial (hV : Valid o)
    (hfull : ∀ r ∈ o.rows.data.keys, ∀ q ∈ o.outputs, (cell o r q).isSome)
    (hs : Seen o o.outputs o.outputs) (hn : o.outputs.length < o.rows.data.length)
    {T U C : Dict Col ℝ} (hT : T ≠ []) (hU : U ≠ [])
    (hall : Mv.Assigns o.outputs (T ++ (U ++ C))) :
    ∃ a b, o.logpdf none (Mv.ofDict T) (U ++ C) [] = .ok (.fin a) ∧
      o.logpdf none (Mv.ofDict U) C [] = .ok (.fin b) ∧
      o.logpdf none (Mv.ofDict (T ++ U)) C [] = .ok (.fin (a + b)) := by
  have hk : ∀ d e : Dict Col ℝ, Dict.keys (d ++ e) = d.keys ++ e.keys := fun d e => List.map_append
  have hnd := hall.nodup
  have hkn := hall.known
  rw [hk, hk] at hnd hkn
  have n1 := List.nodup_append.mp hnd
  have n2 := List.nodup_append.mp n1.2.1
  have aT : Mv.Assigns o.outputs T := ⟨n1.1, fun q hq => hkn q (List.mem_append_left _ hq)⟩
  have aU : Mv.Assigns o.outputs U :=
    ⟨n2.1, fun q hq => hkn q (List.mem_append_right _ (List.mem_append_left _ hq))⟩
  have aC : Mv.Assigns o.outputs C :=
    ⟨n2.2.1, fun q hq => hkn q (List.mem_append_right _ (List.mem_append_right _ hq))⟩
  have aUC : Mv.Assigns o.outputs (U ++ C) :=
    ⟨by rw [hk]; exact n1.2.1, fun q hq => hkn q (List.mem_append_right _ (by rwa [hk] at hq))⟩
  have aTU : Mv.Assigns o.outputs (T ++ U) := by
    refine ⟨?_, fun q hq => ?_⟩
    · rw [hk]
      rw [← List.append_assoc] at hnd
      exact (List.nodup_append.mp hnd).1
    · rw [hk] at hq
      rcases List.mem_append.mp hq with h | h
      · exact aT.known q h
      · exact aU.known q h
  have hex : ∀ qs : List Col, (∀ q ∈ qs, q ∈ o.outputs) →
      Spec.Kde.exemplars o qs = o.rows.data.keys := fun qs hq =>
    List.filter_eq_self.mpr fun r hr => List.all_eq_true.mpr fun q hqs => hfull r hr q (hq q hqs)
  have hdata : o.rows.data ≠ [] := fun h => by rw [h] at hn; simp at hn
  have key : ∀ A B : Dict Col ℝ, Mv.Assigns o.outputs A → Mv.Assigns o.outputs B → A ≠ [] →
      (∀ q ∈ A.keys, q ∉ B.keys) →
      o.logpdf none (Mv.ofDict A) B [] = .ok (.fin (Real.log (mixture o A B))) ∧
        0 < mixture o A B := by
    intro A B hA hB hne hd
    have hAB : ∀ q ∈ A.keys ++ B.keys, q ∈ o.outputs := fun q hq => by
      rcases List.mem_append.mp hq with h | h
      · exact hA.known q h
      · exact hB.known q h
    refine C65_logpdf_partial hV none hA hne hB hd (kde_evidence_none hB.nodup) ?_ ?_ ?_
    · intro q hq k hty j hj
      rw [hex _ hAB, ← hex o.outputs fun q h => h]
      exact hs q (hAB q hq) k hty j hj
    · rw [hex _ hAB]
      simpa [Dict.keys] using hdata
    · intro _
      rw [hex _ hA.known]
      have : A.keys.length ≤ o.outputs.length :=
        (List.subperm_of_subset hA.nodup hA.known).length_le
      simp only [Dict.keys, List.length_map] at this ⊢
      omega
  have d1 : ∀ q ∈ T.keys, q ∉ Dict.keys (U ++ C) := fun q hq hq' => by
    rw [hk] at hq'
    exact n1.2.2 q hq q hq' rfl
  have d2 : ∀ q ∈ U.keys, q ∉ C.keys := fun q hq hq' => n2.2.2 q hq q hq' rfl
  have d3 : ∀ q ∈ Dict.keys (T ++ U), q ∉ C.keys := fun q hq hq' => by
    rw [hk] at hq
    rcases List.mem_append.mp hq with h | h
    · exact n1.2.2 q h q (List.mem_append_right _ hq') rfl
    · exact d2 q h hq'
  obtain ⟨l1, p1⟩ := key T (U ++ C) aT aUC hT d1
  obtain ⟨l2, p2⟩ := key U C aU aC hU d2
  obtain ⟨l3, p3⟩ := key (T ++ U) C aTU aC (by simp [hT]) d3
  refine ⟨_, _, l1, l2, ?_⟩
  rw [l3, kde_chain hV hfull aT aU aC hdata, Real.log_mul p1.ne' p2.ne']

/-- **C65** `logpdf` depends on the rows only, not on the order in which they were observed. -/
theorem C65_order_partial {o' : Kde} (hV : Valid o) (hV' : Valid o') (h1 : o'.outputs = o.outputs)
    (h2 : o'.types = o.types) (h3 : o'.bw = o.bw)
    (h4 : ∀ r, o'.rows.data.get? r = o.rows.data.get? r) (r : Option Row) {T C Ev : Dict Col ℝ}
    (hT : Mv.Assigns o.outputs T) (hne : T ≠ []) (hC : Mv.Assigns o.outputs C)
    (hd : ∀ q ∈ T.keys, q ∉ C.keys) (hEv : Mv.Evidence o.outputs o.rows r T.keys C Ev)
    (hs : Seen o (T.keys ++ Ev.keys) (T.keys ++ Ev.keys))
    (hR : Spec.Kde.exemplars o (T.keys ++ Ev.keys) ≠ [])
    (hn : Ev = [] → T.length < (Spec.Kde.exemplars o T.keys).length) :
    o'.logpdf r (Mv.ofDict T) C [] = o.logpdf r (Mv.ofDict T) C [] := by
  have hty : ∀ q, typ o' q = typ o q := fun q => by unfold typ; rw [h1, h2]
  have hcell : ∀ r q, cell o' r q = cell o r q := fun r q => by
    change Mv.cell _ _ _ _ = Mv.cell _ _ _ _
    unfold Mv.cell
    rw [h4, h1]
  have hperm : o'.rows.data.keys.Perm o.rows.data.keys :=
    (Dict.perm_of_get? hV'.keys hV.keys h4).map Prod.fst
  have hex : ∀ qs, (Spec.Kde.exemplars o' qs).Perm (Spec.Kde.exemplars o qs) := fun qs => by
    change (Mv.exemplars _ _ _).Perm (Mv.exemplars _ _ _)
    unfold Mv.exemplars
    rw [show (fun r => qs.all fun q => (Mv.cell o'.outputs o'.rows r q).isSome)
      = fun r => qs.all fun q => (Mv.cell o.outputs o.rows r q).isSome from funext fun r => by
        congr 1; funext q; rw [show Mv.cell o'.outputs o'.rows r q = Mv.cell o.outputs o.rows r q from
          hcell r q]]
    exact hperm.filter _
  have l1 := (C65_logpdf_partial hV r hT hne hC hd hEv hs hR hn).1
  have l2 := (C65_logpdf_partial hV' r (Ev := Ev) (by rw [h1]; exact hT) hne (by rw [h1]; exact hC) hd
    ⟨hEv.nodup, fun q => by
      rw [hEv.get q]
      congr 2
      cases r with
      | none => rfl
      | some r => exact (hcell r q).symm⟩
    (fun q hq k hk j hj => by
      obtain ⟨r, hr, e⟩ := hs q hq k (by rw [← hty]; exact hk) j hj
      exact ⟨r, (hex _).mem_iff.mpr hr, by rw [hcell]; exact e⟩)
    (fun h => hR (List.nil_perm.mp (h ▸ hex (T.keys ++ Ev.keys))))
    (fun h => by rw [(hex _).length_eq]; exact hn h)).1
  rw [l1, l2, kde_order hV hV' h1 h2 h3 h4]

/-! ### Histories -/

theorem inputRow_getElem (outputs : List Col) (obs : Vals) {q : Col} (hq : q ∈ outputs) :
    ((outputs.map fun q => (obs.get? q).getD none)[outputs.idxOf q]?).join
      = (obs.get? q).getD none := by
  have hlt := List.idxOf_lt_length_iff.mpr hq
  rw [List.getElem?_map, List.getElem?_eq_getElem hlt, List.getElem_idxOf hlt]
  rfl

theorem kde_inc (hV : Valid o) (r : Row) (obs ins : Vals) (ha : Allowed o (.inc r obs ins)) :
    Valid (o.incorporate r obs ins).state := by
  unfold Kde.incorporate MvRows.incorporate
  by_cases h1 : o.rows.data.has r
  · rw [if_pos h1]; exact hV
  rw [if_neg h1]
  split
  · exact hV
  split
  · exact hV
  split
  · exact hV
  split
  · exact hV
  have hnone : o.rows.data.get? r = none := by
    rw [← Dict.has_false_iff]; simpa using h1
  change Valid { o with rows := _ }
  refine ⟨⟨hV.nodup, ?_, ?_, ?_⟩, hV.types, hV.bw, hV.numerical, hV.nominal, ?_⟩
  · exact Dict.wf_set hV.keys _ _
  · change o.rows.N + 1 = ((o.rows.data.set r _).length : ℤ)
    rw [Dict.set_of_not_mem _ hnone, hV.count, List.length_append]
    push_cast
    rfl
  · intro r' vs hvs
    change (o.rows.data.set r _).get? r' = some vs at hvs
    rw [Dict.get?_set] at hvs
    split at hvs
    · cases hvs; exact List.length_map _
    · exact hV.full r' vs hvs
  · intro q hq k hk r' v hv
    change (((o.rows.data.set r _).get? r').bind fun vs => vs[o.outputs.idxOf q]?).join = some v at hv
    rw [Dict.get?_set] at hv
    split at hv
    · change ((o.outputs.map fun q => (obs.get? q).getD none)[o.outputs.idxOf q]?).join = some v at hv
      rw [inputRow_getElem o.outputs obs hq] at hv
      refine ha q hq k v hk ?_
      cases hg : obs.get? q with
      | none => rw [hg] at hv; cases hv
      | some w => rw [hg] at hv; exact congrArg some hv
    · exact hV.cells q hq k hk r' v hv

theorem kde_unc (hV : Valid o) (r : Row) : Valid (o.unincorporate r).state := by
  unfold Kde.unincorporate MvRows.unincorporate
  by_cases h1 : o.rows.data.has r
  · rw [if_pos h1]
    obtain ⟨vs, hvs⟩ := Option.isSome_iff_exists.mp h1
    change Valid { o with rows := _ }
    refine ⟨⟨hV.nodup, ?_, ?_, ?_⟩, hV.types, hV.bw, hV.numerical, hV.nominal, ?_⟩
    · exact Dict.wf_erase hV.keys _
    · change o.rows.N - 1 = ((o.rows.data.erase r).length : ℤ)
      have hl := Dict.length_erase hV.keys hvs
      rw [hV.count, hl]
      push_cast
      ring
    · intro r' vs' hvs'
      change (o.rows.data.erase r).get? r' = some vs' at hvs'
      by_cases hr : r' = r
      · subst hr; rw [Dict.get?_erase_self] at hvs'; cases hvs'
      · rw [Dict.get?_erase_ne _ hr] at hvs'; exact hV.full r' vs' hvs'
    · intro q hq k hk r' v hv
      change (((o.rows.data.erase r).get? r').bind fun vs => vs[o.outputs.idxOf q]?).join = some v at hv
      by_cases hr : r' = r
      · subst hr; rw [Dict.get?_erase_self] at hv; cases hv
      · rw [Dict.get?_erase_ne _ hr] at hv; exact hV.cells q hq k hk r' v hv
  · rw [if_neg h1]; exact hV

theorem kde_learn (hV : Valid o) {bw : List ℝ} (hb : ProperBws o bw) : Valid (o.transition bw) := by
  unfold Kde.transition
  split
  · refine ⟨hV.toFull, hV.types, hb.1, fun q hq hk => ?_, fun q hq k hk => ?_, hV.cells⟩
    · have := hb.2 q hq
      rw [show typ o q = .numerical from hk] at this
      exact this
    · have := hb.2 q hq
      rw [show typ o q = .nominal k from hk] at this
      exact ⟨(hV.nominal q hq k hk).1, this⟩
  · exact hV

theorem kde_apply_schema (op : Kde.Op) : (o.apply op).state.outputs = o.outputs ∧
    (o.apply op).state.types = o.types := by
  cases op with
  | inc r obs ins =>
    change (o.incorporate r obs ins).state.outputs = _ ∧ (o.incorporate r obs ins).state.types = _
    unfold Kde.incorporate
    cases MvRows.incorporate o.outputs [] o.outputs o.rows r obs ins <;> exact ⟨rfl, rfl⟩
  | unc r =>
    change (o.unincorporate r).state.outputs = _ ∧ (o.unincorporate r).state.types = _
    unfold Kde.unincorporate
    cases MvRows.unincorporate o.rows r <;> exact ⟨rfl, rfl⟩
  | learn bw =>
    change (o.transition bw).outputs = _ ∧ (o.transition bw).types = _
    unfold Kde.transition
    split <;> exact ⟨rfl, rfl⟩

theorem allowed_congr {o' : Kde} (h1 : o'.outputs = o.outputs) (h2 : o'.types = o.types)
    {op : Kde.Op} (h : Allowed o op) : Allowed o' op := by
  have hty : ∀ q, typ o' q = typ o q := fun q => by unfold typ; rw [h1, h2]
  cases op with
  | inc r obs ins =>
    intro q hq k v hk
    exact h q (by rwa [h1] at hq) k v (by rw [← hty]; exact hk)
  | unc r => trivial
  | learn bw =>
    refine ⟨by rw [h1]; exact h.1, fun q hq => ?_⟩
    have := h.2 q (by rwa [h1] at hq)
    rw [hty, h1]
    exact this

/-- **C65** After any history of calls that observe existing categories and learn proper bandwidths,
accepted or refused, the theorems of this file apply. -/
theorem C65_history (hV : Valid o) {ops : List Kde.Op} (ha : ∀ op ∈ ops, Allowed o op) :
    Valid (o.run ops) := by
  unfold Kde.run
  induction ops generalizing o with
  | nil => exact hV
  | cons op ops ih =>
    have hs := kde_apply_schema (o := o) op
    refine ih ?_ fun op' h' => allowed_congr hs.1 hs.2 (ha op' (List.mem_cons_of_mem _ h'))
    have h0 := ha op List.mem_cons_self
    cases op with
    | inc r obs ins => exact kde_inc hV r obs ins h0
    | unc r => exact kde_unc hV r
    | learn bw => exact kde_learn hV h0

/-- **C65** The constructor accepts distinct outputs with as many types, each nominal one with at
least two categories, and they apply to what it builds. -/
theorem C65_new {outputs : List Col} (h0 : outputs ≠ []) (hn : outputs.Nodup) {types : List KType}
    (hl : types.length = outputs.length) (hk : ∀ k, KType.nominal k ∈ types → 2 ≤ k) :
    ∃ o, Kde.new outputs [] (types.map fun t => match t with
        | .numerical => .numeric
        | .nominal k => .nominal (some k)) none = .ok o ∧
      Valid o ∧ o.outputs = outputs ∧ o.types = types ∧ ∀ r, o.rows.data.get? r = none := by
  unfold Kde.new
  have hc : Net.collect Kde.typeOf (types.map fun t => match t with
        | .numerical => .numeric
        | .nominal k => .nominal (some k)) = .ok types := by
    induction types generalizing outputs with
    | nil => rfl
    | cons t ts ih =>
      have : Net.collect Kde.typeOf (ts.map fun t => match t with
        | .numerical => .numeric
        | .nominal k => .nominal (some k)) = .ok ts := by
        clear ih hk hl h0 hn
        induction ts with
        | nil => rfl
        | cons t ts ih =>
          rw [List.map_cons, Net.collect, ih]
          cases t <;> rfl
      rw [List.map_cons, Net.collect, this]
      cases t <;> rfl
  rw [if_neg (by simp), if_neg (by have := List.length_pos_of_ne_nil h0; omega),
    if_neg (by rw [List.dedup_eq_self.mpr hn]; simp), if_neg (by simp [hl]), hc]
  refine ⟨_, rfl, ?_, rfl, rfl, fun r => rfl⟩
  have hmem : ∀ q ∈ outputs, types.getD (outputs.idxOf q) .numerical ∈ types ∧
      (types.map Kde.defaultBw).getD (outputs.idxOf q) 1
        = Kde.defaultBw (types.getD (outputs.idxOf q) .numerical) := by
    intro q hq
    have hlt : outputs.idxOf q < types.length := by
      rw [hl]; exact List.idxOf_lt_length_iff.mpr hq
    rw [List.getD_eq_getElem _ _ hlt, List.getD_eq_getElem _ _ (by simpa using hlt), List.getElem_map]
    exact ⟨List.getElem_mem hlt, rfl⟩
  refine ⟨⟨hn, List.nodup_nil, rfl, fun r vs h => by cases h⟩, hl, by simpa using hl,
    fun q hq ht => ?_, fun q hq k ht => ?_, fun q hq k hk r v h => by cases h⟩
  · unfold band
    change 0 < (types.map Kde.defaultBw).getD (outputs.idxOf q) 1
    rw [(hmem q hq).2, show types.getD (outputs.idxOf q) .numerical = .numerical from ht]
    norm_num [Kde.defaultBw]
  · have h1 := hmem q hq
    rw [show types.getD (outputs.idxOf q) .numerical = .nominal k from ht] at h1
    refine ⟨hk k h1.1, ?_⟩
    unfold band
    change 0 < (types.map Kde.defaultBw).getD (outputs.idxOf q) 1 ∧
      (types.map Kde.defaultBw).getD (outputs.idxOf q) 1 < 1
    rw [h1.2]
    norm_num [Kde.defaultBw]

/-! ### Refused queries -/

/-- **C65** `logpdf` raises ValueError for no rows, inputs, no targets, missing values, unknown targets
and targets that are constrained. -/
theorem C65_logpdf_refused (hV : Valid o) (r : Option Row) (T : Vals) {C : Dict Col ℝ}
    (hC : C.keys.Nodup) (inputs : List Col)
    (h : o.rows.data = [] ∨ inputs ≠ [] ∨ T = [] ∨ (∃ q, (q, none) ∈ T) ∨
      (∃ q ∈ T.keys, q ∉ o.outputs) ∨ ∃ q ∈ T.keys, q ∈ C.keys) :
    o.logpdf r T C inputs = .error .valueError := by
  unfold Kde.logpdf
  by_cases h0 : o.rows.N = 0
  · rw [if_pos h0]
  rw [if_neg h0]
  obtain ⟨cs, hcs, hE⟩ := MvRows.populate_ok hV.toFull r T.keys hC
  rw [hcs]
  simp only
  by_cases h1 : inputs = []
  swap
  · rw [if_pos (by simpa using h1)]
  rw [if_neg (by simpa using h1)]
  by_cases h2 : T = []
  · rw [if_pos (by simpa using h2)]
  rw [if_neg (by simpa using h2)]
  cases h3 : Kde.noNan T with
  | none => rfl
  | some ts =>
    simp only
    by_cases h4 : (T.keys.any fun q => !o.outputs.contains q) = true
    · rw [if_pos h4]
    rw [if_neg h4]
    by_cases h5 : T.keys.any cs.has = true
    · rw [if_pos h5]
    exfalso
    rcases h with h | h | h | ⟨q, h⟩ | ⟨q, hq, h⟩ | ⟨q, hq, h⟩
    · exact h0 (by rw [hV.count, h]; rfl)
    · exact h h1
    · exact h2 h
    · unfold Kde.noNan at h3
      rw [MvRows.mapM_none h rfl] at h3
      cases h3
    · exact h4 (List.any_eq_true.mpr ⟨q, hq, by simpa using h⟩)
    · refine h5 (List.any_eq_true.mpr ⟨q, hq, ?_⟩)
      rw [Dict.has_iff, ← Dict.get?_isSome_iff, hE.get, Option.isSome_or,
        (Dict.get?_isSome_iff _ _).mpr h]
      rfl

/-- **C65** `simulate` raises ValueError for no rows, inputs, no targets, unknown targets and targets
that are constrained. -/
theorem C65_simulate_refused (hV : Valid o) (r : Option Row) (T : List Col) (C : Dict Col ℝ)
    (inputs : List Col) (N : Option Nat)
    (h : o.rows.data = [] ∨ inputs ≠ [] ∨ T = [] ∨ (∃ q ∈ T, q ∉ o.outputs) ∨
      ∃ q ∈ T, q ∈ C.keys) :
    o.simulate r T C inputs N = .raise .valueError := by
  unfold Kde.simulate
  by_cases h0 : o.rows.N = 0
  · rw [if_pos h0]
  rw [if_neg h0]
  by_cases h1 : inputs = []
  swap
  · rw [if_pos (by simpa using h1)]
  rw [if_neg (by simpa using h1)]
  by_cases h2 : T = []
  · rw [if_pos (by simpa using h2)]
  rw [if_neg (by simpa using h2)]
  by_cases h4 : (T.any fun q => !o.outputs.contains q) = true
  · rw [if_pos h4]
  rw [if_neg h4]
  by_cases h5 : T.any C.has = true
  · rw [if_pos h5]
  exfalso
  rcases h with h | h | h | ⟨q, hq, h⟩ | ⟨q, hq, h⟩
  · exact h0 (by rw [hV.count, h]; rfl)
  · exact h h1
  · exact h2 h
  · exact h4 (List.any_eq_true.mpr ⟨q, hq, by simpa using h⟩)
  · exact h5 (List.any_eq_true.mpr ⟨q, hq, (Dict.has_iff _ _).mpr h⟩)

/-! ### The score -/

theorem observed_keys (hn : o.outputs.Nodup) (r : Row) :
    Mv.Assigns o.outputs (Spec.Kde.observed o r) := by
  have hk : (Spec.Kde.observed o r).keys = o.outputs.filter fun q => (cell o r q).isSome := by
    unfold Spec.Kde.observed Dict.keys
    rw [List.map_filterMap, ← List.filterMap_eq_filter]
    refine List.filterMap_congr fun q _ => ?_
    cases h : cell o r q <;> simp [Option.guard, h]
  refine ⟨by rw [hk]; exact hn.filter _, fun q hq => ?_⟩
  rw [hk] at hq
  exact (List.mem_filter.mp hq).1

theorem mem_observed_keys (r : Row) {q : Col} (hq : q ∈ o.outputs) {v : ℝ}
    (h : cell o r q = some v) : q ∈ (Spec.Kde.observed o r).keys := by
  unfold Spec.Kde.observed Dict.keys
  refine List.mem_map.mpr ⟨(q, v), List.mem_filterMap.mpr ⟨q, hq, ?_⟩, rfl⟩
  rw [show cell o r q = some v from h]
  rfl

theorem zip_filter_observed (hV : Valid o) {r : Row} {vs : List (Option ℝ)}
    (h : o.rows.data.get? r = some vs) :
    (o.outputs.zip vs).filter (fun q => q.2.isSome) = Mv.ofDict (Spec.Kde.observed o r) := by
  have hlen := hV.full r vs h
  have hz : o.outputs.zip vs = o.outputs.map fun q => (q, cell o r q) := by
    refine List.ext_getElem (by simp [hlen]) fun i h1 h2 => ?_
    have hi : i < o.outputs.length := by simpa using h2
    rw [List.getElem_zip, List.getElem_map]
    congr 1
    change vs[i] = ((o.rows.data.get? r).bind fun vs => vs[o.outputs.idxOf o.outputs[i]]?).join
    rw [h, Option.bind_some, hV.nodup.idxOf_getElem, List.getElem?_eq_getElem (by omega),
      Option.join_some]
  rw [hz]
  unfold Mv.ofDict Spec.Kde.observed
  rw [List.map_filterMap, ← List.filterMap_eq_filter, List.filterMap_map]
  refine List.filterMap_congr fun q _ => ?_
  cases hc : cell o r q <;> simp [Option.guard, hc]

/-- **C65** `logpdf_score` is the sum over the rows of the log densities of their observed cells. -/
theorem C65_score_partial (hV : Valid o)
    (hall : ∀ r ∈ o.rows.data.keys, Spec.Kde.observed o r ≠ [] ∧
      Seen o (Spec.Kde.observed o r).keys (Spec.Kde.observed o r).keys ∧
      (Spec.Kde.observed o r).length
        < (Spec.Kde.exemplars o (Spec.Kde.observed o r).keys).length) :
    o.logpdfScore = .ok (.fin
      (o.rows.data.keys.map fun r => Real.log (mixture o (Spec.Kde.observed o r) [])).sum) := by
  unfold Kde.logpdfScore
  rw [Kde.collect_map (g := fun p => Fl.fin (Real.log (mixture o (Spec.Kde.observed o p.1) [])))]
  · change Except.ok (flSum _) = _
    rw [show (o.rows.data.map fun p => Fl.fin (Real.log (mixture o (Spec.Kde.observed o p.1) [])))
      = (o.rows.data.map fun p => Real.log (mixture o (Spec.Kde.observed o p.1) [])).map Fl.fin by
        rw [List.map_map]; rfl, flSum_fin]
    unfold Dict.keys
    rw [List.map_map]
    rfl
  · rintro ⟨r, vs⟩ hp
    have hg : o.rows.data.get? r = some vs := Dict.get?_of_mem hV.keys hp
    obtain ⟨hne, hs, hn⟩ := hall r (List.mem_map_of_mem hp)
    have ha := observed_keys (o := o) hV.nodup r
    have hnil : ((Spec.Kde.observed o r).keys ++ Dict.keys ([] : Dict Col ℝ))
        = (Spec.Kde.observed o r).keys := by simp [Dict.keys]
    simp only
    rw [if_neg (by simpa using hV.full r vs hg), zip_filter_observed hV hg]
    refine (C65_logpdf_partial hV (some r) (C := []) (Ev := []) ha hne ⟨List.nodup_nil, fun q hq => by cases hq⟩
      (fun q _ h => by cases h) ⟨List.nodup_nil, fun q => ?_⟩ (by rw [hnil]; exact hs) ?_
      fun _ => hn).1
    · change none = Option.or none _
      rw [Option.none_or]
      by_cases hq : q ∈ (Spec.Kde.observed o r).keys
      · rw [if_pos hq]
      · rw [if_neg hq, Option.bind_some]
        symm
        by_contra hc
        obtain ⟨v, hv⟩ := Option.ne_none_iff_exists'.mp hc
        by_cases hqo : q ∈ o.outputs
        · exact hq (mem_observed_keys r hqo hv)
        · unfold Mv.cell at hv
          rw [hg, Option.bind_some, List.idxOf_eq_length hqo,
            List.getElem?_eq_none (by rw [hV.full r vs hg])] at hv
          cases hv
    · rw [hnil]
      intro h0
      rw [h0] at hn
      simp at hn

/-! ### Where the code departs from the estimate -/

open Classical in
/-- **C65, violated** Without evidence and with at most as many exemplars as targets, `logpdf` raises
ValueError while `simulate` always answers. -/
theorem C65_few_violated (hV : Valid o) {T : Dict Col ℝ} (hT : Mv.Assigns o.outputs T) (hne : T ≠ [])
    (hR : Spec.Kde.exemplars o T.keys ≠ [])
    (hn : (Spec.Kde.exemplars o T.keys).length ≤ T.length) :
    o.logpdf none (Mv.ofDict T) [] [] = .error .valueError ∧
    (o.simulate none T.keys [] [] none).prob (fun a => ∃ d, a = .inl d ∧ d.keys = T.keys) = 1 := by
  have hnil : T.keys ++ Dict.keys ([] : Dict Col ℝ) = T.keys := by simp [Dict.keys]
  have hEv : Mv.Evidence o.outputs o.rows none T.keys [] [] := kde_evidence_none List.nodup_nil
  have hC : Mv.Assigns o.outputs ([] : Dict Col ℝ) := ⟨List.nodup_nil, fun q hq => by cases hq⟩
  constructor
  · rw [kde_logpdf_eq none (Ev := []) hT hne (fun q _ h => by cases h) (kde_ne_zero hV hR) rfl]
    unfold Kde.density
    rw [if_pos (by rfl), Kde.dataset_ok hV hT.known, Kde.vars_ok hV hT.known]
    change Except.map _ (Kde.pdf _ _ _) = _
    unfold Kde.pdf
    rw [if_pos (by simpa [Dict.keys] using hn)]
    rfl
  · have h := C65_simulate_partial hV none (C := []) hT.nodup (by simpa [Dict.keys] using hne) hT.known hC
      (fun q _ h => by cases h) hEv (fun q hq => by cases hq) (by rw [hnil]; exact hR)
      (S := fun _ => Set.univ) fun _ => MeasurableSet.univ
    have h1 : (fun a : Dict Col ℝ ⊕ List (Dict Col ℝ) => ∃ d, a = .inl d ∧
          Mv.InBox T.keys (fun _ => Set.univ) d) = fun a => ∃ d, a = .inl d ∧ d.keys = T.keys := by
      funext a
      refine propext ⟨fun ⟨d, e, h⟩ => ⟨d, e, h.1⟩, fun ⟨d, e, h⟩ => ⟨d, e, h, fun _ _ => trivial⟩⟩
    rw [h1] at h
    rw [h, ← C65_normalised hV hT.known hC (by rw [hnil]; exact hR)]
    exact Kde.total_congr fun d hd => if_pos ⟨hd, fun _ _ => trivial⟩

/-- **C65, violated** If at least two of the categories of a variable were seen but not all of them,
the densities that `logpdf` reports for its categories add up to more than one. -/
theorem C65_unseen_violated (hV : Valid o) {q : Col} (hq : q ∈ o.outputs) {k : Nat}
    (hk : typ o q = .nominal k) (h2 : 2 ≤ distinct o q) (hlt : distinct o q < k) :
    ∃ p : Nat → ℝ, (∀ j : Nat, o.logpdf none (Mv.ofDict [(q, (j : ℝ))]) [] []
        = .ok (.fin (Real.log (p j)))) ∧ (∀ j, 0 < p j) ∧ 1 < ∑ j ∈ Finset.range k, p j := by
  classical
  set R := Spec.Kde.exemplars o [q] with hRdef
  set L := distinct o q with hL
  set h := band o q with hh
  obtain ⟨hk2, hb0, hb1⟩ := hV.nominal q hq k hk
  have hlev : Kde.lev o R q = L := by
    unfold Kde.lev
    rw [← List.card_toFinset, hL]
    unfold distinct
    rw [← Set.ncard_coe_finset]
    congr 1
    ext v
    simp only [List.coe_toFinset, List.mem_map, Set.mem_ofPred_eq]
    constructor
    · rintro ⟨r, hr, rfl⟩
      obtain ⟨v, hv⟩ := Option.isSome_iff_exists.mp
        (List.all_eq_true.mp (List.mem_filter.mp hr).2 q List.mem_cons_self)
      exact ⟨r, by rw [show cell o r q = some v from hv]; rfl⟩
    · rintro ⟨r, hv⟩
      refine ⟨r, List.mem_filter.mpr ⟨?_, ?_⟩, by rw [hv]; rfl⟩
      · rw [← Dict.get?_isSome_iff]
        by_contra hn
        change ((o.rows.data.get? r).bind _).join = _ at hv
        rw [Option.not_isSome_iff_eq_none.mp hn] at hv
        cases hv
      · rw [List.all_eq_true]
        intro x hx
        obtain rfl := List.mem_singleton.mp hx
        rw [show Mv.cell o.outputs o.rows r x = some v from hv]
        rfl
  have hlen : 1 < R.length := by
    have : Kde.lev o R q ≤ R.length := by
      unfold Kde.lev
      exact (List.dedup_sublist _).length_le.trans (by simp)
    omega
  have hLr : (2 : ℝ) ≤ L := by exact_mod_cast h2
  have hkr : (L : ℝ) < k := by exact_mod_cast hlt
  let f : Row → Nat → ℝ := fun r j =>
    if (j : ℝ) = (cell o r q).getD 0 then 1 - h else h / ((L : ℝ) - 1)
  have hf : ∀ r j, 0 < f r j := fun r j => by
    simp only [f]
    split
    · linarith
    · exact div_pos hb0 (by linarith)
  have hgp : ∀ j : Nat, Kde.gpke [Kde.kvar o q] (R.map fun r => [(cell o r q).getD 0]) [(j : ℝ)]
      = some (R.map fun r => f r j) := by
    intro j
    have hcl : Kde.columnLevels 1 (R.map fun r => [(cell o r q).getD 0]) = [L] := by
      have := Kde.columnLevels_eq (o := o) R [q]
      rw [List.map_singleton, hlev] at this
      exact this
    unfold Kde.gpke
    rw [List.length_singleton, hcl, List.mapM_map]
    refine MvRows.mapM_some fun r _ => ?_
    have hkv : (Kde.kvar o q).type = .nominal k := hk
    have hc1 : Kde.contBw [Kde.kvar o q] = 1 := by
      unfold Kde.contBw
      simp [hkv]
    change Option.map _ (Kde.rowKernels [(Kde.kvar o q, L)] [(cell o r q).getD 0] [(j : ℝ)]) = _
    rw [hc1]
    have hkval : Kde.kernelValue (Kde.kvar o q) L ((cell o r q).getD 0) j = some (f r j) := by
      unfold Kde.kernelValue
      rw [hkv]
      simp only [f]
      by_cases hc : (cell o r q).getD 0 = j
      · rw [if_pos hc, if_pos hc.symm]
        rfl
      · rw [if_neg hc, if_neg (Ne.symm hc), if_neg (by omega)]
        rfl
    simp [Kde.rowKernels, hkval]
  have hpdf : ∀ j : Nat, o.density [(q, (j : ℝ))] []
      = .ok (some ((R.map fun r => f r j).sum / R.length)) := by
    intro j
    unfold Kde.density
    rw [if_pos (by rfl), show Dict.keys [(q, (j : ℝ))] = [q] from rfl,
      Kde.dataset_ok hV (by simpa using hq), Kde.vars_ok hV (by simpa using hq)]
    change Kde.pdf [Kde.kvar o q] (R.map fun r => [(cell o r q).getD 0]) [(j : ℝ)] = _
    unfold Kde.pdf
    rw [if_neg (by simpa using hlen), hgp j, Option.map_some, List.length_map]
  have hRne : R ≠ [] := fun h0 => by rw [h0] at hlen; simp at hlen
  have hRl : (0 : ℝ) < R.length := by exact_mod_cast (by omega : 0 < R.length)
  refine ⟨fun j => (R.map fun r => f r j).sum / R.length, fun j => ?_, fun j => ?_, ?_⟩
  · rw [kde_logpdf_eq none (Ev := []) ⟨by simp [Dict.keys], by simpa [Dict.keys] using hq⟩ (by simp)
      (fun q _ h => by cases h) (kde_ne_zero hV hRne) rfl, hpdf j]
    change Except.ok (Kde.npLog (some _)) = _
    unfold Kde.npLog
    simp only
    rw [if_pos (div_pos (Kde.sum_pos_of hRne fun r => hf r j) hRl)]
  · exact div_pos (Kde.sum_pos_of hRne fun r => hf r j) hRl
  · rw [← Finset.sum_div, lt_div_iff₀ hRl, one_mul]
    have hswap : ∑ j ∈ Finset.range k, (R.map fun r => f r j).sum
        = (R.map fun r => ∑ j ∈ Finset.range k, f r j).sum := by
      have : ∀ R : List Row, ∑ j ∈ Finset.range k, (R.map fun r => f r j).sum
          = (R.map fun r => ∑ j ∈ Finset.range k, f r j).sum := by
        intro R
        induction R with
        | nil => simp
        | cons r R ih => simp only [List.map_cons, List.sum_cons, Finset.sum_add_distrib, ih]
      exact this R
    rw [hswap, List.map_congr_left (g := fun _ => 1 - h + ((k : ℝ) - 1) * h / ((L : ℝ) - 1))
      fun r hr => ?_]
    · rw [List.map_const', List.sum_replicate, nsmul_eq_mul]
      have : 1 < 1 - h + ((k : ℝ) - 1) * h / ((L : ℝ) - 1) := by
        have : h < ((k : ℝ) - 1) * h / ((L : ℝ) - 1) := by
          rw [lt_div_iff₀ (by linarith)]
          nlinarith
        linarith
      nlinarith
    · obtain ⟨j, hj, e⟩ := Kde.sensible_of_exemplar hV hr List.mem_cons_self hq k hk
      simp only [f]
      rw [e]
      exact Kde.sum_kernel h hk2 hj (L : ℝ) (by linarith)

/-! ### A concrete case -/

/-- A numerical and a nominal variable with two categories; four rows, the last of which has a missing
cell. -/
noncomputable def kdeEx : Kde where
  outputs := [0, 1]
  types := [.numerical, .nominal 2]
  rows := ⟨4, [(0, [some 1, some 0]), (1, [some 2, some 1]), (2, [some 4, some 0]), (3, [none, some 1])]⟩
  bw := [1 / 2, 1 / 10]

theorem kdeEx_cell (r : Row) (q : Col) : cell kdeEx r q =
    if r = 0 ∧ q = 0 then some 1 else if r = 0 ∧ q = 1 then some 0
    else if r = 1 ∧ q = 0 then some 2 else if r = 1 ∧ q = 1 then some 1
    else if r = 2 ∧ q = 0 then some 4 else if r = 2 ∧ q = 1 then some 0
    else if r = 3 ∧ q = 1 then some 1 else none := by
  have hq : (q = 0 ∧ [0, 1].idxOf q = 0) ∨ (q = 1 ∧ [0, 1].idxOf q = 1) ∨
      (q ≠ 0 ∧ q ≠ 1 ∧ [0, 1].idxOf q = 2) := by
    by_cases h0 : q = 0
    · left; subst h0; exact ⟨rfl, rfl⟩
    · by_cases h1 : q = 1
      · right; left; subst h1; exact ⟨rfl, rfl⟩
      · right; right
        refine ⟨h0, h1, ?_⟩
        rw [List.idxOf_eq_length (by simp [h0, h1])]
        rfl
  change ((Dict.get? [((0 : Row), [some (1 : ℝ), some 0]), (1, [some 2, some 1]),
    (2, [some 4, some 0]), (3, [none, some 1])] r).bind fun vs => vs[[0, 1].idxOf q]?).join = _
  by_cases h0 : r = 0
  · subst h0
    rcases hq with ⟨rfl, -⟩ | ⟨rfl, -⟩ | ⟨a, b, e⟩
    · simp [Dict.get?]
    · simp [Dict.get?]
    · rw [e]; simp [Dict.get?, a, b]
  by_cases h1 : r = 1
  · subst h1
    rcases hq with ⟨rfl, -⟩ | ⟨rfl, -⟩ | ⟨a, b, e⟩
    · simp [Dict.get?]
    · simp [Dict.get?]
    · rw [e]; simp [Dict.get?, a, b]
  by_cases h2 : r = 2
  · subst h2
    rcases hq with ⟨rfl, -⟩ | ⟨rfl, -⟩ | ⟨a, b, e⟩
    · simp [Dict.get?]
    · simp [Dict.get?]
    · rw [e]; simp [Dict.get?, a, b]
  by_cases h3 : r = 3
  · subst h3
    rcases hq with ⟨rfl, -⟩ | ⟨rfl, -⟩ | ⟨a, b, e⟩
    · simp [Dict.get?]
    · simp [Dict.get?]
    · rw [e]; simp [Dict.get?, a, b]
  · rw [show Dict.get? [((0 : Row), [some (1 : ℝ), some 0]), (1, [some 2, some 1]),
      (2, [some 4, some 0]), (3, [none, some 1])] r = none by
        simp [Dict.get?, Ne.symm h0, Ne.symm h1, Ne.symm h2, Ne.symm h3]]
    simp [h0, h1, h2, h3]

theorem kdeEx_typ (q : Col) : typ kdeEx q = if q = 1 then .nominal 2 else .numerical := by
  change [KType.numerical, KType.nominal 2].getD ([0, 1].idxOf q) .numerical = _
  by_cases h0 : q = 0
  · subst h0; rfl
  · by_cases h1 : q = 1
    · subst h1; rfl
    · rw [List.idxOf_eq_length (by simp [h0, h1]), if_neg h1]; rfl

theorem kdeEx_band (q : Col) (hq : q ∈ [0, 1]) : band kdeEx q = if q = 1 then 1 / 10 else 1 / 2 := by
  change [(1 / 2 : ℝ), 1 / 10].getD ([0, 1].idxOf q) 1 = _
  simp only [List.mem_cons, List.not_mem_nil, or_false] at hq
  rcases hq with rfl | rfl
  · rfl
  · rfl

theorem kdeEx_valid : Valid kdeEx := by
  have hmem : ∀ q, q ∈ kdeEx.outputs ↔ q = 0 ∨ q = 1 := fun q => by
    change q ∈ [0, 1] ↔ _
    simp
  refine ⟨⟨by decide, by change List.Nodup [0, 1, 2, 3]; decide, rfl, ?_⟩, rfl, rfl, ?_, ?_, ?_⟩
  · intro r vs h
    have h' := Dict.mem_of_get? h
    change (r, vs) ∈ [((0 : Row), [some (1 : ℝ), some 0]), (1, [some 2, some 1]),
      (2, [some 4, some 0]), (3, [none, some 1])] at h'
    simp only [List.mem_cons, Prod.mk.injEq, List.not_mem_nil, or_false] at h'
    rcases h' with ⟨-, rfl⟩ | ⟨-, rfl⟩ | ⟨-, rfl⟩ | ⟨-, rfl⟩ <;> rfl
  · intro q hq _
    rw [kdeEx_band q hq]
    split <;> norm_num
  · intro q hq k hk
    rw [kdeEx_typ] at hk
    split at hk
    · next h =>
      cases hk
      rw [kdeEx_band q hq, if_pos h]
      norm_num
    · cases hk
  · intro q hq k hk r v hv
    rw [kdeEx_typ] at hk
    split at hk
    · next h =>
      cases hk
      subst h
      rw [kdeEx_cell] at hv
      by_cases h0 : r = 0
      · subst h0; simp at hv; exact ⟨0, by omega, by simp [← hv]⟩
      by_cases h1 : r = 1
      · subst h1; simp at hv; exact ⟨1, by omega, by simp [← hv]⟩
      by_cases h2 : r = 2
      · subst h2; simp at hv; exact ⟨0, by omega, by simp [← hv]⟩
      by_cases h3 : r = 3
      · subst h3; simp at hv; exact ⟨1, by omega, by simp [← hv]⟩
      · simp [h0, h1, h2, h3] at hv
    · cases hk

theorem kdeEx_ex (qs : List Col) (h : ∀ q ∈ qs, q = 0 ∨ q = 1) :
    Spec.Kde.exemplars kdeEx qs = if 0 ∈ qs then [0, 1, 2] else [0, 1, 2, 3] := by
  change [0, 1, 2, 3].filter (fun r => qs.all fun q => (cell kdeEx r q).isSome) = _
  have hr : ∀ r : Nat, r < 3 → (qs.all fun q => (cell kdeEx r q).isSome) = true := by
    intro r hr
    rw [List.all_eq_true]
    intro q hq
    rw [kdeEx_cell]
    have : r = 0 ∨ r = 1 ∨ r = 2 := by omega
    rcases h q hq with rfl | rfl <;> rcases this with rfl | rfl | rfl <;> simp
  rw [List.filter_cons, if_pos (hr 0 (by omega)), List.filter_cons, if_pos (hr 1 (by omega)),
    List.filter_cons, if_pos (hr 2 (by omega)), List.filter_cons]
  by_cases h0 : 0 ∈ qs
  · rw [if_pos h0, if_neg (by
      rw [List.all_eq_true]
      intro hh
      have := hh 0 h0
      rw [kdeEx_cell] at this
      simp at this)]
    rfl
  · rw [if_neg h0, if_pos (by
      rw [List.all_eq_true]
      intro q hq
      rcases h q hq with rfl | rfl
      · exact absurd hq h0
      · rw [kdeEx_cell]; simp)]
    rfl

theorem kdeEx_seen (all qs : List Col) (h : ∀ q ∈ all, q = 0 ∨ q = 1) : Seen kdeEx all qs := by
  intro q _ k hk j hj
  rw [kdeEx_typ] at hk
  split at hk
  · next h1 =>
    cases hk
    subst h1
    have : j = 0 ∨ j = 1 := by omega
    rcases this with rfl | rfl
    · exact ⟨0, by rw [kdeEx_ex all h]; split <;> simp, by rw [kdeEx_cell]; simp⟩
    · exact ⟨1, by rw [kdeEx_ex all h]; split <;> simp, by rw [kdeEx_cell]; simp⟩
  · cases hk

/-- The hypotheses of `C65_logpdf_partial` hold for a joint query, for a conditional query, and for a query at
a row, which is conditioned on its cells. -/
example : (∃ y, kdeEx.logpdf none (Mv.ofDict [(1, 1), (0, 3)]) [] [] = .ok (.fin y)) ∧
    (∃ y, kdeEx.logpdf none (Mv.ofDict [(0, 3)]) [(1, 1)] [] = .ok (.fin y)) ∧
    ∃ y, kdeEx.logpdf (some 3) (Mv.ofDict [(0, 3)]) [] [] = .ok (.fin y) := by
  have h01 : ∀ q ∈ ([0, 1] : List Col), q = 0 ∨ q = 1 := by simp
  have h10 : ∀ q ∈ ([1, 0] : List Col), q = 0 ∨ q = 1 := by simp
  refine ⟨⟨_, (C65_logpdf_partial kdeEx_valid none (T := [(1, 1), (0, 3)]) (C := []) (Ev := [])
      ⟨by decide, by decide⟩ (by simp) ⟨List.nodup_nil, fun q h => by cases h⟩ (fun q _ h => by cases h)
      (kde_evidence_none List.nodup_nil) (kdeEx_seen _ _ h10) ?_ fun _ => ?_).1⟩,
    ⟨_, (C65_logpdf_partial kdeEx_valid none (T := [(0, 3)]) (C := [(1, 1)]) (Ev := [(1, 1)])
      ⟨by decide, by decide⟩ (by simp) ⟨by decide, by decide⟩ (by decide)
      (kde_evidence_none (by decide)) (kdeEx_seen _ _ h01) ?_ fun h => by cases h).1⟩,
    ⟨_, (C65_logpdf_partial kdeEx_valid (some 3) (T := [(0, 3)]) (C := []) (Ev := [(1, 1)])
      ⟨by decide, by decide⟩ (by simp) ⟨List.nodup_nil, fun q h => by cases h⟩ (fun q _ h => by cases h)
      ⟨by decide, fun q => ?_⟩ (kdeEx_seen _ _ h01) ?_ fun h => by cases h).1⟩⟩
  · rw [show Dict.keys [((1 : Col), (1 : ℝ)), (0, 3)] ++ Dict.keys ([] : Dict Col ℝ) = [1, 0] from rfl,
      kdeEx_ex _ h10]
    simp
  · rw [show Dict.keys [((1 : Col), (1 : ℝ)), (0, 3)] = [1, 0] from rfl, kdeEx_ex _ h10]
    simp
  · rw [show Dict.keys [((0 : Col), (3 : ℝ))] ++ Dict.keys [((1 : Col), (1 : ℝ))] = [0, 1] from rfl,
      kdeEx_ex _ h01]
    simp
  · rw [show (some 3).bind (fun r => Mv.cell kdeEx.outputs kdeEx.rows r q) = cell kdeEx 3 q from rfl,
      kdeEx_cell]
    by_cases h1 : q = 1
    · subst h1; simp [Dict.get?, Dict.keys]
    · simp [Dict.get?, Dict.keys, h1, Ne.symm h1]
  · rw [show Dict.keys [((0 : Col), (3 : ℝ))] ++ Dict.keys [((1 : Col), (1 : ℝ))] = [0, 1] from rfl,
      kdeEx_ex _ h01]
    simp

/-- **C65, violated** With missing cells, `logpdf` breaks the chain rule: the conditional density is
estimated from the rows that hold both variables, the marginal one from the rows that hold its variable. -/
theorem C65_missing_violated : ∃ o : Kde, Valid o ∧ ∃ T U : Dict Col ℝ, ∃ a b c : ℝ,
    o.logpdf none (Mv.ofDict T) U [] = .ok (.fin a) ∧
    o.logpdf none (Mv.ofDict U) [] [] = .ok (.fin b) ∧
    o.logpdf none (Mv.ofDict (T ++ U)) [] [] = .ok (.fin c) ∧ c ≠ a + b := by
  have h01 : ∀ q ∈ ([0, 1] : List Col), q = 0 ∨ q = 1 := by simp
  have h1' : ∀ q ∈ ([1] : List Col), q = 0 ∨ q = 1 := by simp
  have e1 : Spec.Kde.exemplars kdeEx [0, 1] = [0, 1, 2] := by rw [kdeEx_ex _ h01]; simp
  have e2 : Spec.Kde.exemplars kdeEx [1] = [0, 1, 2, 3] := by rw [kdeEx_ex _ h1']; simp
  obtain ⟨l1, p1⟩ := C65_logpdf_partial kdeEx_valid none (T := [(0, 3)]) (C := [(1, 0)]) (Ev := [(1, 0)])
      ⟨by decide, by decide⟩ (by simp) ⟨by decide, by decide⟩ (by decide)
      (kde_evidence_none (by decide)) (kdeEx_seen _ _ h01)
      (by change Spec.Kde.exemplars kdeEx [0, 1] ≠ []; rw [e1]; simp) fun h => by cases h
  obtain ⟨l2, p2⟩ := C65_logpdf_partial kdeEx_valid none (T := [(1, 0)]) (C := []) (Ev := [])
      ⟨by decide, by decide⟩ (by simp) ⟨List.nodup_nil, fun q h => by cases h⟩ (fun q _ h => by cases h)
      (kde_evidence_none List.nodup_nil) (kdeEx_seen _ _ h1')
      (by change Spec.Kde.exemplars kdeEx [1] ≠ []; rw [e2]; simp)
      fun _ => by change 1 < (Spec.Kde.exemplars kdeEx [1]).length; rw [e2]; simp
  obtain ⟨l3, p3⟩ := C65_logpdf_partial kdeEx_valid none (T := [(0, 3), (1, 0)]) (C := []) (Ev := [])
      ⟨by decide, by decide⟩ (by simp) ⟨List.nodup_nil, fun q h => by cases h⟩ (fun q _ h => by cases h)
      (kde_evidence_none List.nodup_nil) (kdeEx_seen _ _ h01)
      (by change Spec.Kde.exemplars kdeEx [0, 1] ≠ []; rw [e1]; simp)
      fun _ => by change 2 < (Spec.Kde.exemplars kdeEx [0, 1]).length; rw [e1]; simp
  refine ⟨kdeEx, kdeEx_valid, [(0, 3)], [(1, 0)], _, _, _, l1, l2, l3, ?_⟩
  rw [← Real.log_mul p1.ne' p2.ne']
  intro h
  have h' := Real.log_injOn_pos p3 (mul_pos p1 p2) h
  have hk : ∀ r v, closeness kdeEx r [((1 : Col), v)]
      = if v = (cell kdeEx r 1).getD 0 then 9 / 10 else 1 / 10 := by
    intro r v
    unfold closeness
    rw [List.map_singleton, List.prod_singleton, kdeEx_typ, if_pos rfl, kdeEx_band 1 (by simp),
      if_pos rfl, Kde.kernel_nominal]
    split <;> norm_num
  have hj : ∀ r, closeness kdeEx r [((0 : Col), (3 : ℝ)), (1, 0)]
      = closeness kdeEx r [(0, 3)] * closeness kdeEx r [(1, 0)] := fun r =>
    Kde.closeness_append r [(0, 3)] [(1, 0)]
  have hnil : ∀ r, closeness kdeEx r ([] : Dict Col ℝ) = 1 := fun r => rfl
  have c0 : closeness kdeEx 0 [((1 : Col), (0 : ℝ))] = 9 / 10 := by rw [hk, kdeEx_cell]; simp
  have c1 : closeness kdeEx 1 [((1 : Col), (0 : ℝ))] = 1 / 10 := by rw [hk, kdeEx_cell]; simp
  have c2 : closeness kdeEx 2 [((1 : Col), (0 : ℝ))] = 9 / 10 := by rw [hk, kdeEx_cell]; simp
  have c3 : closeness kdeEx 3 [((1 : Col), (0 : ℝ))] = 1 / 10 := by rw [hk, kdeEx_cell]; simp
  have k1 : Dict.keys [((0 : Col), (3 : ℝ)), (1, 0)] ++ Dict.keys ([] : Dict Col ℝ) = [0, 1] := rfl
  have k2 : Dict.keys [((0 : Col), (3 : ℝ))] ++ Dict.keys [((1 : Col), (0 : ℝ))] = [0, 1] := rfl
  have k3 : Dict.keys [((1 : Col), (0 : ℝ))] ++ Dict.keys ([] : Dict Col ℝ) = [1] := rfl
  have q0 := Kde.closeness_pos kdeEx_valid (d := [((0 : Col), (3 : ℝ))]) (by decide) 0
  have q1 := Kde.closeness_pos kdeEx_valid (d := [((0 : Col), (3 : ℝ))]) (by decide) 1
  have q2 := Kde.closeness_pos kdeEx_valid (d := [((0 : Col), (3 : ℝ))]) (by decide) 2
  unfold mixture at h'
  rw [k1, k2, k3, e1, e2] at h'
  simp only [hj, hnil, List.map_cons, List.map_nil, List.sum_cons, List.sum_nil, c0, c1, c2, c3] at h'
  norm_num at h'
  linarith

/-- The hypotheses of `C65_simulate_partial` and `C65_many_partial` hold for a query at a row. -/
example (S : Col → Set ℝ) (hS : ∀ q, MeasurableSet (S q)) : ∃ m : ℝ,
    (kdeEx.simulate (some 3) [0] [] [] none).prob (fun a => ∃ d, a = .inl d ∧ Mv.InBox [0] S d) = m ∧
    (kdeEx.simulate (some 3) [0] [] [] (some 2)).prob
      (fun a => ∃ l, a = .inr l ∧ List.Forall₂ (Mv.InBox [0]) [S, S] l) = m * m := by
  have h01 : ∀ q ∈ ([0, 1] : List Col), q = 0 ∨ q = 1 := by simp
  have hEv : Mv.Evidence kdeEx.outputs kdeEx.rows (some 3) [0] [] [((1 : Col), (1 : ℝ))] :=
    ⟨by decide, fun q => by
      rw [show (some 3).bind (fun r => Mv.cell kdeEx.outputs kdeEx.rows r q) = cell kdeEx 3 q from rfl,
        kdeEx_cell]
      by_cases h1 : q = 1
      · subst h1; simp [Dict.get?]
      · simp [Dict.get?, h1, Ne.symm h1]⟩
  have hR : Spec.Kde.exemplars kdeEx ([0] ++ Dict.keys [((1 : Col), (1 : ℝ))]) ≠ [] := by
    rw [show [0] ++ Dict.keys [((1 : Col), (1 : ℝ))] = [0, 1] from rfl, kdeEx_ex _ h01]
    simp
  have hC : Mv.Assigns kdeEx.outputs ([] : Dict Col ℝ) := ⟨List.nodup_nil, fun q h => by cases h⟩
  refine ⟨_, C65_simulate_partial kdeEx_valid (some 3) (by decide) (by simp) (by decide) hC
    (fun q _ h => by cases h) hEv (kdeEx_seen _ _ h01) hR hS, ?_⟩
  have h := C65_many_partial kdeEx_valid (some 3) (Ss := [S, S]) (by decide) (by simp) (by decide) hC
    (fun q _ h => by cases h) hEv (kdeEx_seen _ _ h01) hR (by simpa using hS)
  simpa using h

/-- After the row with the missing cell is removed, the hypotheses of `C65_chain_partial` hold. -/
example : ∃ a b, (kdeEx.run [.unc 3]).logpdf none (Mv.ofDict [(0, 3)]) [(1, 1)] [] = .ok (.fin a) ∧
    (kdeEx.run [.unc 3]).logpdf none (Mv.ofDict [(1, 1)]) [] [] = .ok (.fin b) ∧
    (kdeEx.run [.unc 3]).logpdf none (Mv.ofDict [(0, 3), (1, 1)]) [] [] = .ok (.fin (a + b)) := by
  have hV : Valid (kdeEx.run [.unc 3]) := C65_history kdeEx_valid (by simp [Allowed])
  have hcell : ∀ r q, r ≠ 3 → cell (kdeEx.run [.unc 3]) r q = cell kdeEx r q := by
    intro r q hr
    have hrows : (kdeEx.run [.unc 3]).rows.data = kdeEx.rows.data.erase 3 := rfl
    change ((Dict.get? (kdeEx.run [.unc 3]).rows.data r).bind _).join = _
    rw [hrows, Dict.get?_erase_ne _ hr]
    rfl
  have hkeys : (kdeEx.run [.unc 3]).rows.data.keys = [0, 1, 2] := rfl
  have hsome : ∀ r ∈ (kdeEx.run [.unc 3]).rows.data.keys, ∀ q ∈ (kdeEx.run [.unc 3]).outputs,
      (cell (kdeEx.run [.unc 3]) r q).isSome := by
    intro r hr q hq
    rw [hkeys] at hr
    change q ∈ [0, 1] at hq
    simp only [List.mem_cons, List.not_mem_nil, or_false] at hr hq
    rcases hr with rfl | rfl | rfl <;> rcases hq with rfl | rfl <;>
      rw [hcell _ _ (by decide), kdeEx_cell] <;> simp
  refine C65_chain_partial hV hsome (fun q hq k hk j hj => ?_) (by decide) (T := [(0, 3)]) (U := [(1, 1)])
    (C := []) (by simp) (by simp) ⟨by decide, by decide⟩
  rw [show typ (kdeEx.run [.unc 3]) q = typ kdeEx q from rfl, kdeEx_typ] at hk
  split at hk
  · next h1 =>
    cases hk
    subst h1
    have hex : ∀ r ∈ (kdeEx.run [.unc 3]).rows.data.keys,
        r ∈ Spec.Kde.exemplars (kdeEx.run [.unc 3]) (kdeEx.run [.unc 3]).outputs := fun r hr =>
      List.mem_filter.mpr ⟨hr, List.all_eq_true.mpr fun q hq => hsome r hr q hq⟩
    have : j = 0 ∨ j = 1 := by omega
    rcases this with rfl | rfl
    · exact ⟨0, hex 0 (by rw [hkeys]; simp), by rw [hcell _ _ (by decide), kdeEx_cell]; simp⟩
    · exact ⟨1, hex 1 (by rw [hkeys]; simp), by rw [hcell _ _ (by decide), kdeEx_cell]; simp⟩
  · cases hk

/-- A nominal variable with three categories, two of which were seen. -/
noncomputable def kdeTwo : Kde where
  outputs := [0]
  types := [.nominal 3]
  rows := ⟨2, [(0, [some 0]), (1, [some 1])]⟩
  bw := [1 / 10]

theorem kdeTwo_cell (r : Row) (q : Col) : cell kdeTwo r q =
    if r = 0 ∧ q = 0 then some 0 else if r = 1 ∧ q = 0 then some 1 else none := by
  have hq : q = 0 ∨ (q ≠ 0 ∧ [0].idxOf q = 1) := by
    by_cases h0 : q = 0
    · left; exact h0
    · right
      refine ⟨h0, ?_⟩
      rw [List.idxOf_eq_length (by simp [h0])]
      rfl
  change ((Dict.get? [((0 : Row), [some (0 : ℝ)]), (1, [some 1])] r).bind fun vs =>
    vs[[0].idxOf q]?).join = _
  by_cases h0 : r = 0
  · subst h0
    rcases hq with rfl | ⟨a, e⟩
    · simp [Dict.get?]
    · rw [e]; simp [Dict.get?, a]
  by_cases h1 : r = 1
  · subst h1
    rcases hq with rfl | ⟨a, e⟩
    · simp [Dict.get?]
    · rw [e]; simp [Dict.get?, a]
  · rw [show Dict.get? [((0 : Row), [some (0 : ℝ)]), (1, [some 1])] r = none by
        simp [Dict.get?, Ne.symm h0, Ne.symm h1]]
    simp [h0, h1]

theorem kdeTwo_valid : Valid kdeTwo := by
  have hmem : ∀ q, q ∈ kdeTwo.outputs → q = 0 := fun q h => List.mem_singleton.mp h
  refine ⟨⟨by decide, by change List.Nodup [0, 1]; decide, rfl, ?_⟩, rfl, rfl, ?_, ?_, ?_⟩
  · intro r vs h
    have h' := Dict.mem_of_get? h
    change (r, vs) ∈ [((0 : Row), [some (0 : ℝ)]), (1, [some 1])] at h'
    simp only [List.mem_cons, Prod.mk.injEq, List.not_mem_nil, or_false] at h'
    rcases h' with ⟨-, rfl⟩ | ⟨-, rfl⟩ <;> rfl
  · intro q hq h
    obtain rfl := hmem q hq
    cases h
  · intro q hq k hk
    obtain rfl := hmem q hq
    cases hk
    change 2 ≤ 3 ∧ (0 : ℝ) < 1 / 10 ∧ (1 : ℝ) / 10 < 1
    norm_num
  · intro q hq k hk r v hv
    obtain rfl := hmem q hq
    cases hk
    rw [kdeTwo_cell] at hv
    by_cases h0 : r = 0
    · subst h0; simp at hv; exact ⟨0, by omega, by simp [← hv]⟩
    by_cases h1 : r = 1
    · subst h1; simp at hv; exact ⟨1, by omega, by simp [← hv]⟩
    · simp [h0, h1] at hv

/-- The hypotheses of `C65_unseen_violated` hold. -/
example : ∃ p : Nat → ℝ, (∀ j : Nat, kdeTwo.logpdf none (Mv.ofDict [(0, (j : ℝ))]) [] []
    = .ok (.fin (Real.log (p j)))) ∧ (∀ j, 0 < p j) ∧ 1 < ∑ j ∈ Finset.range 3, p j := by
  have hd : distinct kdeTwo 0 = 2 := by
    unfold distinct
    have : {v : ℝ | ∃ r, cell kdeTwo r 0 = some v} = {0, 1} := by
      ext v
      simp only [Set.mem_ofPred_eq, Set.mem_insert_iff, Set.mem_singleton_iff]
      constructor
      · rintro ⟨r, h⟩
        rw [kdeTwo_cell] at h
        by_cases h0 : r = 0
        · subst h0; simp at h; exact Or.inl h.symm
        by_cases h1 : r = 1
        · subst h1; simp at h; exact Or.inr h.symm
        · simp [h0, h1] at h
      · rintro (rfl | rfl)
        · exact ⟨0, by rw [kdeTwo_cell]; simp⟩
        · exact ⟨1, by rw [kdeTwo_cell]; simp⟩
    rw [this, Set.ncard_pair (by norm_num)]
  exact C65_unseen_violated kdeTwo_valid (by decide) rfl (by rw [hd]) (by rw [hd]; decide)

/-- The hypotheses of `C65_few_violated` hold once one of the two rows is removed. -/
example : (kdeTwo.run [.unc 1]).logpdf none (Mv.ofDict [(0, 0)]) [] [] = .error .valueError := by
  have hV : Valid (kdeTwo.run [.unc 1]) := C65_history kdeTwo_valid (by simp [Allowed])
  have hex : Spec.Kde.exemplars (kdeTwo.run [.unc 1]) [0] = [0] := by
    change [0].filter (fun r => [0].all fun q => (cell (kdeTwo.run [.unc 1]) r q).isSome) = [0]
    have : (cell (kdeTwo.run [.unc 1]) 0 0).isSome = true := rfl
    rw [List.filter_cons, if_pos (by
      rw [List.all_eq_true]
      intro q hq
      obtain rfl := List.mem_singleton.mp hq
      exact this)]
    rfl
  exact (C65_few_violated hV (T := [(0, 0)]) ⟨by decide, by decide⟩ (by simp)
    (by rw [show Dict.keys [((0 : Col), (0 : ℝ))] = [0] from rfl, hex]; simp)
    (by rw [show Dict.keys [((0 : Col), (0 : ℝ))] = [0] from rfl, hex]; simp)).1

/-- The constructor and a history that `C65_history` covers. -/
example : ∃ o, Kde.new [0, 1] [] [.numeric, .nominal (some 2)] none = .ok o ∧
    Valid (o.run [.inc 0 [(0, some 1), (1, some 0)] [], .inc 0 [(0, some 1)] [], .learn [2, 1 / 3],
      .unc 5]) := by
  obtain ⟨o, h, hV, e1, e2, -⟩ := C65_new (outputs := [0, 1]) (by simp) (by decide)
    (types := [.numerical, .nominal 2]) rfl (by simp)
  refine ⟨o, h, C65_history hV ?_⟩
  have hty : ∀ q, typ o q = [KType.numerical, KType.nominal 2].getD ([0, 1].idxOf q) .numerical :=
    fun q => by unfold typ; rw [e1, e2]
  intro op hop
  simp only [List.mem_cons, List.not_mem_nil, or_false] at hop
  rcases hop with rfl | rfl | rfl | rfl
  · intro q hq k v hk hv
    rw [hty] at hk
    rw [e1] at hq
    simp only [List.mem_cons, List.not_mem_nil, or_false] at hq
    rcases hq with rfl | rfl
    · cases hk
    · cases hk
      simp [Dict.get?] at hv
      exact ⟨0, by omega, by simp [← hv]⟩
  · intro q hq k v hk hv
    rw [hty] at hk
    rw [e1] at hq
    simp only [List.mem_cons, List.not_mem_nil, or_false] at hq
    rcases hq with rfl | rfl
    · cases hk
    · simp [Dict.get?] at hv
  · refine ⟨by rw [e1]; rfl, fun q hq => ?_⟩
    rw [hty, e1]
    rw [e1] at hq
    simp only [List.mem_cons, List.not_mem_nil, or_false] at hq
    rcases hq with rfl | rfl
    · change (0 : ℝ) < 2
      norm_num
    · change (0 : ℝ) < 1 / 3 ∧ (1 : ℝ) / 3 < 1
      norm_num
  · trivial

/-- The hypotheses of `C65_score_partial` hold. -/
example : ∃ y, kdeEx.logpdfScore = .ok (.fin y) := by
  have hobs : ∀ r, Spec.Kde.observed kdeEx r
      = [0, 1].filterMap fun q => (cell kdeEx r q).map fun v => (q, v) := fun r => rfl
  refine ⟨_, C65_score_partial kdeEx_valid fun r hr => ?_⟩
  have ha := observed_keys (o := kdeEx) kdeEx_valid.nodup r
  have h01 : ∀ q ∈ (Spec.Kde.observed kdeEx r).keys, q = 0 ∨ q = 1 := fun q hq => by
    have := ha.known q hq
    change q ∈ [0, 1] at this
    simpa using this
  refine ⟨?_, kdeEx_seen _ _ h01, ?_⟩
  · change r ∈ [0, 1, 2, 3] at hr
    simp only [List.mem_cons, List.not_mem_nil, or_false] at hr
    rw [hobs]
    rcases hr with rfl | rfl | rfl | rfl <;> simp [kdeEx_cell]
  · rw [kdeEx_ex _ h01]
    change r ∈ [0, 1, 2, 3] at hr
    simp only [List.mem_cons, List.not_mem_nil, or_false] at hr
    rw [hobs]
    rcases hr with rfl | rfl | rfl | rfl <;> simp [kdeEx_cell, Dict.keys]

end Cgpm.Props
