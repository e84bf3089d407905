import Verif.Model.ColGibbs
import Verif.Spec.ColGibbs
import Verif.Lemmas.AuxGibbs
import Verif.Lemmas.RowGibbs
import Verif.Props.HyperGrid
import Mathlib.Algebra.BigOperators.Group.Finset.Basic

/-! The law of a view drawn by the constructor. -/
namespace Cgpm
open Cgpm.Props Cgpm.Spec Cgpm.Spec.Hyper Cgpm.View
open MeasureTheory hiding average

/-- An integral over the unit interval depends on the values in [0, 1). -/
theorem unit_congr {F G : ℝ → ℝ} (h : ∀ u, 0 ≤ u → u < 1 → F u = G u) :
    ∫ u in (0 : ℝ)..1, F u = ∫ u in (0 : ℝ)..1, G u := by
  rw [intervalIntegral.integral_of_le zero_le_one, intervalIntegral.integral_of_le zero_le_one,
    integral_Ioc_eq_integral_Ioo, integral_Ioc_eq_integral_Ioo]
  exact setIntegral_congr_fun measurableSet_Ioo fun u hu => h u hu.1.le hu.2

theorem average_append (a b : ℕ) (F : List ℝ → ℝ) :
    average (a + b) F = average a fun us => average b fun vs => F (us ++ vs) := by
  induction a generalizing F with
  | zero => simp [average]
  | succ a ih =>
    rw [Nat.succ_add]
    simp only [average, ih, List.cons_append]

theorem average_const (n : ℕ) (c : ℝ) : average n (fun _ => c) = c := by
  induction n with
  | zero => rfl
  | succ n ih => simp [average, ih]

/-- Draws that are not used do not matter. -/
theorem average_take (a b : ℕ) (F : List ℝ → ℝ) :
    average (a + b) (fun us => F (us.take a)) = average a F := by
  rw [average_append]
  refine average_congr fun us hl _ => ?_
  rw [average_congr (F' := fun _ => F us) fun vs _ _ => by rw [← hl, List.take_left], average_const]

/-! ### One row -/

namespace Crp

theorem support_spec {s : Crp} (h : Inv s) (ha : 0 < s.alpha) :
    s.simulateSupport ≠ [] ∧ s.simulateSupport.Nodup ∧
    (∃ k0, ¬ (∃ r, s.data.get? r = some k0) ∧
      ∀ k, k ∈ s.simulateSupport ↔ k = k0 ∨ ∃ r, s.data.get? r = some k) ∧
    (s.simulateSupport.map fun k => Real.exp (calcPredictiveLogp k s.N s.counts s.alpha)).sum = 1 := by
  have hpos := denom_pos h ha
  have hlp : ∀ t, Real.exp (calcPredictiveLogp t s.N s.counts s.alpha) = wt s t / (s.N + s.alpha) :=
    fun t => pr_predictive h ha t
  have hfresh : s.counts.get? (pyMax s.counts.keys + 1) = none := by
    rw [Dict.get?_eq_none_iff]; exact fresh_not_mem _ 0
  by_cases he : s.counts = []
  · have hk : s.simulateSupport = [0] := by simp [simulateSupport, he]
    have hN : s.N = 0 := by rw [← sum_counts h, he]; rfl
    have hno : ∀ k, ¬ ∃ r, s.data.get? r = some k := by
      intro k hk
      have := (occupied_iff h k).mpr hk
      rw [he] at this; simp [Dict.keys] at this
    refine ⟨by simp [hk], by simp [hk], ⟨0, hno 0, fun k => ?_⟩, ?_⟩
    · rw [hk]; simp [hno k]
    · rw [hk]
      simp only [List.map_cons, List.map_nil, List.sum_cons, List.sum_nil, add_zero]
      rw [hlp 0]
      simp [wt, he, hN, ha.ne']
  · have hk : s.simulateSupport = pySorted s.counts.keys ++ [pyMax s.counts.keys + 1] := by
      simp [simulateSupport, he]
    have hp := pySorted_perm s.counts.keys
    refine ⟨by simp [hk], ?_, ⟨pyMax s.counts.keys + 1, ?_, fun k => ?_⟩, ?_⟩
    · rw [hk]
      refine List.Nodup.append (hp.nodup_iff.mpr h.wfCounts) (List.nodup_singleton _) ?_
      rw [List.disjoint_singleton, hp.mem_iff]
      exact fresh_not_mem _ 0
    · rw [← occupied_iff h]; exact fresh_not_mem _ 0
    · rw [hk, List.mem_append, hp.mem_iff, occupied_iff h, List.mem_singleton]
      exact or_comm
    · rw [hk, List.map_append, List.sum_append, (hp.map _).sum_eq]
      have hw : wt s (pyMax s.counts.keys + 1) = s.alpha := by simp [wt, hfresh]
      simp only [hlp, List.map_cons, List.map_nil, List.sum_cons, List.sum_nil, add_zero, hw,
        sum_map_div, sum_occupied h]
      field_simp

/-- The law of `simulate` for a row that is not seated. -/
theorem simulate_average {s : Crp} (h : Inv s) (ha : 0 < s.alpha) {r : Row}
    (hr : s.data.get? r = none) (F : Except Exn Tab → ℝ) :
    ∫ u in (0 : ℝ)..1, F (s.simulate r u)
      = (s.simulateSupport.map fun k =>
          Real.exp (calcPredictiveLogp k s.N s.counts s.alpha) * F (.ok k)).sum := by
  obtain ⟨hne, -, -, hsum⟩ := support_spec h ha
  set K := s.simulateSupport with hK
  set P : Tab → ℝ := fun k => calcPredictiveLogp k s.N s.counts s.alpha with hP
  obtain ⟨p, hp, h0, h1, hpi, hd⟩ := logPflip_array (K.map P) (by simpa using hne) K (by simp)
  let G : ℕ → ℝ := fun i => if h' : i < K.length then F (.ok K[i]) else 0
  have hint : ∫ u in (0 : ℝ)..1, F (s.simulate r u) = ∫ u in (0 : ℝ)..1, G (choiceIdx p u) := by
    refine unit_congr fun u hu hu1 => ?_
    obtain ⟨hlt, e⟩ := hd u hu hu1
    have hl : (K.map P).map Fl.fin = K.map fun x => Fl.ofLogP (s.logpdf (some r) x) := by
      rw [List.map_map]
      refine List.map_congr_left fun k _ => ?_
      simp [logpdf, hr, hP, Fl.ofLogP]
    rw [hl] at e
    simp only [simulate, hr, ← hK, e, G, dif_pos hlt]
  have hs1 : ((K.map P).map Real.exp).sum = 1 := by
    rw [List.map_map]; exact hsum
  rw [hint, integral_choice h0 h1 G, ← List.sum_ofFn]
  congr 1
  refine List.ext_getElem (by simp [hp]) fun i hi hi' => ?_
  have hiK : i < K.length := by simpa using hi'
  have hip : i < p.length := by simpa using hi
  simp only [List.getElem_ofFn, List.getElem_map, Fin.getElem_fin]
  rw [hpi i hip (by simpa using hiK), hs1]
  simp only [G, dif_pos hiK, List.getElem_map, div_one, hP]

end Crp

/-! ### All rows -/

/-- The partition of the first `n` rows by a Crp. -/
def crpPart (n : ℕ) (s : Crp) : RowPartition (Finset.range n) :=
  Setoid.ker fun r => s.data.get? r.1

/-- `sc` is the score of a Crp with concentration `a`, as a function of the partition. -/
def CrpScore (a : ℝ) (n : ℕ) (sc : RowPartition (Finset.range n) → ℝ) : Prop :=
  ∀ s : Crp, Crp.Inv s → s.alpha = a → (∀ r, s.data.get? r ≠ none ↔ r < n) →
    sc (crpPart n s) = s.logpdfScore

theorem crpScore_part {a b : Crp} (ha : Crp.Inv a) (hb : Crp.Inv b) (hα : a.alpha = b.alpha)
    {n : ℕ} (hra : ∀ r, a.data.get? r ≠ none ↔ r < n) (hrb : ∀ r, b.data.get? r ≠ none ↔ r < n)
    (hp : crpPart n a = crpPart n b) : a.logpdfScore = b.logpdfScore := by
  obtain ⟨ρ, hρ⟩ := exists_relabel (s := fun r => a.data.get? r) (t := fun r => b.data.get? r)
    (fun r => (hrb r).trans (hra r).symm) (by
      intro r r' hr hr'
      have := Setoid.ext_iff.mp hp ⟨r, by simpa using (hra r).mp hr⟩ ⟨r', by simpa using (hra r').mp hr'⟩
      exact this)
  exact crp_score_relabel ha hb hα hρ

open Classical in
/-- The score of the partition `q` with concentration `a`. -/
noncomputable def crpWeightOf (a : ℝ) (n : ℕ) (q : RowPartition (Finset.range n)) : ℝ :=
  if h : ∃ s : Crp, Crp.Inv s ∧ s.alpha = a ∧ (∀ r, s.data.get? r ≠ none ↔ r < n) ∧ crpPart n s = q
  then h.choose.logpdfScore else 0

theorem crpWeightOf_score (a : ℝ) (n : ℕ) : CrpScore a n (crpWeightOf a n) := by
  intro s h1 h2 h3
  have hex : ∃ s' : Crp, Crp.Inv s' ∧ s'.alpha = a ∧ (∀ r, s'.data.get? r ≠ none ↔ r < n) ∧
      crpPart n s' = crpPart n s := ⟨s, h1, h2, h3, rfl⟩
  unfold crpWeightOf
  rw [dif_pos hex]
  obtain ⟨g1, g2, g3, g4⟩ := hex.choose_spec
  exact crpScore_part g1 h1 (g2.trans h2.symm) g3 h3 g4

/-- The partition `q` agrees with the seats of `s` on the first `i` rows. -/
def Extends {n : ℕ} (i : ℕ) (s : Crp) (q : RowPartition (Finset.range n)) : Prop :=
  ∀ a b : {r // r ∈ Finset.range n}, a.1 < i → b.1 < i →
    (q.r a b ↔ s.data.get? a.1 = s.data.get? b.1)

/-- A partition that agrees with the seats so far puts the next row in exactly one of the tables
that `simulate` considers. -/
theorem extends_unique {n i : ℕ} (hi : i < n) {s : Crp} (h : Crp.Inv s) (ha : 0 < s.alpha)
    (hs : ∀ r, s.data.get? r ≠ none ↔ r < i) {q : RowPartition (Finset.range n)}
    (hq : Extends i s q) {s' : Tab → Crp}
    (hs' : ∀ z r, (s' z).data.get? r = if r = i then some z else s.data.get? r) :
    ∃ z ∈ s.simulateSupport, ∀ z' ∈ s.simulateSupport, Extends (i + 1) (s' z') q ↔ z' = z := by
  obtain ⟨-, -, ⟨k0, hk0, hmem⟩, -⟩ := Crp.support_spec h ha
  have hi' : i ∈ Finset.range n := by simpa using hi
  have hold : ∀ z r, r < i → (s' z).data.get? r = s.data.get? r := fun z r hr => by
    rw [hs', if_neg hr.ne]
  have hself : ∀ z, (s' z).data.get? i = some z := fun z => by rw [hs', if_pos rfl]
  have hext : ∀ z, Extends (i + 1) (s' z) q ↔
      ∀ a : {r // r ∈ Finset.range n}, a.1 < i → (q.r a ⟨i, hi'⟩ ↔ s.data.get? a.1 = some z) := by
    intro z
    constructor
    · intro he a hai
      rw [he a ⟨i, hi'⟩ (by omega) (by simp), hold z a.1 hai, hself]
    · intro he a b hai hbi
      rcases Nat.lt_succ_iff_lt_or_eq.mp hai with h1 | h1 <;>
        rcases Nat.lt_succ_iff_lt_or_eq.mp hbi with h2 | h2
      · rw [hold z _ h1, hold z _ h2]; exact hq a b h1 h2
      · have : b = ⟨i, hi'⟩ := Subtype.ext h2
        subst this
        rw [he a h1, hold z _ h1, hself]
      · have : a = ⟨i, hi'⟩ := Subtype.ext h1
        subst this
        rw [hold z _ h2, hself, eq_comm, ← he b h2]
        exact ⟨fun g => q.symm g, fun g => q.symm g⟩
      · have : a = b := Subtype.ext (h1.trans h2.symm)
        subst this
        exact ⟨fun _ => rfl, fun _ => q.refl a⟩
  by_cases hj : ∃ a : {r // r ∈ Finset.range n}, a.1 < i ∧ q.r a ⟨i, hi'⟩
  · obtain ⟨a, hai, haq⟩ := hj
    obtain ⟨z, hz⟩ := Option.ne_none_iff_exists'.mp ((hs a.1).mpr hai)
    refine ⟨z, (hmem z).mpr (Or.inr ⟨a.1, hz⟩), fun z' _ => ?_⟩
    rw [hext]
    constructor
    · intro he
      have := (he a hai).mp haq
      rw [hz] at this; exact (Option.some.inj this).symm
    · rintro rfl b hbi
      rw [← hz, ← hq b a hbi hai]
      exact ⟨fun g => q.trans g (q.symm haq), fun g => q.trans g haq⟩
  · refine ⟨k0, (hmem k0).mpr (Or.inl rfl), fun z' hz' => ?_⟩
    rw [hext]
    constructor
    · intro he
      rcases (hmem z').mp hz' with h1 | ⟨r, h1⟩
      · exact h1
      · have hri : r < i := (hs r).mp (by simp [h1])
        have hrn : r ∈ Finset.range n := Finset.mem_range.mpr (lt_trans hri hi)
        exact absurd ⟨⟨r, hrn⟩, hri, (he ⟨r, hrn⟩ hri).mpr h1⟩ hj
    · rintro rfl b hbi
      constructor
      · intro g; exact absurd ⟨b, hbi, g⟩ hj
      · intro g; exact absurd ⟨b.1, g⟩ hk0

open Classical in
/-- The law of the clusters of the rows from row `i` on. -/
theorem simulateRows_average {n : ℕ} {a : ℝ} (ha : 0 < a) {sc : RowPartition (Finset.range n) → ℝ}
    (hsc : CrpScore a n sc) (F : Out Crp → ℝ) (G : RowPartition (Finset.range n) → ℝ)
    (hF : ∀ s, Crp.Inv s → s.alpha = a → (∀ r, s.data.get? r ≠ none ↔ r < n) →
      F (.ok s) = G (crpPart n s)) (k i : ℕ) (hk : i + k = n) {s : Crp} (h : Crp.Inv s)
    (hα : s.alpha = a) (hs : ∀ r, s.data.get? r ≠ none ↔ r < i) :
    average k (fun us => F (State.simulateRows s us i))
      = ∑ q with Extends i s q, Real.exp (sc q - s.logpdfScore) * G q := by
  induction k generalizing i s with
  | zero =>
    have hin : i = n := by omega
    subst hin
    simp only [average, State.simulateRows]
    rw [hF s h hα hs]
    have : (Finset.univ.filter fun q => Extends i s q) = {crpPart i s} := by
      ext q
      simp only [Finset.mem_filter, Finset.mem_univ, true_and, Finset.mem_singleton]
      constructor
      · intro he
        refine Setoid.ext fun x y => ?_
        exact he x y (Finset.mem_range.mp x.2) (Finset.mem_range.mp y.2)
      · rintro rfl x y _ _
        exact Iff.rfl
    rw [this, Finset.sum_singleton, hsc s h hα hs]
    simp
  | succ k ih =>
    have hi : i < n := by omega
    have ha' : 0 < s.alpha := by rw [hα]; exact ha
    have hir : s.data.get? i = none := not_not.mp fun hne =>
      absurd ((hs i).mp hne) (lt_irrefl i)
    have hinc : ∀ z, ∃ s', s.incorporate i z = .ok s' ∧ Crp.Inv s' ∧ s'.alpha = s.alpha ∧
        ∀ r, s'.data.get? r = if r = i then some z else s.data.get? r :=
      fun z => Crp.inc_data h z hir
    choose s' e1 e2 e3 e4 using hinc
    have hscore : ∀ z, (s' z).logpdfScore
        = s.logpdfScore + Crp.calcPredictiveLogp z s.N s.counts s.alpha := by
      intro z
      have := score_incorporate h ha' (x := z) hir
      rw [e1 z] at this
      exact this
    have hs' : ∀ z r, (s' z).data.get? r ≠ none ↔ r < i + 1 := by
      intro z r
      rw [e4 z]
      split
      · rename_i e; simp [e]
      · rename_i e
        rw [hs r]
        exact ⟨fun h => Nat.lt_succ_of_lt h, fun h => lt_of_le_of_ne (Nat.lt_succ_iff.mp h) e⟩
    obtain ⟨Φ, hΦ⟩ : ∃ Φ : Except Exn Tab → ℝ, ∀ z, Φ (.ok z)
        = ∑ q with Extends (i + 1) (s' z) q, Real.exp (sc q - (s' z).logpdfScore) * G q :=
      ⟨fun x => match x with
        | .error _ => 0
        | .ok z => ∑ q with Extends (i + 1) (s' z) q,
            Real.exp (sc q - (s' z).logpdfScore) * G q, fun _ => rfl⟩
    have hstep : average (k + 1) (fun us => F (State.simulateRows s us i))
        = ∫ u in (0 : ℝ)..1, Φ (s.simulate i u) := by
      rw [average]
      refine unit_congr fun u hu hu1 => ?_
      obtain ⟨hne, -, -, -⟩ := Crp.support_spec h ha'
      have hok : ∃ z, s.simulate i u = .ok z := by
        obtain ⟨p, hp, h0, h1, hpi, hd⟩ := logPflip_array
          (s.simulateSupport.map fun k => Crp.calcPredictiveLogp k s.N s.counts s.alpha)
          (by simpa using hne) s.simulateSupport (by simp)
        obtain ⟨hlt, e⟩ := hd u hu hu1
        refine ⟨s.simulateSupport[choiceIdx p u], ?_⟩
        have hl : (s.simulateSupport.map fun k =>
            Crp.calcPredictiveLogp k s.N s.counts s.alpha).map Fl.fin
            = s.simulateSupport.map fun x => Fl.ofLogP (s.logpdf (some i) x) := by
          rw [List.map_map]
          refine List.map_congr_left fun k _ => ?_
          simp [Crp.logpdf, hir, Fl.ofLogP]
        rw [hl] at e
        simp only [Crp.simulate, hir, e]
      obtain ⟨z, hz⟩ := hok
      simp only [State.simulateRows, hz, e1 z, Out.bind_ok, hΦ]
      exact ih (i + 1) (by omega) (e2 z) ((e3 z).trans hα) (hs' z)
    rw [hstep, Crp.simulate_average h ha' hir]
    have hnd := (Crp.support_spec h ha').2.1
    rw [← List.sum_toFinset _ hnd]
    simp only [hΦ, Finset.mul_sum]
    have hx : ∀ z, ∀ q, Real.exp (Crp.calcPredictiveLogp z s.N s.counts s.alpha)
          * (Real.exp (sc q - (s' z).logpdfScore) * G q)
        = Real.exp (sc q - s.logpdfScore) * G q := by
      intro z q
      rw [← mul_assoc, ← Real.exp_add, hscore z]
      congr 2; ring
    simp only [hx]
    simp only [Finset.sum_filter]
    rw [Finset.sum_comm]
    refine Finset.sum_congr rfl fun q _ => ?_
    by_cases hq : Extends i s q
    · rw [if_pos hq]
      obtain ⟨z, hz, hz'⟩ := extends_unique hi h ha' hs hq e4
      rw [Finset.sum_eq_single z]
      · rw [if_pos ((hz' z hz).mpr rfl)]
      · intro z1 hz1 hne
        rw [if_neg]
        intro hcon
        exact hne ((hz' z1 (by simpa using hz1)).mp hcon)
      · intro hn; exact absurd (by simpa using hz) hn
    · rw [if_neg hq]
      refine Finset.sum_eq_zero fun z _ => ?_
      rw [if_neg]
      intro he
      apply hq
      intro x y hx hy
      rw [he x y (Nat.lt_succ_of_lt hx) (Nat.lt_succ_of_lt hy), e4 z, e4 z, if_neg hx.ne,
        if_neg hy.ne]

/-! ### The concentration -/

theorem uniformIndex_lt {n : ℕ} (hn : 0 < n) {u : ℝ} (hu : 0 ≤ u) (hu1 : u < 1) :
    State.uniformIndex n u < n := by
  unfold State.uniformIndex
  have hn' : (0 : ℝ) < n := by exact_mod_cast hn
  rw [Nat.floor_lt (by positivity)]
  nlinarith

theorem prefSum_replicate (n k : ℕ) (x : ℝ) (hk : k ≤ n) :
    prefSum (List.replicate n x) k = k * x := by
  unfold prefSum
  rw [List.take_replicate, List.sum_replicate, min_eq_left hk, nsmul_eq_mul]

theorem integral_uniform {n : ℕ} (hn : 0 < n) (G : ℕ → ℝ) :
    ∫ u in (0 : ℝ)..1, G (State.uniformIndex n u) = (∑ i ∈ Finset.range n, G i) / n := by
  have hn' : (0 : ℝ) < n := by exact_mod_cast hn
  have h0 : ∀ x ∈ List.replicate n (1 / (n : ℝ)), 0 ≤ x := by
    intro x hx
    rw [(List.mem_replicate.mp hx).2]; positivity
  have h1 : (List.replicate n (1 / (n : ℝ))).sum = 1 := by
    rw [List.sum_replicate, nsmul_eq_mul]; field_simp
  have : ∫ u in (0 : ℝ)..1, G (State.uniformIndex n u)
      = ∫ u in (0 : ℝ)..1, G (choiceIdx (List.replicate n (1 / (n : ℝ))) u) := by
    refine unit_congr fun u hu hu1 => ?_
    congr 1
    have hlt := uniformIndex_lt hn hu hu1
    refine ((choiceIdx_iff h0 hu (by simpa using hlt)).mpr ?_).symm
    rw [prefSum_replicate _ _ _ hlt.le, prefSum_replicate _ _ _ hlt]
    have hf : ((State.uniformIndex n u : ℕ) : ℝ) ≤ u * n := Nat.floor_le (by positivity)
    have hf' : u * n < (State.uniformIndex n u : ℕ) + 1 := Nat.lt_floor_add_one _
    constructor
    · rw [mul_one_div, div_le_iff₀ hn']; exact hf
    · push_cast
      rw [mul_one_div, lt_div_iff₀ hn']; exact hf'
  rw [this, integral_choice h0 h1 G, Finset.sum_div, Finset.sum_range]
  refine Fintype.sum_equiv (finCongr (by simp)) _ _ fun i => ?_
  simp
  ring

theorem concentrations_ok {n : ℕ} (hn : 0 < n) :
    Hyper.crpGrids (List.replicate n 1) 30 = .ok [("alpha", concentrations n)] ∧
      (concentrations n).length = 30 ∧ ∀ v ∈ concentrations n, 0 < v := by
  obtain ⟨l, e, hl, -, hpos⟩ := Hyper.crpGrids_ok (X := List.replicate n (1 : ℝ))
    (by simp; omega) (n := 30) (by norm_num)
  have : concentrations n = l := by unfold concentrations; rw [e]
  rw [this]
  exact ⟨e, hl, hpos⟩

theorem newCrp_ok {n : ℕ} (hn : 0 < n) {u : ℝ} (hu : 0 ≤ u) (hu1 : u < 1) :
    ∃ h : State.uniformIndex 30 u < (concentrations n).length,
      State.newCrp n u = .ok (Crp.init (concentrations n)[State.uniformIndex 30 u]) := by
  obtain ⟨e, hl, -⟩ := concentrations_ok hn
  have hlt : State.uniformIndex 30 u < (concentrations n).length := by
    rw [hl]; exact uniformIndex_lt (by norm_num) hu hu1
  refine ⟨hlt, ?_⟩
  have hf : (List.replicate n (some (1 : ℝ))).filterMap id = List.replicate n 1 := by
    rw [List.filterMap_replicate]; simp
  unfold State.newCrp Hyper.transitionHyperGrids
  simp only [hf, e]
  have hc : Hyper.choice (concentrations n) (State.uniformIndex 30 u)
      = .ok (concentrations n)[State.uniformIndex 30 u] := by
    unfold Hyper.choice
    rw [List.getElem?_eq_getElem hlt]
  simp [Hyper.firstHypers, hc, Hyper.crpApi, Dict.get?]

open Classical in
theorem sum_grid {n : ℕ} (hn : 0 < n) (G : ℝ → ℝ) :
    (∑ i ∈ Finset.range 30, if h : i < (concentrations n).length then G (concentrations n)[i] else 0) / 30
      = ∑ a ∈ (concentrations n).toFinset, concentrationPrior n a * G a := by
  obtain ⟨-, hl, -⟩ := concentrations_ok hn
  have h1 : (∑ i ∈ Finset.range 30,
      if h : i < (concentrations n).length then G (concentrations n)[i] else 0)
      = ((concentrations n).map G).sum := by
    rw [← hl, Finset.sum_range]
    rw [← List.sum_ofFn]
    congr 1
    refine List.ext_getElem (by simp) fun i h h' => ?_
    simp
  rw [h1, Finset.sum_list_map_count, Finset.sum_div]
  refine Finset.sum_congr rfl fun a _ => ?_
  rw [concentrationPrior, hl, nsmul_eq_mul]
  push_cast
  ring

/-! ### The views -/

/-- The concentration and the row partition of a new view. -/
def labelOf (n : ℕ) (x : ℝ × (Row → Tab)) : ℝ × RowPartition (Finset.range n) :=
  (x.1, Setoid.ker fun r => x.2 r.1)

open Classical in
/-- The labels of new views, -/
noncomputable def labels (n : ℕ) : Finset (ℝ × RowPartition (Finset.range n)) :=
  (concentrations n).toFinset ×ˢ Finset.univ

/-- and their law. -/
noncomputable def labelLaw (n : ℕ) (l : ℝ × RowPartition (Finset.range n)) : ℝ :=
  concentrationPrior n l.1 * Real.exp (crpWeightOf l.1 n l.2)

theorem mem_labels {n : ℕ} {l : ℝ × RowPartition (Finset.range n)} :
    l ∈ labels n ↔ l.1 ∈ concentrations n := by simp [labels]

theorem crpScore_init (a : ℝ) : (Crp.init a).logpdfScore = 0 := by
  simp [Crp.init, Crp.logpdfScore, Crp.calcLogpdfMarginal, Dict.vals]

/-- The law of the clusters of a new view with concentration `a`. -/
theorem simulateAll_average {n : ℕ} {a : ℝ} (ha : 0 < a) (F : Out Crp → ℝ)
    (G : RowPartition (Finset.range n) → ℝ)
    (hF : ∀ s, Crp.Inv s → s.alpha = a → (∀ r, s.data.get? r ≠ none ↔ r < n) →
      F (.ok s) = G (crpPart n s)) :
    average n (fun us => F (State.simulateRows (Crp.init a) us 0))
      = ∑ q, Real.exp (crpWeightOf a n q) * G q := by
  classical
  rw [simulateRows_average ha (crpWeightOf_score a n) F G hF n 0 (by omega) (Crp.inv_init a) rfl
    (fun r => by simp [Crp.init])]
  rw [Finset.filter_true_of_mem fun q _ x y hx _ => absurd hx (Nat.not_lt_zero _)]
  simp only [crpScore_init, sub_zero]

/-- A view is drawn without raising. -/
theorem simulateRows_ok {n : ℕ} {a : ℝ} (ha : 0 < a) (us : List ℝ) (i : ℕ)
    (hu : ∀ u ∈ us, 0 ≤ u ∧ u < 1) {s : Crp} (h : Crp.Inv s) (hα : s.alpha = a)
    (hs : ∀ r, s.data.get? r ≠ none ↔ r < i) (hn : i + us.length = n) :
    ∃ s', State.simulateRows s us i = .ok s' ∧ Crp.Inv s' ∧ s'.alpha = a ∧
      ∀ r, s'.data.get? r ≠ none ↔ r < n := by
  induction us generalizing i s with
  | nil => exact ⟨s, rfl, h, hα, by simpa [← hn] using hs⟩
  | cons u us ih =>
    have ha' : 0 < s.alpha := by rw [hα]; exact ha
    have hir : s.data.get? i = none := not_not.mp fun hne =>
      absurd ((hs i).mp hne) (lt_irrefl i)
    obtain ⟨hne, -, -, -⟩ := Crp.support_spec h ha'
    obtain ⟨p, hp, h0, h1, hpi, hd⟩ := logPflip_array
      (s.simulateSupport.map fun k => Crp.calcPredictiveLogp k s.N s.counts s.alpha)
      (by simpa using hne) s.simulateSupport (by simp)
    obtain ⟨hlt, e⟩ := hd u (hu u (by simp)).1 (hu u (by simp)).2
    have hl : (s.simulateSupport.map fun k =>
        Crp.calcPredictiveLogp k s.N s.counts s.alpha).map Fl.fin
        = s.simulateSupport.map fun x => Fl.ofLogP (s.logpdf (some i) x) := by
      rw [List.map_map]
      refine List.map_congr_left fun k _ => ?_
      simp [Crp.logpdf, hir, Fl.ofLogP]
    rw [hl] at e
    obtain ⟨s1, e1, e2, e3, e4⟩ := Crp.inc_data h (s.simulateSupport[choiceIdx p u]) hir
    obtain ⟨s', g1, g2⟩ := ih (i + 1) (fun v hv => hu v (by simp [hv])) e2 (e3.trans hα)
      (fun r => by
        rw [e4]
        split
        · rename_i e; simp [e]
        · rename_i e
          rw [hs r]
          exact ⟨fun h => Nat.lt_succ_of_lt h, fun h => lt_of_le_of_ne (Nat.lt_succ_iff.mp h) e⟩)
      (by simp at hn; omega)
    refine ⟨s', ?_, g2⟩
    simp only [State.simulateRows, Crp.simulate, hir, e, e1, Out.bind_ok, g1]

theorem drawView_ok {n : ℕ} (hn : 0 < n) {us : List ℝ} (hl : us.length = n + 1)
    (hu : ∀ u ∈ us, 0 ≤ u ∧ u < 1) :
    ∃ x, State.drawView n us = .ok x ∧ x.1 ∈ concentrations n := by
  cases us with
  | nil => simp at hl
  | cons u us =>
    obtain ⟨hlt, e⟩ := newCrp_ok hn (hu u (by simp)).1 (hu u (by simp)).2
    have hpos := (concentrations_ok hn).2.2 _ (List.getElem_mem hlt)
    obtain ⟨s', g1, g2, g3, g4⟩ := simulateRows_ok (n := n) hpos (us.take n) 0
      (fun v hv => hu v (by simp [List.mem_of_mem_take hv])) (Crp.inv_init _) rfl
      (fun r => by simp [Crp.init]) (by simp at hl ⊢; omega)
    refine ⟨(s'.alpha, fun r => (s'.data.get? r).getD 0), ?_, ?_⟩
    · simp only [State.drawView, e, g1]
    · simp only [g3]
      exact List.getElem_mem hlt

theorem auxViews_ok {n : ℕ} (hn : 0 < n) (m : ℕ) {us : List ℝ} (hl : us.length = m * (n + 1))
    (hu : ∀ u ∈ us, 0 ≤ u ∧ u < 1) :
    ∃ l, State.auxViews n m us = .ok l ∧ l.length = m ∧ ∀ x ∈ l, x.1 ∈ concentrations n := by
  induction m generalizing us with
  | zero => exact ⟨[], rfl, rfl, by simp⟩
  | succ m ih =>
    have hl' : us.length = m * (n + 1) + (n + 1) := by rw [hl]; ring
    obtain ⟨x, e1, hx⟩ := drawView_ok hn (us := us.take (n + 1))
      (by rw [List.length_take]; omega) (fun u hm => hu u (List.mem_of_mem_take hm))
    obtain ⟨l, e2, h2, h3⟩ := ih (us := us.drop (n + 1)) (by rw [List.length_drop]; omega)
      (fun u hm => hu u (List.mem_of_mem_drop hm))
    refine ⟨x :: l, by simp only [State.auxViews, e1, e2], by simp [h2], ?_⟩
    intro y hy
    rcases List.mem_cons.mp hy with rfl | hy
    · exact hx
    · exact h3 y hy

/-- The law of a new view. -/
theorem drawView_average {n : ℕ} (hn : 0 < n) (F : Except Exn (ℝ × (Row → Tab)) → ℝ)
    (G : ℝ × RowPartition (Finset.range n) → ℝ)
    (hF : ∀ x : ℝ × (Row → Tab), x.1 ∈ concentrations n → F (.ok x) = G (labelOf n x)) :
    average (n + 1) (fun us => F (State.drawView n us)) = ∑ l ∈ labels n, labelLaw n l * G l := by
  classical
  obtain ⟨-, hl30, hpos⟩ := concentrations_ok hn
  set Φ : ℕ → ℝ := fun i => if h : i < (concentrations n).length then
    ∑ q, Real.exp (crpWeightOf (concentrations n)[i] n q) * G ((concentrations n)[i], q) else 0
    with hΦ
  have h1 : average (n + 1) (fun us => F (State.drawView n us))
      = ∫ u in (0 : ℝ)..1, Φ (State.uniformIndex 30 u) := by
    rw [average]
    refine unit_congr fun u hu hu1 => ?_
    obtain ⟨hlt, e⟩ := newCrp_ok hn hu hu1
    simp only [hΦ, dif_pos hlt]
    set a := (concentrations n)[State.uniformIndex 30 u] with ha
    have hmem : a ∈ concentrations n := List.getElem_mem hlt
    obtain ⟨Ψ, hΨ, hΨ'⟩ : ∃ Ψ : Out Crp → ℝ, (∀ o, Ψ o = F (match o with
        | .err e _ => .error e
        | .ok crp' => .ok (crp'.alpha, fun r => (crp'.data.get? r).getD 0))) ∧ True :=
      ⟨_, fun _ => rfl, trivial⟩
    have h2 := simulateAll_average (n := n) (hpos a hmem) Ψ (fun q => G (a, q)) (by
      intro s hs1 hs2 hs3
      rw [hΨ]
      show F (.ok _) = _
      rw [hF _ (by simpa [hs2] using hmem)]
      congr 1
      unfold labelOf
      simp only [hs2, Prod.mk.injEq, true_and]
      refine Setoid.ext fun x y => ?_
      obtain ⟨z1, e1⟩ := Option.ne_none_iff_exists'.mp ((hs3 x.1).mpr (Finset.mem_range.mp x.2))
      obtain ⟨z2, e2⟩ := Option.ne_none_iff_exists'.mp ((hs3 y.1).mpr (Finset.mem_range.mp y.2))
      change (s.data.get? x.1).getD 0 = (s.data.get? y.1).getD 0 ↔ s.data.get? x.1 = s.data.get? y.1
      rw [e1, e2]; simp)
    rw [← h2]
    refine average_congr fun us hl _ => ?_
    rw [hΨ]
    have ht : us.take n = us := by rw [← hl, List.take_length]
    simp only [State.drawView, e, ht]
    cases State.simulateRows (Crp.init a) us 0 <;> rfl
  rw [h1, integral_uniform (by norm_num) Φ]
  have h2 := sum_grid hn fun a => ∑ q, Real.exp (crpWeightOf a n q) * G (a, q)
  simp only [hΦ]
  push_cast
  rw [h2, labels, Finset.sum_product]
  refine Finset.sum_congr rfl fun a _ => ?_
  rw [Finset.mul_sum]
  exact Finset.sum_congr rfl fun q _ => by rw [labelLaw]; ring

theorem labelLaw_sum {n : ℕ} (hn : 0 < n) : ∑ l ∈ labels n, labelLaw n l = 1 := by
  have := drawView_average hn (fun _ => 1) (fun _ => 1) (fun _ _ => rfl)
  rw [average_const] at this
  simpa using this.symm

open Classical in
theorem concentrationPrior_pos {n : ℕ} {a : ℝ} (h : a ∈ concentrations n) :
    0 < concentrationPrior n a := by
  unfold concentrationPrior
  have h1 : 0 < (concentrations n).count a := List.count_pos_iff.mpr h
  have h2 : 0 < (concentrations n).length := List.length_pos_of_mem h
  have h1' : (0 : ℝ) < (concentrations n).count a := by exact_mod_cast h1
  have h2' : (0 : ℝ) < (concentrations n).length := by exact_mod_cast h2
  exact div_pos h1' h2'

theorem labelLaw_pos {n : ℕ} {l : ℝ × RowPartition (Finset.range n)} (h : l ∈ labels n) :
    0 < labelLaw n l :=
  mul_pos (concentrationPrior_pos (mem_labels.mp h)) (Real.exp_pos _)

/-- The law of `m` new views. -/
theorem auxViews_average {n : ℕ} (hn : 0 < n) (m : ℕ)
    (F : Except Exn (List (ℝ × (Row → Tab))) → ℝ)
    (G : List (ℝ × RowPartition (Finset.range n)) → ℝ)
    (hF : ∀ l : List (ℝ × (Row → Tab)), l.length = m → (∀ x ∈ l, x.1 ∈ concentrations n) →
      F (.ok l) = G (l.map (labelOf n))) :
    average (m * (n + 1)) (fun us => F (State.auxViews n m us))
      = Aux.iterSum (labels n) (labelLaw n) m G := by
  induction m generalizing F G with
  | zero =>
    have e : 0 * (n + 1) = 0 := by ring
    rw [e]
    simp only [average, State.auxViews, Aux.iterSum]
    exact hF [] rfl (by simp)
  | succ m ih =>
    have e : (m + 1) * (n + 1) = (n + 1) + m * (n + 1) := by ring
    rw [e, average_append]
    obtain ⟨Φ, hΦ⟩ : ∃ Φ : Except Exn (ℝ × (Row → Tab)) → ℝ, ∀ x, Φ x =
        average (m * (n + 1)) (fun vs => F (match x with
          | .error e => .error e
          | .ok a => match State.auxViews n m vs with
            | .error e => .error e
            | .ok l => .ok (a :: l))) := ⟨_, fun _ => rfl⟩
    have h1 : average (n + 1) (fun us => average (m * (n + 1)) fun vs =>
        F (State.auxViews n (m + 1) (us ++ vs))) = average (n + 1) fun us =>
          Φ (State.drawView n us) := by
      refine average_congr fun us hl _ => ?_
      rw [hΦ]
      refine average_congr fun vs _ _ => ?_
      have e1 : (us ++ vs).take (n + 1) = us := by rw [← hl, List.take_left]
      have e2 : (us ++ vs).drop (n + 1) = vs := by rw [← hl, List.drop_left]
      simp only [State.auxViews, e1, e2]
      cases State.drawView n us with
      | error e => rfl
      | ok a => cases State.auxViews n m vs <;> rfl
    rw [h1, drawView_average hn Φ (fun l => Aux.iterSum (labels n) (labelLaw n) m fun ls =>
      G (l :: ls))]
    · rfl
    · intro x hx
      rw [hΦ]
      obtain ⟨Ψ, hΨ⟩ : ∃ Ψ : Except Exn (List (ℝ × (Row → Tab))) → ℝ, ∀ y, Ψ y =
          F (match y with
            | .error e => .error e
            | .ok l => .ok (x :: l)) := ⟨_, fun _ => rfl⟩
      rw [← ih Ψ (fun ls => G (labelOf n x :: ls)) (by
        intro l hl hm
        rw [hΨ]
        show F (.ok (x :: l)) = _
        rw [hF (x :: l) (by simp [hl]) (by
          intro y hy
          rcases List.mem_cons.mp hy with rfl | hy
          · exact hx
          · exact hm y hy)]
        rfl)]
      refine average_congr fun vs _ _ => ?_
      rw [hΨ]

end Cgpm
