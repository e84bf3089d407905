import Verif.Model.Entropy
import Verif.Spec.Entropy
import Verif.Lemmas.Dict
import Mathlib.Algebra.BigOperators.Group.List.Basic
import Mathlib.Algebra.BigOperators.Field
import Mathlib.Algebra.Order.BigOperators.Group.Finset
import Mathlib.Analysis.SpecialFunctions.Log.NegMulLog

namespace Cgpm
namespace Entropy
open Spec
variable {K L M : Type} [DecidableEq K] [DecidableEq L] [DecidableEq M]

theorem tally_spec (sx : List K) : ∀ (d : Dict K Nat), d.WF →
    (sx.foldl tally d).WF ∧
    ∀ k, (sx.foldl tally d).get? k =
      if k ∈ sx then some ((d.get? k).getD 0 + sx.count k) else d.get? k := by
  induction sx with
  | nil => intro d hd; exact ⟨hd, by simp⟩
  | cons a t ih =>
    intro d hd
    have hw : (tally d a).WF := Dict.wf_set hd _ _
    obtain ⟨h1, h2⟩ := ih _ hw
    refine ⟨h1, fun k => ?_⟩
    rw [List.foldl_cons, h2]
    unfold tally
    rw [Dict.get?_set]
    by_cases hk : k = a
    · subst hk
      by_cases ht : k ∈ t
      · simp [ht]; omega
      · simp [ht, List.count_eq_zero_of_not_mem ht]
    · by_cases ht : k ∈ t
      · simp [ht, hk, List.count_cons, Ne.symm hk]
      · simp [ht, hk]

/-- The dict has the counts of the distinct elements. -/
theorem tally_perm (sx : List K) :
    ((sx.foldl tally []) : Dict K Nat).Perm (sx.dedup.map fun a => (a, sx.count a)) := by
  obtain ⟨h1, h2⟩ := tally_spec sx [] (by simp [Dict.WF, Dict.keys])
  · refine Dict.perm_of_get? h1 ?_ ?_
    · simp only [Dict.WF, Dict.keys, List.map_map]
      have : (Prod.fst ∘ fun a : K => (a, List.count a sx)) = id := rfl
      rw [this, List.map_id]; exact List.nodup_dedup sx
    · intro k
      rw [h2 k]
      have hw : Dict.WF (sx.dedup.map fun a => (a, sx.count a)) := by
        simp only [Dict.WF, Dict.keys, List.map_map]
        have : (Prod.fst ∘ fun a : K => (a, List.count a sx)) = id := rfl
        rw [this, List.map_id]; exact List.nodup_dedup sx
      by_cases hk : k ∈ sx
      · have : (k, sx.count k) ∈ (sx.dedup.map fun a => (a, sx.count a)) :=
          List.mem_map.2 ⟨k, List.mem_dedup.2 hk, rfl⟩
        rw [Dict.get?_of_mem hw this]; simp [hk]
      · have : k ∉ Dict.keys (sx.dedup.map fun a => (a, sx.count a)) := by
          simp [Dict.keys, hk]
        rw [(Dict.get?_eq_none_iff _ _).2 this]; simp [hk]

/-- The values of the dict are the counts of the distinct elements. -/
theorem tally_vals (sx : List K) :
    ((sx.foldl tally []) : Dict K Nat).vals.Perm (sx.dedup.map (sx.count ·)) := by
  have := (tally_perm sx).map Prod.snd
  simpa [Dict.vals, List.map_map, Function.comp_def] using this

theorem hist_perm (sx : List K) : (hist sx).Perm (sx.dedup.map (freq sx)) := by
  have := (tally_vals sx).map fun z : Nat => (z : ℝ) / sx.length
  rw [List.map_map] at this
  exact this

theorem sum_dedup (sx : List K) (f : K → ℝ) : (sx.dedup.map f).sum = ∑ a ∈ sx.toFinset, f a := by
  rw [← List.sum_toFinset f (List.nodup_dedup sx)]
  congr 1; ext; simp

theorem sum_count (sx : List K) : ∑ a ∈ sx.toFinset, (sx.count a : ℝ) = sx.length := by
  have h : ∑ a ∈ sx.toFinset, sx.count a = sx.length := by simp
  exact_mod_cast h

/-- A sum over the sample, grouped by value. -/
theorem sum_sample (sx : List K) (f : K → ℝ) :
    (sx.map f).sum = ∑ a ∈ sx.toFinset, (sx.count a : ℝ) * f a := by
  have := Finset.sum_list_map_count sx f
  rw [this]; exact Finset.sum_congr rfl fun a _ => by rw [nsmul_eq_mul]

theorem elog_eq {p : ℝ} (h0 : 0 < p) (h1 : p ≤ 1) : elog p = p * Real.log p := by
  unfold elog
  split
  · have : p = 1 := by rename_i h; rcases h with h | h <;> linarith
    simp [this]
  · rfl

theorem freq_pos {sx : List K} {a : K} (h : a ∈ sx) : 0 < freq sx a := by
  have h1 : 0 < sx.count a := List.count_pos_iff.2 h
  have h2 : 0 < sx.length := List.length_pos_of_mem h
  unfold freq; positivity

theorem freq_le_one (sx : List K) (a : K) : freq sx a ≤ 1 := by
  unfold freq
  have : (sx.count a : ℝ) ≤ sx.length := by exact_mod_cast List.count_le_length
  exact div_le_one_of_le₀ this (by positivity)

theorem sum_freq {sx : List K} (h : sx ≠ []) : ∑ a ∈ sx.toFinset, freq sx a = 1 := by
  unfold freq
  rw [← Finset.sum_div, sum_count]
  have : (sx.length : ℝ) ≠ 0 := by simpa using h
  field_simp

theorem entropyd_eq (sx : List K) (base : ℝ) : entropyd sx base = shannon sx / Real.log base := by
  unfold entropyd entropyFromProbs shannon
  congr 1
  rw [((hist_perm sx).map elog).sum_eq, List.map_map, sum_dedup, ← Finset.sum_neg_distrib]
  refine Finset.sum_congr rfl fun a ha => ?_
  rw [Function.comp, elog_eq (freq_pos (List.mem_toFinset.1 ha)) (freq_le_one sx a)]

theorem shannon_perm {sx sy : List K} (h : sx.Perm sy) : shannon sx = shannon sy := by
  unfold shannon freq
  rw [List.toFinset_eq_of_perm _ _ h, h.length_eq]
  exact Finset.sum_congr rfl fun a _ => by rw [h.count_eq]

theorem shannon_map {f : K → L} (hf : f.Injective) (sx : List K) :
    shannon (sx.map f) = shannon sx := by
  unfold shannon freq
  have : (sx.map f).toFinset = sx.toFinset.image f := by ext; simp
  rw [this, Finset.sum_image (fun a _ b _ h => hf h)]
  refine Finset.sum_congr rfl fun a _ => ?_
  rw [List.count_map_of_injective sx f hf, List.length_map]

theorem freq_map {f : K → L} (hf : f.Injective) (sx : List K) (a : K) :
    freq (sx.map f) (f a) = freq sx a := by
  unfold freq
  rw [List.count_map_of_injective sx f hf, List.length_map]

/-- The entropy as a mean over the sample. -/
theorem shannon_mean {sx : List K} :
    (sx.length : ℝ) * shannon sx = (sx.map fun a => -Real.log (freq sx a)).sum := by
  rw [sum_sample, shannon, Finset.mul_sum]
  refine Finset.sum_congr rfl fun a ha => ?_
  have : (sx.length : ℝ) ≠ 0 := by
    have := List.length_pos_of_mem (List.mem_toFinset.1 ha)
    positivity
  have h2 : (sx.length : ℝ) * freq sx a = sx.count a := by unfold freq; field_simp
  rw [← h2]; ring

omit [DecidableEq M] in
/-- Projections of a sample: the mean over the sample of a function of the projection. -/
theorem shannon_mean_map (s : List M) (f : M → K) :
    (s.length : ℝ) * shannon (s.map f) = (s.map fun m => -Real.log (freq (s.map f) (f m))).sum := by
  have := shannon_mean (sx := s.map f)
  rw [List.length_map] at this
  rw [this, List.map_map]; rfl

/-- The number of occurrences. -/
def cnt (sx : List K) (a : K) : ℝ := sx.count a

theorem cnt_pos {sx : List K} {a : K} : 0 < cnt sx a ↔ a ∈ sx := by simp [cnt]
theorem cnt_nonneg (sx : List K) (a : K) : 0 ≤ cnt sx a := by unfold cnt; positivity
theorem cnt_zero {sx : List K} {a : K} (h : a ∉ sx) : cnt sx a = 0 := by
  simp [cnt, List.count_eq_zero_of_not_mem h]
theorem cnt_cons (b : K) (sx : List K) (a : K) : cnt (b :: sx) a = cnt sx a + if b = a then 1 else 0 := by
  by_cases h : b = a <;> simp [cnt, List.count_cons, h]
theorem freq_eq (sx : List K) (a : K) : freq sx a = cnt sx a / sx.length := rfl

theorem sum_cnt (sx : List K) (f : K → ℝ) :
    (sx.map f).sum = ∑ a ∈ sx.toFinset, cnt sx a * f a := sum_sample sx f

theorem marginal (t : List (K × M)) (X : Finset K) (hX : ∀ m ∈ t, m.1 ∈ X) (b : M) :
    ∑ a ∈ X, cnt t (a, b) = cnt (t.map Prod.snd) b := by
  induction t with
  | nil => simp [cnt]
  | cons m t ih =>
    have h1 := ih fun m hm => hX m (List.mem_cons_of_mem _ hm)
    have h2 := hX m List.mem_cons_self
    obtain ⟨u, w⟩ := m
    simp only [cnt_cons, List.map_cons, Finset.sum_add_distrib, h1]
    congr 1
    by_cases hw : w = b
    · subst hw
      simp [Prod.mk.injEq, h2]
    · simp [hw]

theorem sum_count_of {sx : List K} {S : Finset K} (h : sx.toFinset ⊆ S) :
    ∑ a ∈ S, cnt sx a = sx.length := by
  have e := sum_count sx
  rw [← e]
  refine (Finset.sum_subset h fun m _ hm => ?_).symm
  have := cnt_zero (sx := sx) (a := m) (by simpa using hm)
  exact this

/-- Gibbs' inequality for one cell. -/
theorem cell_nonneg {c q : ℝ} (hc : 0 ≤ c) (hq : 0 ≤ q) (h : 0 < c → 0 < q) :
    0 ≤ c * Real.log (c / q) - c + q ∧ (c * Real.log (c / q) - c + q = 0 ↔ c = q) := by
  rcases hc.eq_or_lt with rfl | hc
  · simp only [zero_mul, sub_zero, zero_add]
    exact ⟨hq, eq_comm⟩
  · have hq := h hc
    have e : Real.log (c / q) = -Real.log (q / c) := by
      rw [← Real.log_inv, inv_div]
    have hm : c * (q / c - 1) = q - c := by field_simp
    constructor
    · have := Real.log_le_sub_one_of_pos (div_pos hq hc)
      have := mul_le_mul_of_nonneg_left this hc.le
      rw [e]; nlinarith
    · constructor
      · intro h0
        by_contra hne
        have h1 : q / c ≠ 1 := fun h => hne (by field_simp at h; exact h.symm)
        have := Real.log_lt_sub_one_of_pos (div_pos hq hc) h1
        have := mul_lt_mul_of_pos_left this hc
        rw [e] at h0; nlinarith
      · rintro rfl
        rw [div_self hc.ne', Real.log_one]; ring

/-- The conditional mutual information (in nats) of the empirical distribution of triples. -/
noncomputable def cmi (s : List (K × L × M)) : ℝ :=
  shannon (s.map fun m => (m.2.1, m.2.2)) + shannon (s.map fun m => (m.1, m.2.2)) - shannon s
    - shannon (s.map fun m => m.2.2)

section
variable (s : List (K × L × M))
/-- The number of triples expected in a cell under conditional independence. -/
noncomputable def cellMean (m : K × L × M) : ℝ :=
  cnt (s.map fun m => (m.1, m.2.2)) (m.1, m.2.2) * cnt (s.map fun m => (m.2.1, m.2.2)) (m.2.1, m.2.2)
    / cnt (s.map fun m => m.2.2) m.2.2

theorem cellMean_nonneg (m : K × L × M) : 0 ≤ cellMean s m := by
  unfold cellMean
  exact div_nonneg (mul_nonneg (cnt_nonneg _ _) (cnt_nonneg _ _)) (cnt_nonneg _ _)

theorem cellMean_pos {m : K × L × M} (h : m ∈ s) : 0 < cellMean s m := by
  unfold cellMean
  have h1 : 0 < cnt (s.map fun m => (m.1, m.2.2)) (m.1, m.2.2) :=
    cnt_pos.2 (List.mem_map.2 ⟨m, h, rfl⟩)
  have h2 : 0 < cnt (s.map fun m => (m.2.1, m.2.2)) (m.2.1, m.2.2) :=
    cnt_pos.2 (List.mem_map.2 ⟨m, h, rfl⟩)
  have h3 : 0 < cnt (s.map fun m => m.2.2) m.2.2 :=
    cnt_pos.2 (List.mem_map.2 ⟨m, h, rfl⟩)
  positivity

theorem sum_cellMean (X : Finset K) (Y : Finset L) (Z : Finset M)
    (hX : ∀ m ∈ s, m.1 ∈ X) (hY : ∀ m ∈ s, m.2.1 ∈ Y) (hZ : ∀ m ∈ s, m.2.2 ∈ Z) :
    ∑ m ∈ X ×ˢ Y ×ˢ Z, cellMean s m = s.length := by
  have e : ∑ m ∈ X ×ˢ Y ×ˢ Z, cellMean s m = ∑ c ∈ Z, ∑ a ∈ X, ∑ b ∈ Y, cellMean s (a, b, c) := by
    rw [Finset.sum_product]
    simp only [Finset.sum_product]
    calc _ = ∑ a ∈ X, ∑ c ∈ Z, ∑ b ∈ Y, cellMean s (a, b, c) :=
          Finset.sum_congr rfl fun _ _ => Finset.sum_comm
      _ = _ := Finset.sum_comm
  have e2 : ∀ c ∈ Z, ∑ a ∈ X, ∑ b ∈ Y, cellMean s (a, b, c)
      = cnt (s.map fun m => m.2.2) c := by
    intro c _
    have h1 := marginal (s.map fun m => (m.1, m.2.2)) X (by intro m hm; obtain ⟨u, hu, rfl⟩ := List.mem_map.1 hm; exact hX u hu) c
    have h2 := marginal (s.map fun m => (m.2.1, m.2.2)) Y (by intro m hm; obtain ⟨u, hu, rfl⟩ := List.mem_map.1 hm; exact hY u hu) c
    rw [List.map_map] at h1 h2
    have h3 : ((Prod.snd ∘ fun m : K × L × M => (m.1, m.2.2))) = fun m => m.2.2 := rfl
    have h4 : ((Prod.snd ∘ fun m : K × L × M => (m.2.1, m.2.2))) = fun m => m.2.2 := rfl
    rw [h3] at h1; rw [h4] at h2
    simp only [cellMean]
    simp only [← Finset.sum_div, ← Finset.mul_sum, ← Finset.sum_mul, h1, h2]
    exact mul_self_div_self _
  rw [e, Finset.sum_congr rfl e2, sum_count_of, List.length_map]
  intro c hc
  obtain ⟨m, hm, rfl⟩ := List.mem_map.1 (List.mem_toFinset.1 hc)
  exact hZ m hm

theorem cmi_sample : (s.length : ℝ) * cmi s =
    ∑ m ∈ s.toFinset, cnt s m * Real.log (cnt s m / cellMean s m) := by
  rw [cmi, mul_sub, mul_sub, mul_add, shannon_mean_map, shannon_mean_map, shannon_mean_map,
    shannon_mean, sum_cnt, sum_cnt, sum_cnt, sum_cnt, ← Finset.sum_add_distrib,
    ← Finset.sum_sub_distrib, ← Finset.sum_sub_distrib]
  refine Finset.sum_congr rfl fun m hm => ?_
  have hm := List.mem_toFinset.1 hm
  have hn : (0 : ℝ) < s.length := by exact_mod_cast List.length_pos_of_mem hm
  have k0 : (0 : ℝ) < cnt s m := cnt_pos.2 hm
  have k1 : (0 : ℝ) < cnt (s.map fun m => (m.1, m.2.2)) (m.1, m.2.2) := by
    exact cnt_pos.2 (List.mem_map.2 ⟨m, hm, rfl⟩)
  have k2 : (0 : ℝ) < cnt (s.map fun m => (m.2.1, m.2.2)) (m.2.1, m.2.2) := by
    exact cnt_pos.2 (List.mem_map.2 ⟨m, hm, rfl⟩)
  have k3 : (0 : ℝ) < cnt (s.map fun m => m.2.2) m.2.2 := by
    exact cnt_pos.2 (List.mem_map.2 ⟨m, hm, rfl⟩)
  simp only [freq_eq, cellMean, List.length_map]
  rw [Real.log_div k0.ne' hn.ne', Real.log_div k1.ne' hn.ne', Real.log_div k2.ne' hn.ne',
    Real.log_div k3.ne' hn.ne', Real.log_div k0.ne' (by positivity),
    Real.log_div (by positivity) k3.ne', Real.log_mul k1.ne' k2.ne']
  ring

theorem cmi_cells (X : Finset K) (Y : Finset L) (Z : Finset M)
    (hX : ∀ m ∈ s, m.1 ∈ X) (hY : ∀ m ∈ s, m.2.1 ∈ Y) (hZ : ∀ m ∈ s, m.2.2 ∈ Z) :
    (s.length : ℝ) * cmi s = ∑ m ∈ X ×ˢ Y ×ˢ Z,
      (cnt s m * Real.log (cnt s m / cellMean s m) - cnt s m + cellMean s m) := by
  have hS : s.toFinset ⊆ X ×ˢ Y ×ˢ Z := by
    intro m hm
    have hm := List.mem_toFinset.1 hm
    simp [hX m hm, hY m hm, hZ m hm]
  have hc : ∑ m ∈ X ×ˢ Y ×ˢ Z, cnt s m = s.length := sum_count_of hS
  have hq : ∑ m ∈ X ×ˢ Y ×ˢ Z, cellMean s m = s.length := sum_cellMean s X Y Z hX hY hZ
  rw [Finset.sum_add_distrib, Finset.sum_sub_distrib, hc, hq]
  have e3 : ∑ m ∈ X ×ˢ Y ×ˢ Z, cnt s m * Real.log (cnt s m / cellMean s m)
      = ∑ m ∈ s.toFinset, cnt s m * Real.log (cnt s m / cellMean s m) := by
    refine (Finset.sum_subset hS fun m _ hm => ?_).symm
    have : cnt s m = 0 := cnt_zero (by simpa using hm)
    simp [this]
  rw [e3, cmi_sample]
  ring

/-- Gibbs' inequality: the information is not negative, and zero exactly when every cell has the
number of triples expected under conditional independence. -/
theorem cmi_nonneg : 0 ≤ cmi s ∧ (s ≠ [] → (cmi s = 0 ↔ ∀ m, cnt s m = cellMean s m)) := by
  rcases eq_or_ne s [] with rfl | hne
  · exact ⟨by simp [cmi, shannon], fun h => absurd rfl h⟩
  have hn : (0 : ℝ) < s.length := by exact_mod_cast List.length_pos_iff.2 hne
  have key : ∀ m, _ := fun m => cell_nonneg (c := cnt s m) (q := cellMean s m) (cnt_nonneg s m)
    (cellMean_nonneg s m) (fun h => cellMean_pos s (cnt_pos.1 h))
  refine ⟨?_, fun _ => ⟨fun h m => ?_, fun h => ?_⟩⟩
  · have := cmi_cells s (s.map Prod.fst).toFinset (s.map fun m => m.2.1).toFinset
      (s.map fun m => m.2.2).toFinset (fun m hm => List.mem_toFinset.2 (List.mem_map.2 ⟨m, hm, rfl⟩))
      (fun m hm => List.mem_toFinset.2 (List.mem_map.2 ⟨m, hm, rfl⟩))
      (fun m hm => List.mem_toFinset.2 (List.mem_map.2 ⟨m, hm, rfl⟩))
    have h2 : 0 ≤ (s.length : ℝ) * cmi s := by
      rw [this]; exact Finset.sum_nonneg fun m _ => (key m).1
    exact nonneg_of_mul_nonneg_right h2 hn
  · have := cmi_cells s (insert m.1 (s.map Prod.fst).toFinset)
      (insert m.2.1 (s.map fun m => m.2.1).toFinset)
      (insert m.2.2 (s.map fun m => m.2.2).toFinset)
      (fun m hm => Finset.mem_insert_of_mem (List.mem_toFinset.2 (List.mem_map.2 ⟨m, hm, rfl⟩)))
      (fun m hm => Finset.mem_insert_of_mem (List.mem_toFinset.2 (List.mem_map.2 ⟨m, hm, rfl⟩)))
      (fun m hm => Finset.mem_insert_of_mem (List.mem_toFinset.2 (List.mem_map.2 ⟨m, hm, rfl⟩)))
    rw [h, mul_zero, eq_comm, Finset.sum_eq_zero_iff_of_nonneg fun m _ => (key m).1] at this
    exact (key m).2.1 (this m (by simp))
  · have := cmi_cells s (s.map Prod.fst).toFinset (s.map fun m => m.2.1).toFinset
      (s.map fun m => m.2.2).toFinset (fun m hm => List.mem_toFinset.2 (List.mem_map.2 ⟨m, hm, rfl⟩))
      (fun m hm => List.mem_toFinset.2 (List.mem_map.2 ⟨m, hm, rfl⟩))
      (fun m hm => List.mem_toFinset.2 (List.mem_map.2 ⟨m, hm, rfl⟩))
    rw [Finset.sum_eq_zero fun m _ => (key m).2.2 (h m)] at this
    exact (mul_eq_zero.1 this).resolve_left hn.ne'
end

end Entropy
end Cgpm
