import Verif.Spec.Forest
import Verif.Lemmas.KnnQuery
import Verif.Props.Standalone

/-!
The densities of a random forest, and weighted choices in log space.
-/
namespace Cgpm.Rand
open Cgpm Cgpm.Spec.Knn

theorem exp_sub_log {a : Fl} {w s : ℝ} (ha : IsLog a w) (hp : a ≠ .pinf) (hw : 0 ≤ w) (hs : 0 < s) :
    (a.sub (.fin (Real.log s))).exp = .fin (w / s) := by
  obtain ⟨h1, h2⟩ := ha
  cases a with
  | nan => exact absurd rfl h1
  | pinf => exact absurd rfl hp
  | ninf =>
    have : w = 0 := by
      have : ENNReal.ofReal w = 0 := h2.symm
      exact le_antisymm (ENNReal.ofReal_eq_zero.mp this) hw
    simp [Fl.sub, Fl.neg, Fl.add, Fl.exp, this]
  | fin x =>
    have : Real.exp x = w := by
      have := congrArg ENNReal.toReal h2
      simpa [Props.mass, ENNReal.toReal_ofReal (Real.exp_pos x).le, ENNReal.toReal_ofReal hw] using this
    simp [Fl.sub, Fl.neg, Fl.add, Fl.exp, Real.exp_add, Real.exp_neg, Real.exp_log hs, this,
      div_eq_mul_inv]

theorem flReals_fin (l : List ℝ) : flReals (l.map Fl.fin) = some l := by
  induction l with
  | nil => rfl
  | cons x t ih => simp [flReals, ih]

theorem total_isLog {ι : Type} (l : List ι) {a : ι → Fl} {p : ι → ℝ}
    (hp : ∀ i ∈ l, 0 ≤ p i) (ha : ∀ i ∈ l, IsLog (a i) (p i)) :
    Props.total (l.map a) = ENNReal.ofReal (l.map p).sum := by
  unfold Props.total
  induction l with
  | nil => simp
  | cons i t ih =>
    simp only [List.map_cons, List.sum_cons]
    rw [ih (fun j hj => hp j (List.mem_cons_of_mem _ hj))
      (fun j hj => ha j (List.mem_cons_of_mem _ hj)), (ha i List.mem_cons_self).2,
      ENNReal.ofReal_add (hp i List.mem_cons_self)]
    refine List.sum_nonneg fun x hx => ?_
    obtain ⟨j, hj, rfl⟩ := List.mem_map.mp hx
    exact hp j (List.mem_cons_of_mem _ hj)

/-- The logarithm of a sum. -/
theorem isLog_logsumexp {ι : Type} (l : List ι) {a : ι → Fl} {p : ι → ℝ}
    (hp : ∀ i ∈ l, 0 ≤ p i) (ha : ∀ i ∈ l, IsLog (a i) (p i) ∧ a i ≠ .pinf) :
    ∃ s, logsumexp (l.map a) = .ok s ∧ IsLog s (l.map p).sum ∧ s ≠ .pinf := by
  obtain ⟨s, h1, h2, h3⟩ := logsumexp_spec (l := l.map a)
    (fun h => by
      obtain ⟨i, hi, e⟩ := List.mem_map.mp h
      exact (ha i hi).1.1 e)
    (fun h => by
      obtain ⟨i, hi, e⟩ := List.mem_map.mp h.1
      exact (ha i hi).2 e)
  rw [total_isLog l hp fun i hi => (ha i hi).1] at h3
  refine ⟨s, h1, ⟨h2, h3⟩, fun h => ?_⟩
  rw [h] at h3
  exact ENNReal.ofReal_ne_top h3.symm

/-- A choice with log weights. -/
theorem logPflip_eq {ι α : Type} {l : List ι} {a : ι → Fl} {p : ι → ℝ} (f : ι → α)
    (hp : ∀ i ∈ l, 0 ≤ p i) (ha : ∀ i ∈ l, IsLog (a i) (p i) ∧ a i ≠ .pinf)
    (hs : 0 < (l.map p).sum) :
    (∀ g, (Rand.logPflip (l.map a) (l.map f)).expect g
      = (l.map fun i => p i * g (f i)).sum / (l.map p).sum) ∧
    Rand.Surely (fun x => ∃ i ∈ l, x = f i) (Rand.logPflip (l.map a) (l.map f)) := by
  obtain ⟨s, h1, h2, h3⟩ := isLog_logsumexp l hp ha
  have hfin : s = .fin (Real.log (l.map p).sum) := by
    have hlog := (Knn.isLog_logOf hs.le)
    have : s = Knn.logOf (l.map p).sum := Fl.mass_inj h2.1 hlog.1.1 (h2.2.trans hlog.1.2.symm)
    rw [this, Knn.logOf, if_pos hs]
  have hn : logNormalize (l.map a) = .ok (l.map fun i => (a i).sub (.fin (Real.log (l.map p).sum))) := by
    unfold logNormalize
    rw [h1, hfin]
    simp [Except.map, List.map_map, Function.comp_def]
  have he : (l.map fun i => (a i).sub (.fin (Real.log (l.map p).sum))).map Fl.exp
      = (l.map fun i => p i / (l.map p).sum).map Fl.fin := by
    rw [List.map_map, List.map_map]
    exact List.map_congr_left fun i hi => exp_sub_log (ha i hi).1 (ha i hi).2 (hp i hi) hs
  have hsum : (l.map fun i => p i / (l.map p).sum).sum = 1 := by
    simp only [div_eq_mul_inv]
    rw [List.sum_map_mul_right, mul_inv_cancel₀ hs.ne']
  unfold Rand.logPflip
  rw [hn]
  simp only
  split
  · rename_i x b t e1 e2
    match l, e1, e2 with
    | [i], _, e2 =>
      simp only [List.map_cons, List.map_nil, List.cons.injEq] at e2
      obtain ⟨rfl, rfl⟩ := e2
      simp only [List.map_cons, List.map_nil, List.sum_cons, List.sum_nil, add_zero] at hs ⊢
      refine ⟨fun g => ?_, ⟨i, List.mem_singleton_self _, rfl⟩⟩
      rw [mul_div_assoc, mul_comm, div_mul_cancel₀ _ hs.ne']
      rfl
  · rw [he, flReals_fin]
    simp only
    rw [if_neg (by rw [hsum]; simp), hsum]
    simp only [div_one, List.map_id']
    have h0 : ∀ x ∈ l.map fun i => p i / (l.map p).sum, 0 ≤ x := by
      intro x hx
      obtain ⟨i, hi, rfl⟩ := List.mem_map.mp hx
      exact div_nonneg (hp i hi) hs.le
    have hget : ∀ i (h : i < l.length), (l.map f)[i]? = some (f l[i]) := fun i h => by
      rw [List.getElem?_eq_getElem (by simpa using h), List.getElem_map]
    refine ⟨fun g => ?_, ?_⟩
    · rw [expect_bind, expect_draw h0 hsum]
      rw [List.length_map, Kde.sum_range_getD l (fun i => p i * g (f i) / (l.map p).sum)]
      · rw [div_eq_mul_inv, ← List.sum_map_mul_right]
        simp only [div_eq_mul_inv]
      · intro i hi
        rw [List.getD_eq_getElem _ _ (by simpa using hi), List.getElem_map]
        simp only [hget i hi]
        change p l[i] / _ * g (f l[i]) = _
        ring
    · unfold Rand.draw
      rw [if_pos ⟨h0, hsum⟩]
      intro i hi
      rw [List.length_map] at hi
      change Surely _ (match (l.map f)[i]? with
        | some a => Rand.pure a
        | none => Rand.raise .indexError)
      rw [hget i hi]
      exact ⟨l[i], List.getElem_mem hi, rfl⟩

theorem prob_bind_pure {α β : Type} (E : β → Prop) (m : Rand α) (f : α → β) :
    prob E (m.bind fun a => .pure (f a)) = prob (fun a => E (f a)) m := by
  unfold prob
  rw [expect_bind]
  rfl

/-- Equal draws are independent. -/
theorem prob_traverse {α β : Type} (m : Rand β) (l : List α) (zs : List β) (h : l.length = zs.length) :
    prob (· = zs) (traverse (fun _ => m) l) = (zs.map fun z => prob (· = z) m).prod := by
  classical
  have hg : ∀ x : List β, (if x = zs then (1 : ℝ) else 0)
      = prodFn (zs.map fun z d => if d = z then (1 : ℝ) else 0) x := by
    intro x
    clear h
    induction zs generalizing x with
    | nil => cases x <;> simp [prodFn]
    | cons z zs ih =>
      cases x with
      | nil => simp [prodFn]
      | cons d x =>
        rw [List.map_cons, prodFn_cons, ← ih x]
        by_cases h1 : d = z
        · by_cases h2 : x = zs <;> simp [h1, h2]
        · simp [h1]
  have h1 : prob (· = zs) (traverse (fun _ => m) l)
      = expect (prodFn (zs.map fun z d => if d = z then (1 : ℝ) else 0)) (traverse (fun _ => m) l) := by
    unfold prob
    refine expect_congr (fun x => ?_) _
    rw [← hg x]
    congr
  have h2 : ∀ z, prob (· = z) m = expect (fun d => if d = z then (1 : ℝ) else 0) m := fun z => by
    unfold prob
    refine expect_congr (fun x => ?_) _
    congr
  rw [h1, expect_traverse, List.map_map]
  clear h1 hg
  induction l generalizing zs with
  | nil =>
    cases zs with
    | nil => rfl
    | cons z zs => simp at h
  | cons a l ih =>
    cases zs with
    | nil => simp at h
    | cons z zs =>
      rw [List.map_cons, prodFn_cons, ih zs (by simpa using h), Function.comp_apply, ← h2]
      simp

end Cgpm.Rand

namespace Cgpm.RForest
open Cgpm Cgpm.Spec Cgpm.Spec.Forest
open Cgpm.Spec.Knn (IsLog)

variable {o : RForest}

theorem isLog_add {a b : Fl} {p q : ℝ} (ha : IsLog a p ∧ a ≠ .pinf) (hb : IsLog b q ∧ b ≠ .pinf)
    (hp : 0 ≤ p) : IsLog (a.add b) (p * q) ∧ a.add b ≠ .pinf := by
  have := mass_add ha.1.1 hb.1.1 ha.2 hb.2
  refine ⟨⟨this.2.1, ?_⟩, this.2.2⟩
  rw [this.1, ha.1.2, hb.1.2, ENNReal.ofReal_mul hp]

theorem isLog_neg {n : Nat} (h : 1 ≤ n) :
    IsLog (Knn.logOf n).neg (1 / n) ∧ (Knn.logOf n).neg ≠ .pinf := by
  have hn : (0 : ℝ) < n := by exact_mod_cast h
  rw [Knn.logOf, if_pos hn]
  refine ⟨⟨by simp [Fl.neg], ?_⟩, by simp [Fl.neg]⟩
  simp [Fl.neg, Props.mass, Real.exp_neg, Real.exp_log hn]

theorem share_nonneg {p : Nat} {c : Classifier} (hc : Proper p c) {y : List ℝ} (hy : y.length = p)
    (x : Nat) : 0 ≤ share c y x := by
  unfold share
  split
  · rename_i h
    have : c.classes.idxOf x < (c.proba y).length := by
      rw [hc.length y hy]; exact List.idxOf_lt_length_of_mem h
    rw [List.getD_eq_getElem _ _ this]
    exact hc.nonneg y hy _ (List.getElem_mem this)
  · exact le_rfl

theorem chance_nonneg {k p : Nat} {alpha : ℝ} (ha : 0 ≤ alpha ∧ alpha ≤ 1) {clf : Option Classifier}
    (hc : ∀ c, clf = some c → Proper p c) {y : List ℝ} (hy : y.length = p) (x : Nat) :
    0 ≤ chance k alpha clf y x := by
  cases clf with
  | none => exact div_nonneg zero_le_one (Nat.cast_nonneg _)
  | some c =>
    exact add_nonneg (mul_nonneg ha.1 (div_nonneg zero_le_one (Nat.cast_nonneg _)))
      (mul_nonneg (by linarith [ha.2]) (share_nonneg (hc c rfl) hy x))

theorem calcPredictiveLogp_eq {k p : Nat} (hk : 1 ≤ k) {alpha : ℝ} (ha : 0 ≤ alpha ∧ alpha ≤ 1)
    {clf : Option Classifier} (hc : ∀ c, clf = some c → Proper p c) {y : List (Option ℝ)}
    (hy : y.length = p) (x : Nat) :
    ∃ a, calcPredictiveLogp x y clf k alpha = .ok a ∧ IsLog a (chance k alpha clf (array y) x) ∧
      a ≠ .pinf := by
  have hu := isLog_neg hk
  have hal := Knn.isLog_logOf ha.1
  have hau := isLog_add hal hu ha.1
  cases clf with
  | none => exact ⟨_, rfl, hu.1, hu.2⟩
  | some c =>
    have hp := hc c rfl
    have hy' : (array y).length = p := by rw [array, List.length_map, hy]
    unfold calcPredictiveLogp
    simp only
    by_cases hx : x ∈ c.classes
    · rw [if_neg (not_not.mpr hx)]
      have hlt : c.classes.idxOf x < (c.proba (array y)).length := by
        rw [hp.length _ hy']; exact List.idxOf_lt_length_of_mem hx
      rw [List.getElem?_eq_getElem hlt]
      simp only
      have h0 := hp.nonneg _ hy' _ (List.getElem_mem hlt)
      have hb := isLog_add (Knn.isLog_logOf (p := 1 - alpha) (by linarith [ha.2]))
        (Knn.isLog_logOf h0) (by linarith [ha.2])
      obtain ⟨s, h1, h2, h3⟩ := Rand.isLog_logsumexp
        [((Knn.logOf alpha).add (Knn.logOf k).neg, alpha * (1 / k)),
          ((Knn.logOf (1 - alpha)).add (Knn.logOf (c.proba (array y))[c.classes.idxOf x]),
            (1 - alpha) * (c.proba (array y))[c.classes.idxOf x])] (a := Prod.fst) (p := Prod.snd)
        (by
          intro i hi
          simp only [List.mem_cons, List.not_mem_nil, or_false] at hi
          rcases hi with rfl | rfl
          · exact mul_nonneg ha.1 (by positivity)
          · exact mul_nonneg (by linarith [ha.2]) h0)
        (by
          intro i hi
          simp only [List.mem_cons, List.not_mem_nil, or_false] at hi
          rcases hi with rfl | rfl
          · exact hau
          · exact hb)
      refine ⟨s, h1, ?_, h3⟩
      have : chance k alpha (some c) (array y) x = alpha * (1 / k) +
          (1 - alpha) * (c.proba (array y))[c.classes.idxOf x] := by
        rw [chance, share, if_pos hx, List.getD_eq_getElem _ _ hlt]
      rw [this]
      simpa using h2
    · rw [if_pos hx]
      refine ⟨_, rfl, ?_, hau.2⟩
      have : chance k alpha (some c) (array y) x = alpha * (1 / k) := by
        rw [chance, share, if_neg hx, mul_zero, add_zero]
      rw [this]
      exact hau.1

/-- The probabilities of the classes add up to one. -/
theorem sum_share {k p : Nat} {c : Classifier} (hc : Proper p c) (hk : ∀ j ∈ c.classes, j < k)
    {y : List ℝ} (hy : y.length = p) : ∑ x ∈ Finset.range k, share c y x = 1 := by
  have h1 : ∑ x ∈ c.classes.toFinset, share c y x = 1 := by
    rw [List.sum_toFinset _ hc.nodup, ← hc.sum y hy]
    congr 1
    refine List.ext_getElem (by simp [hc.length y hy]) fun i h h' => ?_
    rw [List.length_map] at h
    rw [List.getElem_map, share, if_pos (List.getElem_mem _), hc.nodup.idxOf_getElem i h,
      List.getD_eq_getElem _ _ h']
  rw [← h1]
  symm
  refine Finset.sum_subset (fun j hj => Finset.mem_range.mpr (hk j (List.mem_toFinset.mp hj)))
    fun j _ hj => ?_
  rw [share, if_neg fun h => hj (List.mem_toFinset.mpr h)]

theorem sum_chance {k p : Nat} (h1 : 1 ≤ k) (alpha : ℝ) {clf : Option Classifier}
    (hc : ∀ c, clf = some c → Proper p c ∧ ∀ j ∈ c.classes, j < k) {y : List ℝ} (hy : y.length = p) :
    ∑ x ∈ Finset.range k, chance k alpha clf y x = 1 := by
  have hk : (k : ℝ) ≠ 0 := by exact_mod_cast (by omega : k ≠ 0)
  cases clf with
  | none => simp [chance, hk]
  | some c =>
    simp only [chance]
    rw [Finset.sum_add_distrib, ← Finset.mul_sum, ← Finset.mul_sum, sum_share (hc c rfl).1 (hc c rfl).2 hy]
    simp only [Finset.sum_const, Finset.card_range, nsmul_eq_mul]
    field_simp
    ring

/-! ### Queries -/

theorem covariates_length {ins : Vals} (hV : Valid o) (h : Given o ins) :
    (covariates ins).length = o.g.p := by
  have : ins.keys.Perm o.g.inputs := (List.perm_ext_iff_of_nodup h.nodup hV.nodup).mpr h.same
  rw [covariates, List.length_map, List.length_mergeSort, this.length_eq, hV.inputs]

/-- The columns of the inputs in the order in which they are read. -/
noncomputable def read (ins : Vals) : List (Option ℝ) :=
  (ins.keys.mergeSort (· ≤ ·)).map fun c => (ins.get? c).getD none

theorem array_read (ins : Vals) : array (read ins) = covariates ins := by
  simp [array, read, covariates, List.map_map, Function.comp_def]

open Classical in
theorem preprocess_given (hV : Valid o) {ins : Vals} (h : Given o ins) {targets : Vals} {v : ℝ}
    (ht : targets.get? o.g.output = some (some v)) :
    Forest.preprocess o.g targets (some ins) =
      if v = (⌊v⌋ : ℝ) ∧ 0 ≤ v ∧ v < o.g.k then .ok (⌊v⌋.toNat, read ins) else .error .indexError := by
  have h1 : ins.has o.g.output = false := by
    rw [← Bool.not_eq_true, Dict.has_iff, h.same]; exact hV.apart
  have h2 : o.g.inputs.all ins.has = true := by
    rw [List.all_eq_true]
    exact fun c hc => (Dict.has_iff _ _).mpr ((h.same c).mpr hc)
  have h3 : (read ins).any Option.isNone = false := by
    rw [← Bool.not_eq_true, List.any_eq_true]
    rintro ⟨v, hv, h0⟩
    obtain ⟨c, hc, rfl⟩ := List.mem_map.mp hv
    obtain ⟨x, hx⟩ := h.value c (List.mem_mergeSort.mp hc)
    rw [hx] at h0
    cases h0
  have h4 : ¬ (read ins).length ≠ o.g.p := by
    have := covariates_length hV h
    rw [← array_read, array, List.length_map] at this
    exact not_not.mpr this
  unfold Forest.preprocess
  simp only [h1, h2, ht, Bool.not_true, Bool.false_eq_true, if_false]
  change (if (read ins).any Option.isNone = true then _ else if (read ins).length ≠ o.g.p then _ else _) = _
  rw [h3, if_neg (by simp), if_neg h4]
  by_cases hx : v = (⌊v⌋ : ℝ) ∧ 0 ≤ v ∧ v < o.g.k
  · rw [if_neg (not_not.mpr hx), if_pos hx]; rfl
  · rw [if_pos hx, if_neg hx]

theorem preprocess_other (hV : Valid o) {inputs : Option Vals}
    (hw : ∀ ins, inputs = some ins → ins.keys.Nodup)
    (h : ∀ ins, inputs = some ins → ¬ Given o ins) (targets : Vals) :
    ∃ e, Forest.preprocess o.g targets inputs = .error e ∧ e ≠ .indexError := by
  cases inputs with
  | none => exact ⟨_, rfl, by simp⟩
  | some ins =>
    have hw := hw ins rfl
    have h := h ins rfl
    unfold Forest.preprocess
    simp only
    split
    · exact ⟨_, rfl, by simp⟩
    · rename_i h1
      split
      · exact ⟨_, rfl, by simp⟩
      · exact ⟨_, rfl, by simp⟩
      · split
        · exact ⟨_, rfl, by simp⟩
        · rename_i h2
          split
          · exact ⟨_, rfl, by simp⟩
          · rename_i h3
            split
            · exact ⟨_, rfl, by simp⟩
            · rename_i h4
              refine absurd ⟨hw, ?_, ?_⟩ h
              · rw [not_not, List.length_map, List.length_mergeSort, hV.inputs] at h4
                have hsub : ∀ c ∈ o.g.inputs, c ∈ ins.keys := by
                  have : o.g.inputs.all ins.has = true := by simpa using h2
                  rw [List.all_eq_true] at this
                  exact fun c hc => (Dict.has_iff _ _).mp (this c hc)
                have : o.g.inputs.Perm ins.keys :=
                  (List.subperm_of_subset hV.nodup hsub).perm_of_length_le h4.le
                exact fun c => this.mem_iff.symm
              · intro c hc
                have h3' : ¬ ((read ins).any Option.isNone = true) := h3
                rw [List.any_eq_true] at h3'
                obtain ⟨v, hv⟩ := Dict.exists_of_mem_keys hc
                cases v with
                | some x => exact ⟨x, hv⟩
                | none =>
                  exact absurd ⟨none, List.mem_map.mpr ⟨c, List.mem_mergeSort.mpr hc, by rw [hv]; rfl⟩,
                    rfl⟩ h3'

end Cgpm.RForest
