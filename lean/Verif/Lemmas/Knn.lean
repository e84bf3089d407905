import Verif.Spec.Knn
import Verif.Lemmas.KdeLaw
import Verif.Props.DummyCode

/-!
Random choices without weights, and the distances that the coding of rows gives.
-/
namespace Cgpm.Rand
open Cgpm

variable {α β : Type}

theorem Surely.mono {P Q : α → Prop} {m : Rand α} (hm : Surely P m) (h : ∀ a, P a → Q a) :
    Surely Q m := by
  induction m with
  | pure a => exact h a hm
  | raise e => exact hm
  | choice p k ih => exact fun i hi => ih i (hm i hi)
  | normal a b k ih => exact fun x => ih x (hm x)

theorem Surely.bind {P : α → Prop} {Q : β → Prop} {m : Rand α} {f : α → Rand β} (hm : Surely P m)
    (h : ∀ a, P a → Surely Q (f a)) : Surely Q (m.bind f) := by
  induction m with
  | pure a => exact h a hm
  | raise e => exact hm.elim
  | choice p k ih => exact fun i hi => ih i (hm i hi)
  | normal a b k ih => exact fun x => ih x (hm x)

theorem uniform_pos {n : Nat} (h : n ≠ 0) :
    uniform n = .choice (List.replicate n (1 / (n : ℝ))) .pure := by
  unfold uniform draw
  rw [if_pos]
  refine ⟨fun x hx => ?_, ?_⟩
  · rw [List.eq_of_mem_replicate hx]; positivity
  · rw [List.sum_replicate, nsmul_eq_mul]
    have : (n : ℝ) ≠ 0 := by exact_mod_cast h
    field_simp

/-- The program gives each entry of `L` with the same probability. -/
def Evenly (m : Rand α) (L : List α) : Prop :=
  L ≠ [] ∧ (∀ g : α → ℝ, expect g m = (L.map g).sum / L.length) ∧ Surely (· ∈ L) m

theorem evenly_pure (a : α) : Evenly (.pure a) [a] :=
  ⟨by simp, fun g => by simp [expect], by simp [Surely]⟩

theorem evenly_uniform {l : List α} (h : l ≠ []) (f : Nat → α)
    (hf : ∀ i (hi : i < l.length), f i = l[i]) :
    Evenly ((uniform l.length).bind fun i => .pure (f i)) l := by
  have hn : l.length ≠ 0 := by simpa using h
  rw [uniform_pos hn]
  refine ⟨h, fun g => ?_, fun i hi => ?_⟩
  · change ∑ i ∈ Finset.range (List.replicate l.length (1 / (l.length : ℝ))).length,
      (List.replicate l.length (1 / (l.length : ℝ))).getD i 0 * g (f i) = _
    rw [List.length_replicate, div_eq_mul_inv (List.sum _), ← List.sum_map_mul_right]
    refine Kde.sum_range_getD l (fun a => g a * (l.length : ℝ)⁻¹) _ fun i hi => ?_
    rw [List.getD_eq_getElem _ _ (by simpa using hi), List.getElem_replicate, hf i hi]
    ring
  · rw [List.length_replicate] at hi
    change f i ∈ l
    rw [hf i hi]
    exact List.getElem_mem hi

theorem evenly_sample (k : Nat) (l : List α) :
    Evenly (sample k l) (l.permutations.map (·.take k)) := by
  have hne : l.permutations ≠ [] := List.ne_nil_of_mem (List.mem_permutations.mpr (List.Perm.refl l))
  unfold sample
  have := evenly_uniform (l := l.permutations.map (·.take k)) (by simpa using hne)
    (fun i => (l.permutations.getD i []).take k) fun i hi => by
      rw [List.length_map] at hi
      rw [List.getD_eq_getElem _ _ hi, List.getElem_map]
  rw [List.length_map] at this
  exact this

theorem Evenly.bind {m : Rand α} {L : List α} (h : Evenly m L) (f : α → β) :
    Evenly (m.bind fun a => .pure (f a)) (L.map f) := by
  refine ⟨by simpa using h.1, fun g => ?_, ?_⟩
  · rw [expect_bind]
    change expect (fun a => g (f a)) m = _
    rw [h.2.1, List.map_map, List.length_map]
    rfl
  · exact h.2.2.bind fun a ha => List.mem_map_of_mem ha

theorem bind_assoc {γ : Type} (m : Rand α) (f : α → Rand β) (g : β → Rand γ) :
    (m.bind f).bind g = m.bind fun a => (f a).bind g := by
  induction m with
  | pure a => rfl
  | raise e => rfl
  | choice p k ih => exact congrArg _ (funext fun i => ih i)
  | normal a b k ih => exact congrArg _ (funext fun i => ih i)

end Cgpm.Rand

namespace Cgpm.Knn
open Cgpm Cgpm.Spec Cgpm.Spec.Knn MeasureTheory

variable {o : Knn}

open Classical in
/-- The code of a value. -/
noncomputable def codeAt (t : KType) (v : ℝ) : List ℝ :=
  match t with
  | .numerical => [v]
  | .nominal k => (List.range (k - 1)).map fun j : Nat => if v = j then 1 else 0

/-- A sum of squares. -/
noncomputable def sq (x y : List ℝ) : ℝ := (List.zipWith (fun a b => (a - b) ^ 2) x y).sum

theorem sq_nonneg' (x y : List ℝ) : 0 ≤ sq x y := by
  unfold sq
  refine List.sum_nonneg fun a ha => ?_
  obtain ⟨i, hi, rfl⟩ := List.getElem_of_mem ha
  rw [List.getElem_zipWith]
  exact sq_nonneg _

theorem dist_le_iff (x y x' y' : List ℝ) : dist x y ≤ dist x' y' ↔ sq x y ≤ sq x' y' :=
  Real.sqrt_le_sqrt_iff (sq_nonneg' _ _)

theorem dist_lt_iff (x y x' y' : List ℝ) : dist x y < dist x' y' ↔ sq x y < sq x' y' :=
  Real.sqrt_lt_sqrt_iff (sq_nonneg' _ _)

theorem sq_append {x y x' y' : List ℝ} (h : x.length = y.length) :
    sq (x ++ x') (y ++ y') = sq x y + sq x' y' := by
  unfold sq
  rw [List.zipWith_append h, List.sum_append]

theorem codeAt_length (t : KType) (v w : ℝ) : (codeAt t v).length = (codeAt t w).length := by
  cases t <;> simp [codeAt]

theorem sq_codeAt {t : KType} {a b : ℝ} (ha : Kde.Sensible t a) (hb : Kde.Sensible t b) :
    sq (codeAt t a) (codeAt t b) = gap t a b := by
  cases t with
  | numerical => simp [sq, codeAt, gap]
  | nominal k =>
    obtain ⟨i, hi, rfl⟩ := ha k rfl
    obtain ⟨j, hj, rfl⟩ := hb k rfl
    unfold sq codeAt gap
    simp only [Nat.cast_inj]
    rw [List.zipWith_map, List.zipWith_self, ← List.sum_toFinset _ List.nodup_range,
      List.toFinset_range]
    have hlast : ∀ n : Nat, (n : ℝ) = (k : ℝ) - 1 ↔ n + 1 = k := fun n => by
      rw [eq_sub_iff_add_eq]; exact_mod_cast Iff.rfl
    simp only [hlast]
    by_cases hij : i = j
    · subst hij
      rw [if_pos rfl]
      exact Finset.sum_eq_zero fun x _ => by ring
    · rw [if_neg hij]
      have hsq : ∀ x : Nat, ((if i = x then (1 : ℝ) else 0) - if j = x then 1 else 0) ^ 2
          = (if i = x then 1 else 0) + if j = x then 1 else 0 := fun x => by
        by_cases h1 : i = x <;> by_cases h2 : j = x
        · exact absurd (h1.trans h2.symm) hij
        · simp [h1, h2]
        · simp [h1, h2]
        · simp [h1, h2]
      rw [Finset.sum_congr rfl fun x _ => hsq x, Finset.sum_add_distrib, Finset.sum_ite_eq,
        Finset.sum_ite_eq]
      simp only [Finset.mem_range]
      split_ifs <;> first | omega | norm_num

/-- The code of a row. -/
noncomputable def codeRow (o : Knn) (qs : List Col) (f : Col → ℝ) : List ℝ :=
  qs.flatMap fun q => codeAt (typ o q) (f q)

theorem codeRow_length (qs : List Col) (f g : Col → ℝ) :
    (codeRow o qs f).length = (codeRow o qs g).length := by
  unfold codeRow
  induction qs with
  | nil => rfl
  | cons q qs ih =>
    simp only [List.flatMap_cons, List.length_append]
    rw [ih, codeAt_length]

theorem sq_codeRow {qs : List Col} {f g : Col → ℝ} (hf : ∀ q ∈ qs, Kde.Sensible (typ o q) (f q))
    (hg : ∀ q ∈ qs, Kde.Sensible (typ o q) (g q)) :
    sq (codeRow o qs f) (codeRow o qs g) = (qs.map fun q => gap (typ o q) (f q) (g q)).sum := by
  induction qs with
  | nil => simp [codeRow, sq]
  | cons q qs ih =>
    have : ∀ h, codeRow o (q :: qs) h = codeAt (typ o q) (h q) ++ codeRow o qs h := fun h => by
      simp [codeRow]
    rw [this, this, sq_append (codeAt_length _ _ _),
      ih (fun q h => hf q (List.mem_cons_of_mem _ h)) fun q h => hg q (List.mem_cons_of_mem _ h),
      sq_codeAt (hf q List.mem_cons_self) (hg q List.mem_cons_self), List.map_cons, List.sum_cons]

theorem level_eq (hV : Valid o) {q : Col} (hq : q ∈ o.outputs) :
    o.level q = match typ o q with | .numerical => none | .nominal k => some k := by
  have hlt := List.idxOf_lt_length_iff.mpr hq
  unfold level typ
  rw [if_pos hq, List.getElem?_eq_getElem (by rw [hV.types]; exact hlt),
    List.getD_eq_getElem _ _ (by rw [hV.types]; exact hlt)]
  cases o.types[o.outputs.idxOf q]'(by rw [hV.types]; exact hlt) <;> rfl

theorem levelsAt_get? (hV : Valid o) {qs : List Col} (hn : qs.Nodup)
    (hk : ∀ q ∈ qs, q ∈ o.outputs) {i : Nat} (hi : i < qs.length) :
    (o.levelsAt qs).get? i
      = match typ o qs[i] with | .numerical => none | .nominal k => some k := by
  have hwf : Dict.WF (o.levelsAt qs) := by
    unfold Dict.WF
    have : (o.levelsAt qs).keys = (qs.filter fun q => (o.level q).isSome).map qs.idxOf := by
      unfold levelsAt Dict.keys
      rw [List.map_filterMap, ← List.filterMap_eq_filter, List.map_filterMap]
      refine List.filterMap_congr fun q _ => ?_
      cases h : o.level q <;> simp [Option.guard, h]
    rw [this]
    refine (List.nodup_map_iff_inj_on (hn.filter _)).mpr fun x hx y hy e => ?_
    exact (List.idxOf_inj (List.mem_filter.mp hx).1).mp e
  have key : ∀ k, (i, k) ∈ o.levelsAt qs ↔ o.level qs[i] = some k := by
    intro k
    unfold levelsAt
    rw [List.mem_filterMap]
    constructor
    · rintro ⟨q, hq, h⟩
      cases hl : o.level q with
      | none => rw [hl] at h; cases h
      | some k' =>
        rw [hl] at h
        simp only [Option.map_some, Option.some.injEq, Prod.mk.injEq] at h
        obtain ⟨h1, rfl⟩ := h
        have : qs[i] = q := by
          subst h1
          exact List.getElem_idxOf hi
        rw [this, hl]
    · intro h
      exact ⟨qs[i], List.getElem_mem hi, by rw [h, Option.map_some, hn.idxOf_getElem]⟩
  rw [← level_eq hV (hk _ (List.getElem_mem hi))]
  cases h : o.level qs[i] with
  | some k => exact Dict.get?_of_mem hwf ((key k).mpr h)
  | none =>
    cases hg : (o.levelsAt qs).get? i with
    | none => rfl
    | some k =>
      have := (key k).mp (Dict.mem_of_get? hg)
      rw [h] at this; cases this

theorem code_eq (hV : Valid o) {qs : List Col} (hn : qs.Nodup) (hk : ∀ q ∈ qs, q ∈ o.outputs)
    {f : Col → ℝ} (hf : ∀ q ∈ qs, Kde.Sensible (typ o q) (f q)) :
    o.code qs (qs.map f) = .ok (codeRow o qs f) := by
  have hget := fun i hi => levelsAt_get? hV hn hk (i := i) hi
  unfold code
  by_cases h0 : (o.levelsAt qs) = []
  · rw [if_pos (by rw [h0]; rfl)]
    congr 1
    unfold codeRow
    have : ∀ q ∈ qs, codeAt (typ o q) (f q) = [f q] := fun q hq => by
      obtain ⟨i, hi, rfl⟩ := List.getElem_of_mem hq
      have := hget i hi
      rw [h0] at this
      cases ht : typ o qs[i] with
      | numerical => rfl
      | nominal k => rw [ht] at this; cases this
    rw [List.flatMap_congr this, List.map_eq_flatMap]
  · rw [if_neg (by simpa using h0)]
    rw [Props.C38_code]
    · change Except.ok _ = _
      congr 1
      simp only [List.map_flatMap]
      unfold codeRow
      have hz : ((qs.map f).map some).zipIdx
          = (List.range qs.length).map fun i => (some (f (qs.getD i 0)), i) := by
        refine List.ext_getElem (by simp) fun i h1 h2 => ?_
        have hi : i < qs.length := by simpa using h2
        simp [hi]
      rw [hz, List.flatMap_map]
      have hq : (qs.flatMap fun q => codeAt (typ o q) (f q))
          = (List.range qs.length).flatMap fun i => codeAt (typ o (qs.getD i 0)) (f (qs.getD i 0)) := by
        conv_lhs => rw [show qs = (List.range qs.length).map (fun i => qs.getD i 0) from
          List.ext_getElem (by simp) fun i h1 h2 => by simp [h1]]
        rw [List.flatMap_map]
      rw [hq]
      refine List.flatMap_congr fun i hi => ?_
      have hi' : i < qs.length := List.mem_range.mp hi
      have e := hget i hi'
      rw [List.getD_eq_getElem _ _ hi']
      change (Props.codeOf (o.levelsAt qs).get? i (some (f qs[i]))).map _ = _
      unfold Props.codeOf codeAt
      rw [e]
      cases typ o qs[i] with
      | numerical => rfl
      | nominal k =>
        simp only [List.map_map]
        refine List.map_congr_left fun j _ => ?_
        simp only [Function.comp_apply, Option.getD_some, Option.some.injEq]
    · intro i v hv
      unfold Props.ValidCell
      rw [List.map_map, List.getElem?_map] at hv
      have hi : i < qs.length := by
        by_contra hc
        rw [List.getElem?_eq_none (by omega)] at hv
        cases hv
      rw [List.getElem?_eq_getElem hi] at hv
      simp only [Option.map_some, Option.some.injEq, Function.comp_apply] at hv
      subst hv
      rw [hget i hi]
      have := hf qs[i] (List.getElem_mem hi)
      cases ht : typ o qs[i] with
      | numerical => trivial
      | nominal k =>
        obtain ⟨j, hj, e⟩ := this k ht
        exact ⟨j, hj, by rw [e]⟩

end Cgpm.Knn
