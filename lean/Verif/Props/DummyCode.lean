import Verif.Model.DummyCode
import Verif.Spec.DummyCode
import Verif.Lemmas.NetSample

/-!
Property C38: dummy coding is injective and of fixed width, and rejects values that are not
categories.
-/
namespace Cgpm.Props
open Cgpm Cgpm.Net

theorem asCode_valid {d : Dict Nat Nat} {i : Nat} {v : Option ℝ} (h : ValidCell d.get? i v) :
    asCode d i v = .ok (codeOf d.get? i v) := by
  unfold ValidCell at h
  unfold asCode codeOf
  cases hk : d.get? i with
  | none => rfl
  | some k =>
    rw [hk] at h
    obtain ⟨n, hn, rfl⟩ := h
    have hfl : ⌊(n : ℝ)⌋ = (n : ℤ) := Int.floor_natCast n
    have h1 : ¬ ((n : ℝ) ≠ ((⌊(n : ℝ)⌋ : ℤ) : ℝ)) := by rw [hfl]; simp
    have h2 : ¬ ¬ (0 ≤ (n : ℝ) ∧ (n : ℝ) < k) := by
      rw [not_not]; exact ⟨by positivity, by exact_mod_cast hn⟩
    simp only [if_neg h1, if_neg h2]
    congr 1
    have h3 : (n : ℝ) < (k : ℝ) - 1 ↔ n < k - 1 := by
      rw [lt_sub_iff_add_lt]
      constructor
      · intro h
        have : n + 1 < k := by exact_mod_cast h
        omega
      · intro h
        have : n + 1 < k := by omega
        exact_mod_cast this
    have h4 : ∀ j : ℕ, (some (n : ℝ) = some (j : ℝ)) ↔ n = j := by
      intro j; simp
    refine List.ext_getElem ?_ fun j hj1 hj2 => ?_
    · split <;> simp
    · rw [List.getElem_map, List.getElem_range]
      by_cases h5 : (n : ℝ) < (k : ℝ) - 1
      · simp only [if_pos h5, hfl, Int.toNat_natCast, List.getElem_set, List.getElem_replicate, h4]
        split <;> rfl
      · have : ¬ n = j := by
          rintro rfl
          rw [List.length_map, List.length_range] at hj2
          exact h5 (h3.mpr hj2)
        simp only [if_neg h5, List.getElem_replicate, h4, if_neg this]

theorem asCode_invalid {d : Dict Nat Nat} {i : Nat} {v : Option ℝ} (h : ¬ ValidCell d.get? i v) :
    asCode d i v = .error .valueError ∨ asCode d i v = .error .typeError := by
  unfold ValidCell at h
  unfold asCode
  cases hk : d.get? i with
  | none => rw [hk] at h; exact absurd trivial h
  | some k =>
    rw [hk] at h
    cases v with
    | none => exact Or.inl rfl
    | some x =>
      by_cases h1 : x ≠ ((⌊x⌋ : ℤ) : ℝ)
      · exact Or.inr (by simp only [if_pos h1])
      · refine Or.inl ?_
        simp only [if_neg h1]
        rw [if_pos]
        rintro ⟨h2, h3⟩
        rw [not_not] at h1
        have h4 : 0 ≤ ⌊x⌋ := Int.floor_nonneg.mpr h2
        obtain ⟨n, hn⟩ := Int.eq_ofNat_of_zero_le h4
        rw [hn] at h1
        refine h ⟨n, ?_, by rw [h1]; rfl⟩
        rw [h1] at h3
        exact_mod_cast h3

theorem codeOf_length (levels : Nat → Option Nat) (i : Nat) (v : Option ℝ) :
    (codeOf levels i v).length = cellWidth levels i := by
  unfold codeOf cellWidth
  cases levels i <;> simp

theorem codeOf_injective {levels : Nat → Option Nat} {i : Nat} {v w : Option ℝ}
    (hv : ValidCell levels i v) (hw : ValidCell levels i w)
    (h : codeOf levels i v = codeOf levels i w) : v = w := by
  unfold ValidCell at hv hw
  unfold codeOf at h
  cases hk : levels i with
  | none => rw [hk] at h; simpa using h
  | some k =>
    rw [hk] at hv hw h
    obtain ⟨n, hn, rfl⟩ := hv
    obtain ⟨m, hm, rfl⟩ := hw
    have h4 : ∀ a j : ℕ, (some (a : ℝ) = some (j : ℝ)) ↔ a = j := by
      intro a j; simp
    have key : ∀ j, j < k - 1 → (n = j ↔ m = j) := by
      intro j hj
      have := congrArg (fun l : List (Option ℝ) => l[j]?) h
      simp only [List.getElem?_map, List.getElem?_range hj, Option.map_some, h4,
        Option.some.injEq] at this
      by_cases a : n = j <;> by_cases b : m = j <;> simp [a, b] at this ⊢
    have : n = m := by
      by_cases a : n < k - 1
      · exact ((key n a).mp rfl).symm
      · by_cases b : m < k - 1
        · exact (key m b).mpr rfl
        · omega
    rw [this]

theorem flatMap_zip_length (levels : Nat → Option Nat) (x : List (Option ℝ)) :
    (x.zipIdx.flatMap fun p => codeOf levels p.2 p.1).length = rowWidth levels x.length := by
  unfold rowWidth
  rw [List.length_flatMap]
  congr 1
  refine List.ext_getElem (by simp) fun j h1 h2 => ?_
  simp [codeOf_length]

theorem flatMap_zip_injective {levels : Nat → Option Nat} {x y : List (Option ℝ)}
    (hl : x.length = y.length) (hx : ValidRow levels x) (hy : ValidRow levels y)
    (h : (x.zipIdx.flatMap fun p => codeOf levels p.2 p.1)
      = y.zipIdx.flatMap fun p => codeOf levels p.2 p.1) : x = y := by
  suffices H : ∀ (x y : List (Option ℝ)) n, x.length = y.length →
      (∀ (i : Nat) v, x[i]? = some v → ValidCell levels (n + i) v) →
      (∀ (i : Nat) v, y[i]? = some v → ValidCell levels (n + i) v) →
      ((x.zipIdx n).flatMap fun p => codeOf levels p.2 p.1)
        = ((y.zipIdx n).flatMap fun p => codeOf levels p.2 p.1) → x = y from
    H x y 0 hl (by simpa [ValidRow] using hx) (by simpa [ValidRow] using hy) h
  intro x
  induction x with
  | nil => intro y n hl _ _ _; exact (List.length_eq_zero_iff.mp hl.symm).symm
  | cons a t ih =>
    intro y n hl hx hy h
    cases y with
    | nil => simp at hl
    | cons b u =>
      simp only [List.zipIdx_cons, List.flatMap_cons] at h
      have h1 := List.append_inj h (by rw [codeOf_length, codeOf_length])
      have e : a = b := codeOf_injective (by simpa using hx 0 a (by simp))
        (by simpa using hy 0 b (by simp)) h1.1
      have e2 : t = u := ih u (n + 1) (by simpa using hl)
        (fun i v hi => by
          have := hx (i + 1) v (by simpa using hi)
          rwa [show n + (i + 1) = n + 1 + i by omega] at this)
        (fun i v hi => by
          have := hy (i + 1) v (by simpa using hi)
          rwa [show n + (i + 1) = n + 1 + i by omega] at this) h1.2
      rw [e, e2]

/-- **C38.** A valid row is coded by the values of its numeric covariates and the indicators of
its categories. -/
theorem C38_code (d : Dict Nat Nat) (x : List (Option ℝ)) (h : ValidRow d.get? x) :
    dummyCode x d = .ok (x.zipIdx.flatMap fun p => codeOf d.get? p.2 p.1) := by
  unfold dummyCode
  split
  · rename_i hd
    have hd' : d = [] := by simpa using hd
    subst hd'
    congr 1
    have : ∀ (l : List (Option ℝ)) n, (l.zipIdx n).flatMap
        (fun p => codeOf (Dict.get? ([] : Dict Nat Nat)) p.2 p.1) = l := by
      intro l
      induction l with
      | nil => intro n; rfl
      | cons a t ih => intro n; simp only [List.zipIdx_cons, List.flatMap_cons, ih]; rfl
    exact (this x 0).symm
  · rw [collect_ok _ (fun p => codeOf d.get? p.2 p.1)]
    · rw [List.flatMap_def]; rfl
    · rintro ⟨v, i⟩ hp
      have := List.mem_zipIdx hp
      refine asCode_valid (h i v ?_)
      have hm : (v, i) ∈ x.zipIdx := hp
      rw [List.mem_zipIdx_iff_getElem?] at hm
      exact hm

/-- **C38.** A row with a value that is not a category of its covariate is refused. -/
theorem C38_rejects (d : Dict Nat Nat) (x : List (Option ℝ)) (h : ¬ ValidRow d.get? x) :
    dummyCode x d = .error .valueError ∨ dummyCode x d = .error .typeError := by
  have hne : d.isEmpty = false := by
    cases d with
    | nil => exact absurd (fun i v _ => trivial) h
    | cons p t => rfl
  unfold dummyCode
  rw [hne]
  simp only [Bool.false_eq_true, if_false]
  have : ∀ l : List (Option ℝ × Nat), (∃ p ∈ l, ¬ ValidCell d.get? p.2 p.1) →
      collect (fun p => asCode d p.2 p.1) l = .error .valueError ∨
      collect (fun p => asCode d p.2 p.1) l = .error .typeError := by
    intro l
    induction l with
    | nil => simp
    | cons p t ih =>
      rintro ⟨q, hq, hv⟩
      simp only [collect]
      by_cases hp : ValidCell d.get? p.2 p.1
      · rw [asCode_valid hp]
        have hq' : q ∈ t := by
          rcases List.mem_cons.mp hq with rfl | h
          · exact absurd hp hv
          · exact h
        rcases ih ⟨q, hq', hv⟩ with h | h
        · exact Or.inl (by simp only [h]; rfl)
        · exact Or.inr (by simp only [h]; rfl)
      · rcases asCode_invalid hp with h | h
        · exact Or.inl (by rw [h])
        · exact Or.inr (by rw [h])
  unfold ValidRow at h
  push Not at h
  obtain ⟨i, v, h1, h2⟩ := h
  rcases this x.zipIdx ⟨(v, i), List.mem_zipIdx_iff_getElem?.mpr h1, h2⟩ with h | h
  · exact Or.inl (by rw [h]; rfl)
  · exact Or.inr (by rw [h]; rfl)

/-- **C38.** Exactly the valid rows are coded. -/
theorem C38_accepts_iff (d : Dict Nat Nat) (x : List (Option ℝ)) :
    (∃ y, dummyCode x d = .ok y) ↔ ValidRow d.get? x := by
  constructor
  · rintro ⟨y, hy⟩
    by_contra h
    rcases C38_rejects d x h with e | e <;> rw [e] at hy <;> cases hy
  · exact fun h => ⟨_, C38_code d x h⟩

/-- **C38.** The width of the code depends only on the table of levels and the number of
covariates. -/
theorem C38_width (d : Dict Nat Nat) (x y : List (Option ℝ)) (h : dummyCode x d = .ok y) :
    y.length = rowWidth d.get? x.length := by
  have hv := (C38_accepts_iff d x).mp ⟨y, h⟩
  rw [C38_code d x hv] at h
  cases h
  exact flatMap_zip_length _ _

/-- **C38.** Different rows with the same covariates have different codes. -/
theorem C38_injective (d : Dict Nat Nat) (x x' y : List (Option ℝ)) (hl : x.length = x'.length)
    (h : dummyCode x d = .ok y) (h' : dummyCode x' d = .ok y) : x = x' := by
  have hv := (C38_accepts_iff d x).mp ⟨y, h⟩
  have hv' := (C38_accepts_iff d x').mp ⟨y, h'⟩
  rw [C38_code d x hv] at h
  rw [C38_code d x' hv'] at h'
  refine flatMap_zip_injective hl hv hv' ?_
  rw [Except.ok.inj h, Except.ok.inj h']

/-- Non-vacuity: a numeric covariate and a categorical one with five values, the example of the
docstring; category 5 is refused. -/
example : ValidRow (Dict.get? [(1, 5)]) [some 12.1, some 3] ∧
    dummyCode [some 12.1, some 3] [(1, 5)] = .ok [some 12.1, some 0, some 0, some 0, some 1] ∧
    rowWidth (Dict.get? [(1, 5)]) 2 = 5 ∧
    ¬ ValidRow (Dict.get? [(1, 5)]) [some 12.1, some 5] := by
  have h : ValidRow (Dict.get? [(1, 5)]) [some 12.1, some 3] := by
    intro i v hi
    match i with
    | 0 => exact trivial
    | 1 =>
      have : v = some 3 := by simpa using hi.symm
      exact ⟨3, by decide, by rw [this]; norm_num⟩
    | i + 2 => simp at hi
  refine ⟨h, ?_, rfl, ?_⟩
  · rw [C38_code _ _ h]
    simp [codeOf, Dict.get?, List.range_succ]
  · intro h
    obtain ⟨n, hn, e⟩ := h 1 (some 5) rfl
    have : (n : ℝ) = (5 : ℕ) := by simpa using e.symm
    have : n = 5 := by exact_mod_cast this
    omega

end Cgpm.Props
