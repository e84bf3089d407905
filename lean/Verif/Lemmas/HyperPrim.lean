import Verif.Lemmas.HyperGrid
import Mathlib.Tactic.FieldSimp

/-!
The grids of the primitives hold admissible values, and the primitives accept admissible values.
-/
namespace Cgpm.Spec.Hyper
open Cgpm Cgpm.Hyper

/-! ### grids -/

theorem linspace_length (a b : ℝ) (n : ℕ) : (linspace a b n).length = n := by simp [linspace]

theorem linspace_bounds {a b : ℝ} {n : ℕ} {v : ℝ} (h : v ∈ linspace a b n) :
    min a b ≤ v ∧ v ≤ max a b := by
  unfold linspace at h
  obtain ⟨i, hi, rfl⟩ := List.mem_map.mp h
  rw [List.mem_range] at hi
  rcases Nat.lt_or_ge n 2 with hn | hn
  · have : n = 1 := by omega
    subst this
    simp
  · have hn' : (0 : ℝ) < (n : ℝ) - 1 := by
      have : (2 : ℝ) ≤ n := by exact_mod_cast hn
      linarith
    have hi1 : (i : ℝ) ≤ (n : ℝ) - 1 := by
      have : i + 1 ≤ n := hi
      have : ((i + 1 : ℕ) : ℝ) ≤ n := by exact_mod_cast this
      push_cast at this; linarith
    set t : ℝ := i / ((n : ℝ) - 1) with ht
    have ht0 : 0 ≤ t := by positivity
    have ht1 : t ≤ 1 := by rw [ht, div_le_one hn']; exact hi1
    have e : a + i * ((b - a) / ((n : ℝ) - 1)) = (1 - t) * a + t * b := by
      rw [ht]; field_simp; ring
    rw [e]
    constructor
    · rcases le_total a b with hab | hab
      · rw [min_eq_left hab]; nlinarith
      · rw [min_eq_right hab]; nlinarith
    · rcases le_total a b with hab | hab
      · rw [max_eq_right hab]; nlinarith
      · rw [max_eq_left hab]; nlinarith

theorem linspace_ne_nil {n : ℕ} (hn : 0 < n) (a b : ℝ) : linspace a b n ≠ [] := by
  rw [← List.length_pos_iff, linspace_length]; exact hn

theorem logLinspace_ok {a b : ℝ} (ha : 0 < a) (hb : 0 < b) {n : ℕ} (hn : 0 < n) :
    ∃ l, logLinspace a b n = .ok l ∧ l.length = n ∧ l ≠ [] ∧
      ∀ v ∈ l, min a b ≤ v ∧ v ≤ max a b := by
  refine ⟨_, if_pos ⟨ha, hb⟩, by simp [linspace_length], by simpa using linspace_ne_nil hn _ _, ?_⟩
  intro v hv
  obtain ⟨x, hx, rfl⟩ := List.mem_map.mp hv
  obtain ⟨h1, h2⟩ := linspace_bounds hx
  constructor
  · rcases le_total a b with hab | hab
    · rw [min_eq_left hab]
      rw [min_eq_left (Real.log_le_log ha hab)] at h1
      calc a = Real.exp (Real.log a) := (Real.exp_log ha).symm
        _ ≤ _ := Real.exp_le_exp.mpr h1
    · rw [min_eq_right hab]
      rw [min_eq_right (Real.log_le_log hb hab)] at h1
      calc b = Real.exp (Real.log b) := (Real.exp_log hb).symm
        _ ≤ _ := Real.exp_le_exp.mpr h1
  · rcases le_total a b with hab | hab
    · rw [max_eq_right hab]
      rw [max_eq_right (Real.log_le_log ha hab)] at h2
      calc _ ≤ Real.exp (Real.log b) := Real.exp_le_exp.mpr h2
        _ = b := Real.exp_log hb
    · rw [max_eq_left hab]
      rw [max_eq_left (Real.log_le_log hb hab)] at h2
      calc _ ≤ Real.exp (Real.log a) := Real.exp_le_exp.mpr h2
        _ = a := Real.exp_log ha

theorem npRound_one {x : ℝ} (h : 1 ≤ x) : 1 ≤ npRound x := by
  have hf : (1 : ℤ) ≤ ⌊x⌋ := by rw [Int.le_floor]; exact_mod_cast h
  have hf' : (1 : ℝ) ≤ (⌊x⌋ : ℝ) := by exact_mod_cast hf
  unfold npRound
  split_ifs <;> linarith

theorem mem_npUnique {l : List ℝ} {v : ℝ} : v ∈ npUnique l ↔ v ∈ l := by
  unfold npUnique
  rw [(List.perm_insertionSort _ _).mem_iff, List.mem_dedup]

theorem estimateKappa_pos {N : ℕ} {kappa : Option ℝ} (h : kappa ≠ some 0) :
    0 < estimateKappa N kappa := by
  unfold estimateKappa
  split_ifs
  · norm_num
  · have := Real.pi_pos; linarith
  · cases kappa with
    | none => norm_num
    | some k => exact abs_pos.mpr fun h0 => h (by rw [h0])

theorem ssqdev_nonneg (X : List ℝ) : 0 ≤ ssqdev X := by
  unfold ssqdev
  refine mul_nonneg (div_nonneg (List.sum_nonneg ?_) (Nat.cast_nonneg _)) (Nat.cast_nonneg _)
  intro y hy
  obtain ⟨x, -, rfl⟩ := List.mem_map.mp hy
  positivity

theorem foldl_max_mem (t : List ℝ) (x : ℝ) : t.foldl max x ∈ x :: t := by
  induction t generalizing x with
  | nil => simp
  | cons y t ih =>
    rw [List.foldl_cons]
    rcases List.mem_cons.mp (ih (max x y)) with h | h
    · rw [h]
      rcases max_choice x y with h | h <;> rw [h] <;> simp
    · simp [h]

/-- The grids of a non-empty column. -/
theorem grids_ok (p : Prim) (kappa : Option ℝ) {X : List ℝ} (hX : X ≠ [])
    (hsup : ∀ x ∈ X, ∃ y, p.fam.prep x = .ok y) {n : ℕ} (hn : 0 < n)
    (hk : ∀ f, p = .vonmises f → kappa ≠ some 0) :
    ∃ grids, constructHyperGrids p kappa X n = .ok grids ∧ grids.WF ∧
      grids.keys.Perm (names p) ∧ (∀ name grid, (name, grid) ∈ grids → grid ≠ []) ∧
      (∀ name grid, (name, grid) ∈ grids → name ∈ positive p → ∀ v ∈ grid, 0 < v) ∧
      (∀ f, p = .vonmises f → ∀ grid, ("b", grid) ∈ grids → ∀ v ∈ grid, v ≤ 2 * Real.pi) := by
  have hlen : (1 : ℝ) ≤ X.length := by
    have : 1 ≤ X.length := List.length_pos_iff.mpr hX
    exact_mod_cast this
  have hlen0 : (0 : ℝ) < X.length := by linarith
  have hlenN : X.length ≠ 0 := by
    have := List.length_pos_iff.mpr hX; omega
  have pos : ∀ {a b : ℝ} {l : List ℝ}, 0 < a → 0 < b → (∀ v ∈ l, min a b ≤ v ∧ v ≤ max a b) →
      ∀ v ∈ l, 0 < v := fun ha hb h v hv => lt_of_lt_of_le (lt_min ha hb) (h v hv).1
  cases p with
  | bernoulli =>
    obtain ⟨l, e, -, hne, hb⟩ := logLinspace_ok one_pos hlen0 hn
    refine ⟨[("alpha", l), ("beta", l)], ?_, by simp [Dict.WF, Dict.keys],
      by simp [Dict.keys, names], ?_, ?_, by simp⟩
    · simp only [constructHyperGrids, e]; rfl
    · simp only [List.mem_cons, Prod.mk.injEq, List.not_mem_nil, or_false]
      rintro a b (⟨-, rfl⟩ | ⟨-, rfl⟩) <;> exact hne
    · simp only [List.mem_cons, Prod.mk.injEq, List.not_mem_nil, or_false]
      rintro a b (⟨-, rfl⟩ | ⟨-, rfl⟩) - <;> exact pos one_pos hlen0 hb
  | categorical k =>
    obtain ⟨l, e, -, hne, hb⟩ := logLinspace_ok one_pos hlen0 hn
    refine ⟨[("alpha", l)], ?_, by simp [Dict.WF, Dict.keys],
      by simp [Dict.keys, names], ?_, ?_, by simp⟩
    · simp only [constructHyperGrids, e]; rfl
    · simp only [List.mem_cons, Prod.mk.injEq, List.not_mem_nil, or_false]
      rintro a b ⟨-, rfl⟩; exact hne
    · simp only [List.mem_cons, Prod.mk.injEq, List.not_mem_nil, or_false]
      rintro a b ⟨-, rfl⟩ -; exact pos one_pos hlen0 hb
  | exponential =>
    obtain ⟨l, e, -, hne, hb⟩ := logLinspace_ok one_half_pos hlen0 hn
    refine ⟨[("a", l), ("b", l)], ?_, by simp [Dict.WF, Dict.keys],
      by simp [Dict.keys, names], ?_, ?_, by simp⟩
    · simp only [constructHyperGrids, e]; rfl
    · simp only [List.mem_cons, Prod.mk.injEq, List.not_mem_nil, or_false]
      rintro a b (⟨-, rfl⟩ | ⟨-, rfl⟩) <;> exact hne
    · simp only [List.mem_cons, Prod.mk.injEq, List.not_mem_nil, or_false]
      rintro a b (⟨-, rfl⟩ | ⟨-, rfl⟩) - <;> exact pos one_half_pos hlen0 hb
  | geometric =>
    obtain ⟨l, e, -, hne, hb⟩ := logLinspace_ok one_pos (half_pos hlen0) hn
    obtain ⟨l', e', -, hne', hb'⟩ :=
      logLinspace_ok (by norm_num : (0 : ℝ) < 1 / 10) (half_pos hlen0) hn
    refine ⟨[("a", l), ("b", l')], ?_, by simp [Dict.WF, Dict.keys],
      by simp [Dict.keys, names], ?_, ?_, by simp⟩
    · simp only [constructHyperGrids, e, e']; rfl
    · simp only [List.mem_cons, Prod.mk.injEq, List.not_mem_nil, or_false]
      rintro a b (⟨-, rfl⟩ | ⟨-, rfl⟩)
      exacts [hne, hne']
    · simp only [List.mem_cons, Prod.mk.injEq, List.not_mem_nil, or_false]
      rintro a b (⟨-, rfl⟩ | ⟨-, rfl⟩) -
      exacts [pos one_pos (half_pos hlen0) hb, pos (by norm_num) (half_pos hlen0) hb']
  | poisson =>
    obtain ⟨l', e', -, hne', hb'⟩ :=
      logLinspace_ok (by norm_num : (0 : ℝ) < 1 / 10) hlen0 hn
    refine ⟨[("a", npUnique ((linspace 1 X.length n).map npRound)), ("b", l')], ?_,
      by simp [Dict.WF, Dict.keys], by simp [Dict.keys, names], ?_, ?_, by simp⟩
    · simp only [constructHyperGrids, e']; rfl
    · simp only [List.mem_cons, Prod.mk.injEq, List.not_mem_nil, or_false]
      rintro a b (⟨-, rfl⟩ | ⟨-, rfl⟩)
      · obtain ⟨x, hx⟩ := List.exists_mem_of_ne_nil _ (linspace_ne_nil hn 1 X.length)
        exact List.ne_nil_of_mem (mem_npUnique.mpr (List.mem_map.mpr ⟨x, hx, rfl⟩))
      · exact hne'
    · simp only [List.mem_cons, Prod.mk.injEq, List.not_mem_nil, or_false]
      rintro a b (⟨-, rfl⟩ | ⟨-, rfl⟩) -
      · intro v hv
        obtain ⟨x, hx, rfl⟩ := List.mem_map.mp (mem_npUnique.mp hv)
        have h1 := (linspace_bounds hx).1
        rw [min_eq_left hlen] at h1
        linarith [npRound_one h1]
      · exact pos (by norm_num) hlen0 hb'
  | normal =>
    have hN : (0 : ℝ) < X.length + 1 := by linarith
    have hss : 0 < ssqdev X + 1 := by linarith [ssqdev_nonneg X]
    obtain ⟨r, er, -, hrne, hr⟩ := logLinspace_ok (one_div_pos.mpr hN) hN hn
    obtain ⟨s, es, -, hsne, hs⟩ := logLinspace_ok (by linarith : 0 < (ssqdev X + 1) / 100) hss hn
    obtain ⟨nu, en, -, hnne, hnu⟩ := logLinspace_ok one_pos hN hn
    obtain ⟨x, t, rfl⟩ := List.exists_cons_of_ne_nil hX
    refine ⟨[("m", linspace (t.foldl min x) (t.foldl max x + 5) n), ("r", r), ("s", s), ("nu", nu)],
      ?_, by simp [Dict.WF, Dict.keys], by simp [Dict.keys, names], ?_, ?_, by simp⟩
    · simp only [constructHyperGrids, er, es, en, minimum, maximum]; rfl
    · simp only [List.mem_cons, Prod.mk.injEq, List.not_mem_nil, or_false]
      rintro a b (⟨-, rfl⟩ | ⟨-, rfl⟩ | ⟨-, rfl⟩ | ⟨-, rfl⟩)
      exacts [linspace_ne_nil hn _ _, hrne, hsne, hnne]
    · simp only [List.mem_cons, Prod.mk.injEq, List.not_mem_nil, or_false]
      rintro a b (⟨rfl, rfl⟩ | ⟨-, rfl⟩ | ⟨-, rfl⟩ | ⟨-, rfl⟩) hp
      · simp [positive] at hp
      exacts [pos (one_div_pos.mpr hN) hN hr, pos (by linarith) hss hs, pos one_pos hN hnu]
  | lognormal =>
    obtain ⟨x, t, rfl⟩ := List.exists_cons_of_ne_nil hX
    have hmax : 0 < t.foldl max x := by
      obtain ⟨y, hy⟩ := hsup _ (foldl_max_mem t x)
      by_contra hc
      simp [Prim.fam, lognormal, not_lt.mp hc] at hy
    obtain ⟨m, em, -, hmne, -⟩ := logLinspace_ok (by norm_num : (0 : ℝ) < 1 / 10000) hmax hn
    obtain ⟨r, er, -, hrne, hr⟩ := logLinspace_ok (by norm_num : (0 : ℝ) < 1 / 10) hlen0 hn
    refine ⟨[("m", m), ("r", r), ("nu", r), ("s", r)], ?_, by simp [Dict.WF, Dict.keys], ?_, ?_, ?_,
      by simp⟩
    · have e5 : constructHyperGrids .lognormal kappa (x :: t) n = (do
          let m ← logLinspace (1 / 10000) (t.foldl max x) n
          let r ← logLinspace (1 / 10) ((x :: t).length : ℝ) n
          let nu ← logLinspace (1 / 10) ((x :: t).length : ℝ) n
          let s ← logLinspace (1 / 10) ((x :: t).length : ℝ) n
          .ok [("m", m), ("r", r), ("nu", nu), ("s", s)]) := rfl
      rw [e5, em, er]; rfl
    · show List.Perm ["m", "r", "nu", "s"] ["m", "r", "s", "nu"]
      decide
    · simp only [List.mem_cons, Prod.mk.injEq, List.not_mem_nil, or_false]
      rintro a b (⟨-, rfl⟩ | ⟨-, rfl⟩ | ⟨-, rfl⟩ | ⟨-, rfl⟩)
      exacts [hmne, hrne, hrne, hrne]
    · simp only [List.mem_cons, Prod.mk.injEq, List.not_mem_nil, or_false]
      rintro a b (⟨rfl, rfl⟩ | ⟨-, rfl⟩ | ⟨-, rfl⟩ | ⟨-, rfl⟩) hp
      · simp [positive] at hp
      all_goals exact pos (by norm_num) hlen0 hr
  | vonmises f =>
    obtain ⟨l, e, -, hne, hb⟩ := logLinspace_ok (one_div_pos.mpr hlen0) hlen0 hn
    have hkap := estimateKappa_pos (N := X.length) (hk f rfl)
    have hpi := Real.pi_pos
    have hnR : (1 : ℝ) ≤ n := by exact_mod_cast hn
    refine ⟨[("a", l), ("b", linspace (2 * Real.pi / n) (2 * Real.pi) n),
      ("k", linspace (estimateKappa X.length kappa) (X.length * estimateKappa X.length kappa) n)],
      ?_, by simp [Dict.WF, Dict.keys], by simp [Dict.keys, names], ?_, ?_, ?_⟩
    · simp only [constructHyperGrids, e, if_neg hlenN]; rfl
    · simp only [List.mem_cons, Prod.mk.injEq, List.not_mem_nil, or_false]
      rintro a b (⟨-, rfl⟩ | ⟨-, rfl⟩ | ⟨-, rfl⟩)
      exacts [hne, linspace_ne_nil hn _ _, linspace_ne_nil hn _ _]
    · simp only [List.mem_cons, Prod.mk.injEq, List.not_mem_nil, or_false]
      rintro a b (⟨-, rfl⟩ | ⟨-, rfl⟩ | ⟨-, rfl⟩) -
      · exact pos (one_div_pos.mpr hlen0) hlen0 hb
      · exact pos (div_pos (by linarith) (by linarith)) (by linarith) fun v hv => linspace_bounds hv
      · exact pos hkap (mul_pos hlen0 hkap) fun v hv => linspace_bounds hv
    · simp only [List.mem_cons, Prod.mk.injEq, List.not_mem_nil, or_false]
      rintro g - grid (⟨h, -⟩ | ⟨-, rfl⟩ | ⟨h, -⟩) v hv
      · exact absurd h (by decide)
      · have h2 := (linspace_bounds hv).2
        rw [max_eq_right (div_le_self (by linarith) hnR)] at h2
        exact h2
      · exact absurd h (by decide)
  | normalTrunc l h z q =>
    exact ⟨[], rfl, by simp [Dict.WF, Dict.keys], by simp [Dict.keys, names], by simp, by simp,
      by simp⟩
  | beta q =>
    exact ⟨[], rfl, by simp [Dict.WF, Dict.keys], by simp [Dict.keys, names], by simp, by simp,
      by simp⟩

/-! ### the primitives accept admissible hyperparameters -/

theorem okBind {α β : Type} (a : α) (f : α → Except Exn β) : (Except.ok a >>= f) = f a := rfl

theorem need_some {h : Hypers} {name : String} {v : ℝ} (e : h.get? name = some v) :
    need h name = .ok v := by simp [need, e]

theorem require_of {P : Prop} (h : P) : require P = .ok () := if_pos h

theorem readHypers_ok {p : Prim} {h : Hypers} (hh : Admissible p h) (old : p.H) :
    readHypers h p old = .ok (assign h p old) := by
  obtain ⟨h1, h2, h3⟩ := hh
  cases p with
  | bernoulli =>
    obtain ⟨a, ea⟩ := h1 "alpha" (by simp [names])
    obtain ⟨b, eb⟩ := h1 "beta" (by simp [names])
    have pa := h2 "alpha" (by simp [positive, names]) _ ea
    have pb := h2 "beta" (by simp [positive, names]) _ eb
    simp only [readHypers, need_some ea, need_some eb, assign, ea, eb, Option.getD_some]
    simp only [okBind, gt_iff_lt, require_of pa, require_of pb]
  | categorical k =>
    obtain ⟨a, ea⟩ := h1 "alpha" (by simp [names])
    have pa := h2 "alpha" (by simp [positive, names]) _ ea
    simp only [readHypers, need_some ea, assign, ea, Option.getD_some]
    simp only [okBind, gt_iff_lt, require_of pa]
  | exponential =>
    obtain ⟨a, ea⟩ := h1 "a" (by simp [names])
    obtain ⟨b, eb⟩ := h1 "b" (by simp [names])
    have pa := h2 "a" (by simp [positive, names]) _ ea
    have pb := h2 "b" (by simp [positive, names]) _ eb
    simp only [readHypers, need_some ea, need_some eb, assign, ea, eb, Option.getD_some]
    simp only [okBind, gt_iff_lt, require_of pa, require_of pb]
  | geometric =>
    obtain ⟨a, ea⟩ := h1 "a" (by simp [names])
    obtain ⟨b, eb⟩ := h1 "b" (by simp [names])
    have pa := h2 "a" (by simp [positive, names]) _ ea
    have pb := h2 "b" (by simp [positive, names]) _ eb
    simp only [readHypers, need_some ea, need_some eb, assign, ea, eb, Option.getD_some]
    simp only [okBind, gt_iff_lt, require_of pa, require_of pb]
  | poisson =>
    obtain ⟨a, ea⟩ := h1 "a" (by simp [names])
    obtain ⟨b, eb⟩ := h1 "b" (by simp [names])
    have pa := h2 "a" (by simp [positive, names]) _ ea
    have pb := h2 "b" (by simp [positive, names]) _ eb
    simp only [readHypers, need_some ea, need_some eb, assign, ea, eb, Option.getD_some]
    simp only [okBind, gt_iff_lt, require_of pa, require_of pb]
  | normal =>
    obtain ⟨m, em⟩ := h1 "m" (by simp [names])
    obtain ⟨r, er⟩ := h1 "r" (by simp [names])
    obtain ⟨s, es⟩ := h1 "s" (by simp [names])
    obtain ⟨nu, en⟩ := h1 "nu" (by simp [names])
    have pr := h2 "r" (by simp [positive, names]) _ er
    have ps := h2 "s" (by simp [positive, names]) _ es
    have pn := h2 "nu" (by simp [positive, names]) _ en
    simp only [readHypers, need_some em, need_some er, need_some es, need_some en, assign, em, er,
      es, en, Option.getD_some]
    simp only [okBind, gt_iff_lt, require_of pr, require_of ps, require_of pn]
  | lognormal =>
    obtain ⟨m, em⟩ := h1 "m" (by simp [names])
    obtain ⟨r, er⟩ := h1 "r" (by simp [names])
    obtain ⟨s, es⟩ := h1 "s" (by simp [names])
    obtain ⟨nu, en⟩ := h1 "nu" (by simp [names])
    have pr := h2 "r" (by simp [positive, names]) _ er
    have ps := h2 "s" (by simp [positive, names]) _ es
    have pn := h2 "nu" (by simp [positive, names]) _ en
    simp only [readHypers, need_some em, need_some er, need_some es, need_some en, assign, em, er,
      es, en, Option.getD_some]
    simp only [okBind, gt_iff_lt, require_of pr, require_of ps, require_of pn]
  | vonmises f =>
    obtain ⟨a, ea⟩ := h1 "a" (by simp [names])
    obtain ⟨b, eb⟩ := h1 "b" (by simp [names])
    obtain ⟨k, ek⟩ := h1 "k" (by simp [names])
    have pa := h2 "a" (by simp [positive, names]) _ ea
    have pb := h2 "b" (by simp [positive, names]) _ eb
    have p2 := h3 f rfl _ eb
    simp only [readHypers, need_some ea, need_some eb, need_some ek, assign, ea, eb, ek,
      Option.getD_some]
    simp only [okBind, gt_iff_lt, require_of pa, require_of pb, require_of (show 0 ≤ b ∧ b ≤ 2 * Real.pi from ⟨pb.le, p2⟩)]
  | normalTrunc l h z q => rfl
  | beta q => rfl

theorem newHypers_ok {p : Prim} {h : Hypers} (hh : Admissible p h) (params : p.H) :
    newHypers h p params = .ok (assign h p params) := by
  obtain ⟨h1, h2, h3⟩ := hh
  cases p with
  | bernoulli =>
    obtain ⟨a, ea⟩ := h1 "alpha" (by simp [names])
    obtain ⟨b, eb⟩ := h1 "beta" (by simp [names])
    have pa := h2 "alpha" (by simp [positive, names]) _ ea
    have pb := h2 "beta" (by simp [positive, names]) _ eb
    simp only [newHypers, assign, ea, eb, Option.getD_some]
    simp only [okBind, gt_iff_lt, require_of pa, require_of pb]
  | categorical k =>
    obtain ⟨a, ea⟩ := h1 "alpha" (by simp [names])
    simp only [newHypers, assign, ea, Option.getD_some]
  | exponential =>
    obtain ⟨a, ea⟩ := h1 "a" (by simp [names])
    obtain ⟨b, eb⟩ := h1 "b" (by simp [names])
    have pa := h2 "a" (by simp [positive, names]) _ ea
    have pb := h2 "b" (by simp [positive, names]) _ eb
    simp only [newHypers, assign, ea, eb, Option.getD_some]
    simp only [okBind, gt_iff_lt, require_of pa, require_of pb]
  | geometric =>
    obtain ⟨a, ea⟩ := h1 "a" (by simp [names])
    obtain ⟨b, eb⟩ := h1 "b" (by simp [names])
    have pa := h2 "a" (by simp [positive, names]) _ ea
    have pb := h2 "b" (by simp [positive, names]) _ eb
    simp only [newHypers, assign, ea, eb, Option.getD_some]
    simp only [okBind, gt_iff_lt, require_of pa, require_of pb]
  | poisson =>
    obtain ⟨a, ea⟩ := h1 "a" (by simp [names])
    obtain ⟨b, eb⟩ := h1 "b" (by simp [names])
    have pa := h2 "a" (by simp [positive, names]) _ ea
    have pb := h2 "b" (by simp [positive, names]) _ eb
    simp only [newHypers, assign, ea, eb, Option.getD_some]
    simp only [okBind, gt_iff_lt, require_of pa, require_of pb]
  | normal =>
    obtain ⟨m, em⟩ := h1 "m" (by simp [names])
    obtain ⟨r, er⟩ := h1 "r" (by simp [names])
    obtain ⟨s, es⟩ := h1 "s" (by simp [names])
    obtain ⟨nu, en⟩ := h1 "nu" (by simp [names])
    have pr := h2 "r" (by simp [positive, names]) _ er
    have ps := h2 "s" (by simp [positive, names]) _ es
    have pn := h2 "nu" (by simp [positive, names]) _ en
    simp only [newHypers, assign, em, er, es, en, Option.getD_some]
    simp only [okBind, gt_iff_lt, require_of pr, require_of ps, require_of pn]
  | lognormal =>
    obtain ⟨m, em⟩ := h1 "m" (by simp [names])
    obtain ⟨r, er⟩ := h1 "r" (by simp [names])
    obtain ⟨s, es⟩ := h1 "s" (by simp [names])
    obtain ⟨nu, en⟩ := h1 "nu" (by simp [names])
    have pr := h2 "r" (by simp [positive, names]) _ er
    have ps := h2 "s" (by simp [positive, names]) _ es
    have pn := h2 "nu" (by simp [positive, names]) _ en
    simp only [newHypers, assign, em, er, es, en, Option.getD_some]
    simp only [okBind, gt_iff_lt, require_of pr, require_of ps, require_of pn]
  | vonmises f =>
    obtain ⟨a, ea⟩ := h1 "a" (by simp [names])
    obtain ⟨b, eb⟩ := h1 "b" (by simp [names])
    obtain ⟨k, ek⟩ := h1 "k" (by simp [names])
    have pa := h2 "a" (by simp [positive, names]) _ ea
    have pb := h2 "b" (by simp [positive, names]) _ eb
    have pk := h2 "k" (by simp [positive, names]) _ ek
    have p2 := h3 f rfl _ eb
    simp only [newHypers, assign, ea, eb, ek, Option.getD_some]
    simp only [okBind, gt_iff_lt, require_of pa, require_of (show 0 ≤ b ∧ b ≤ 2 * Real.pi from ⟨pb.le, p2⟩), require_of pk]
  | normalTrunc l h z q => rfl
  | beta q => rfl

theorem assign_assign (h h' : Hypers) (p : Prim) (old : p.H) :
    assign h p (assign h' p old) = assign h p old := by cases p <;> rfl

theorem admissible_hypOk {p : Prim} {h : Hypers} (hh : Admissible p h) (old : p.H) :
    p.fam.hypOk (assign h p old) := by
  obtain ⟨h1, h2, h3⟩ := hh
  have key : ∀ name, name ∈ names p → name ∈ positive p → 0 < (h.get? name).getD 0 := by
    intro name hn hp
    obtain ⟨v, e⟩ := h1 name hn
    rw [e]; exact h2 name hp v e
  cases p with
  | bernoulli => exact ⟨key "alpha" (by simp [names]) (by simp [positive, names]),
      key "beta" (by simp [names]) (by simp [positive, names])⟩
  | categorical k => exact key "alpha" (by simp [names]) (by simp [positive, names])
  | exponential => exact ⟨key "a" (by simp [names]) (by simp [positive, names]),
      key "b" (by simp [names]) (by simp [positive, names])⟩
  | geometric => exact ⟨key "a" (by simp [names]) (by simp [positive, names]),
      key "b" (by simp [names]) (by simp [positive, names])⟩
  | poisson => exact ⟨key "a" (by simp [names]) (by simp [positive, names]),
      key "b" (by simp [names]) (by simp [positive, names])⟩
  | normal => exact ⟨key "r" (by simp [names]) (by simp [positive, names]),
      key "s" (by simp [names]) (by simp [positive, names]),
      key "nu" (by simp [names]) (by simp [positive, names])⟩
  | lognormal => exact ⟨key "r" (by simp [names]) (by simp [positive, names]),
      key "s" (by simp [names]) (by simp [positive, names]),
      key "nu" (by simp [names]) (by simp [positive, names])⟩
  | vonmises f =>
    obtain ⟨b, eb⟩ := h1 "b" (by simp [names])
    refine ⟨key "a" (by simp [names]) (by simp [positive, names]),
      key "b" (by simp [names]) (by simp [positive, names]), ?_⟩
    show (h.get? "b").getD 0 ≤ _
    rw [eb]; exact h3 f rfl _ eb
  | normalTrunc l h z q => trivial
  | beta q => trivial

/-! ### the loops on a column of a primitive type -/

/-- Same rows, statistics and (for the uncollapsed types) parameters. -/
def primSame (p : Prim) (a b : Comp ℝ p.S p.H) : Prop :=
  a.data = b.data ∧ a.stat = b.stat ∧ ∀ h, assign h p a.hyp = assign h p b.hyp

theorem prim_good (p : Prim) (params : p.H) {grids : Grids} (hwf : grids.WF)
    (hne : ∀ name grid, (name, grid) ∈ grids → grid ≠ [])
    (hpos : ∀ name grid, (name, grid) ∈ grids → name ∈ positive p → ∀ v ∈ grid, 0 < v)
    (hvm : ∀ f, p = .vonmises f → ∀ grid, ("b", grid) ∈ grids → ∀ v ∈ grid, v ≤ 2 * Real.pi)
    (cl0 : Dict Tab (Comp ℝ p.S p.H)) :
    Good (primApi p params) grids (Admissible p) (primSame p)
      (fun c h => c.hyp = assign h p c.hyp)
      (fun h c => p.fam.score (assign h p c.hyp) c.stat) cl0 where
  wf := hwf
  refl := fun _ _ => ⟨rfl, rfl, fun _ => rfl⟩
  set := by
    intro h hh kc _ c hs
    refine ⟨c.withHyp (assign h p c.hyp), ?_, ⟨hs.1, hs.2.1, ?_⟩, ?_, ?_⟩
    · simp only [primApi, readHypers_ok hh]
    · intro h'
      simp only [Comp.withHyp, assign_assign]
      exact hs.2.2 h'
    · simp only [Comp.withHyp, assign_assign]
    · simp only [primApi, Comp.score, Comp.withHyp, hs.2.1, hs.2.2]
  closed := by
    intro h hh name grid hm v hv
    obtain ⟨h1, h2, h3⟩ := hh
    refine ⟨?_, ?_, ?_⟩
    · intro n hn
      rw [Dict.get?_set]
      split_ifs with e
      · exact ⟨v, rfl⟩
      · exact h1 n hn
    · intro n hn w
      rw [Dict.get?_set]
      split_ifs with e
      · intro hw
        cases hw
        subst e
        exact hpos _ grid hm hn _ hv
      · exact h2 n hn w
    · intro f hf w
      rw [Dict.get?_set]
      split_ifs with e
      · intro hw
        cases hw
        subst e
        exact hvm f hf grid hm _ hv
      · exact h3 f hf w
  nonempty := hne
  fresh := by
    intro h hh
    exact ⟨_, by simp only [primApi, newHypers_ok hh]; rfl⟩

theorem config_admissible {p : Prim} {grids : Grids} (hwf : grids.WF)
    (hperm : grids.keys.Perm (names p))
    (hpos : ∀ name grid, (name, grid) ∈ grids → name ∈ positive p → ∀ v ∈ grid, 0 < v)
    (hvm : ∀ f, p = .vonmises f → ∀ grid, ("b", grid) ∈ grids → ∀ v ∈ grid, v ≤ 2 * Real.pi)
    (c : Config grids) : Admissible p c.hypers := by
  have hget : ∀ name v, c.hypers.get? name = some v → ∃ grid, (name, grid) ∈ grids ∧ v ∈ grid := by
    intro name v e
    have hm := Dict.mem_of_get? e
    unfold Config.hypers at hm
    rw [List.mem_ofFn] at hm
    obtain ⟨j, hj⟩ := hm
    rw [Prod.mk.injEq] at hj
    obtain ⟨rfl, rfl⟩ := hj
    exact ⟨grids[j].2, List.getElem_mem _, List.getElem_mem _⟩
  refine ⟨?_, ?_, ?_⟩
  · intro name hn
    have hk : name ∈ c.hypers.keys := by
      rw [Config.keys_hypers]; exact hperm.mem_iff.mpr hn
    exact Dict.exists_of_mem_keys hk
  · intro name hn v e
    obtain ⟨grid, hm, hv⟩ := hget name v e
    exact hpos name grid hm hn v hv
  · intro f hf v e
    obtain ⟨grid, hm, hv⟩ := hget "b" v e
    exact hvm f hf grid hm v hv

end Cgpm.Spec.Hyper
