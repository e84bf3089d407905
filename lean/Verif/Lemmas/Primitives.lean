import Verif.Lemmas.Comp
import Verif.Spec.Primitives
import Mathlib.Algebra.Order.Floor.Ring
import Mathlib.Algebra.Order.Archimedean.Real.Basic
import Mathlib.Tactic.FieldSimp
import Mathlib.Tactic.Positivity

/-! Lawfulness, support and chain-rule lemmas for the ten primitives. -/
namespace Cgpm
open Classical Props

theorem modify_add_sub (l : List ℤ) (i : ℕ) :
    (l.modify i (· + 1)).modify i (· - 1) = l := by
  rw [List.modify_modify_eq]
  have : ((fun x : ℤ => x - 1) ∘ fun x => x + 1) = id := by funext x; simp
  rw [this, List.modify_id]

theorem modify_comm_add (l : List ℤ) (i j : ℕ) :
    (l.modify i (· + 1)).modify j (· + 1) = (l.modify j (· + 1)).modify i (· + 1) := by
  by_cases h : i = j
  · subst h; rfl
  · exact List.modify_modify_ne _ _ _ h

theorem bernoulli_lawful  : Cgpm.bernoulli.Lawful := by
  constructor
  · rintro ⟨⟩ o; simp [Cgpm.bernoulli]
  · rintro ⟨⟩ a b; simp [Cgpm.bernoulli, add_right_comm]

theorem exponential_lawful  : Cgpm.exponential.Lawful := by
  constructor
  · rintro ⟨⟩ o; simp [Cgpm.exponential]
  · rintro ⟨⟩ a b; simp [Cgpm.exponential, add_right_comm]

theorem geometric_lawful  : Cgpm.geometric.Lawful := by
  constructor
  · rintro ⟨⟩ o; simp [Cgpm.geometric]
  · rintro ⟨⟩ a b; simp [Cgpm.geometric, add_right_comm]

theorem poisson_lawful  : Cgpm.poisson.Lawful := by
  constructor
  · rintro ⟨⟩ o; simp [Cgpm.poisson]
  · rintro ⟨⟩ a b; simp [Cgpm.poisson, add_right_comm]

theorem normal_lawful  : Cgpm.normal.Lawful := by
  constructor
  · rintro ⟨⟩ o; simp [Cgpm.normal]
  · rintro ⟨⟩ a b; simp [Cgpm.normal, add_right_comm]

theorem lognormal_lawful  : Cgpm.lognormal.Lawful := by
  constructor
  · rintro ⟨⟩ o; simp [Cgpm.lognormal]
  · rintro ⟨⟩ a b; simp [Cgpm.lognormal, add_right_comm]

theorem vonmises_lawful (f : ℝ → ℝ) : (Cgpm.vonmises f).Lawful := by
  constructor
  · rintro ⟨⟩ o; simp [Cgpm.vonmises]
  · rintro ⟨⟩ a b; simp [Cgpm.vonmises, add_right_comm]

theorem normalTrunc_lawful (l h : ℝ) (z q : ℝ → ℝ → ℝ) : (Cgpm.normalTrunc l h z q).Lawful := by
  constructor
  · rintro ⟨⟩ o; simp [Cgpm.normalTrunc]
  · rintro ⟨⟩ a b; simp [Cgpm.normalTrunc, add_right_comm]

theorem beta_lawful (q : ℝ → ℝ → ℝ) : (Cgpm.beta q).Lawful := by
  constructor
  · rintro ⟨⟩ o; simp [Cgpm.beta]
  · rintro ⟨⟩ a b; simp [Cgpm.beta, add_right_comm]

theorem categorical_lawful (k : ℕ) : (Cgpm.categorical k).Lawful := by
  constructor
  · rintro ⟨N, c⟩ o; simp [Cgpm.categorical, modify_add_sub]
  · rintro ⟨N, c⟩ a b; simp [Cgpm.categorical, modify_comm_add]

theorem Prim.lawful : (p : Prim) → p.fam.Lawful
  | .bernoulli => bernoulli_lawful | .categorical k => categorical_lawful k
  | .exponential => exponential_lawful | .geometric => geometric_lawful
  | .poisson => poisson_lawful | .normal => normal_lawful | .lognormal => lognormal_lawful
  | .vonmises f => vonmises_lawful f | .normalTrunc l h z q => normalTrunc_lawful l h z q
  | .beta q => beta_lawful q

theorem isInt_nonneg_iff (x : ℝ) : (isInt x ∧ 0 ≤ x) ↔ ∃ n : ℕ, x = n := by
  constructor
  · rintro ⟨⟨n, rfl⟩, h⟩
    have : 0 ≤ n := by exact_mod_cast h
    exact ⟨n.toNat, by rw [← Int.cast_natCast, Int.toNat_of_nonneg this]⟩
  · rintro ⟨n, rfl⟩
    exact ⟨⟨n, by simp⟩, by positivity⟩

theorem categoricalOk_iff (k : ℕ) (x : ℝ) : categoricalOk k x ↔ ∃ n : ℕ, n < k ∧ x = n := by
  unfold categoricalOk
  rw [← and_assoc, isInt_nonneg_iff]
  constructor
  · rintro ⟨⟨n, rfl⟩, h⟩; exact ⟨n, by exact_mod_cast h, rfl⟩
  · rintro ⟨n, h, rfl⟩; exact ⟨⟨n, rfl⟩, by exact_mod_cast h⟩

/-- A supported value is stored unchanged. -/
theorem Prim.prep_ok {p : Prim} (hp : notBeta p) {x : ℝ} (h : support p x) :
    p.fam.prep x = .ok x := by
  cases p
  case beta => exact hp.elim
  case categorical k =>
    have h' := (categoricalOk_iff k x).mpr h
    obtain ⟨n, _, rfl⟩ := h
    simp [Prim.fam, Cgpm.categorical, h']
  case geometric =>
    have h' := (isInt_nonneg_iff x).mpr h
    simp [Prim.fam, Cgpm.geometric, h']
  case poisson =>
    have h' := (isInt_nonneg_iff x).mpr h
    simp [Prim.fam, Cgpm.poisson, h']
  all_goals simp only [support] at h
  all_goals simp [Prim.fam, Cgpm.bernoulli, Cgpm.exponential, Cgpm.normal, Cgpm.lognormal,
    Cgpm.vonmises, Cgpm.normalTrunc, h]

theorem Prim.prep_err {p : Prim} (hp : notBeta p) {x : ℝ} (h : ¬ support p x) :
    ∃ e, p.fam.prep x = .error e := by
  cases p
  case beta => exact hp.elim
  case normal => exact absurd trivial h
  case categorical k =>
    have h' := (not_congr (categoricalOk_iff k x)).mpr h
    exact ⟨_, if_neg h'⟩
  case geometric => exact ⟨_, if_neg ((not_congr (isInt_nonneg_iff x)).mpr h)⟩
  case poisson => exact ⟨_, if_neg ((not_congr (isInt_nonneg_iff x)).mpr h)⟩
  case exponential => exact ⟨_, if_pos (not_le.mp h)⟩
  case lognormal => exact ⟨_, if_pos (not_lt.mp h)⟩
  all_goals exact ⟨_, if_neg h⟩

theorem Prim.logpdf_bot_iff (p : Prim) (h : p.H) (s : p.S) (x : ℝ) :
    p.fam.logpdf h s x = ⊥ ↔ ¬ support p x := by
  cases p
  case categorical k =>
    simp only [Prim.fam, Cgpm.categorical, support, ← categoricalOk_iff]
    split <;> simp [*]
  case geometric =>
    simp only [Prim.fam, Cgpm.geometric, support, ← isInt_nonneg_iff]
    split <;> simp [*]
  case poisson =>
    simp only [Prim.fam, Cgpm.poisson, support, ← isInt_nonneg_iff]
    split <;> simp [*]
  case normal => simp [Prim.fam, Cgpm.normal, support]
  case exponential =>
    simp only [Prim.fam, Cgpm.exponential, support, not_le]
    split <;> simp [*]
  case lognormal =>
    simp only [Prim.fam, Cgpm.lognormal, support, not_lt]
    split <;> simp [*]
  case bernoulli =>
    simp only [Prim.fam, Cgpm.bernoulli, support]
    split <;> simp [*]
  case vonmises =>
    simp only [Prim.fam, Cgpm.vonmises, support]
    split <;> simp [*]
  case normalTrunc =>
    simp only [Prim.fam, Cgpm.normalTrunc, support]
    split <;> simp [*]
  case beta =>
    simp only [Prim.fam, Cgpm.beta, support]
    split <;> simp [*]

/-- What is stored lies in the support. -/
theorem Prim.stored_support {p : Prim} {o v : ℝ} (h : p.fam.prep o = .ok v) : support p v := by
  by_cases hp : notBeta p
  · by_cases hs : support p o
    · rw [Prim.prep_ok hp hs] at h
      cases h; exact hs
    · obtain ⟨e, he⟩ := Prim.prep_err hp hs
      rw [he] at h; cases h
  · cases p
    case beta =>
      simp only [Prim.fam, Cgpm.beta] at h
      split at h
      · cases h; assumption
      · cases h
    all_goals exact absurd trivial hp

/-! ### statistics in closed form -/

theorem bernoulli_stat (l : List ℝ) :
    Cgpm.bernoulli.statOf l = ⟨l.length, l.sum⟩ := by
  induction l using List.reverseRecOn with
  | nil => rfl
  | append_singleton l x ih => rw [Family.statOf_append, ih]; simp [Cgpm.bernoulli]

theorem exponential_stat (l : List ℝ) : Cgpm.exponential.statOf l = ⟨l.length, l.sum⟩ := by
  induction l using List.reverseRecOn with
  | nil => rfl
  | append_singleton l x ih => rw [Family.statOf_append, ih]; simp [Cgpm.exponential]

theorem geometric_stat (l : List ℝ) : Cgpm.geometric.statOf l = ⟨l.length, l.sum⟩ := by
  induction l using List.reverseRecOn with
  | nil => rfl
  | append_singleton l x ih => rw [Family.statOf_append, ih]; simp [Cgpm.geometric]

theorem poisson_stat (l : List ℝ) :
    Cgpm.poisson.statOf l = ⟨l.length, l.sum, (l.map fun x => gammaln (x + 1)).sum⟩ := by
  induction l using List.reverseRecOn with
  | nil => rfl
  | append_singleton l x ih => rw [Family.statOf_append, ih]; simp [Cgpm.poisson]

theorem normal_stat (l : List ℝ) :
    Cgpm.normal.statOf l = ⟨l.length, l.sum, (l.map fun x => x * x).sum⟩ := by
  induction l using List.reverseRecOn with
  | nil => rfl
  | append_singleton l x ih => rw [Family.statOf_append, ih]; simp [Cgpm.normal]

theorem normalTrunc_stat (a b : ℝ) (z q : ℝ → ℝ → ℝ) (l : List ℝ) :
    (Cgpm.normalTrunc a b z q).statOf l = ⟨l.length, l.sum, (l.map fun x => x * x).sum⟩ := by
  induction l using List.reverseRecOn with
  | nil => rfl
  | append_singleton l x ih => rw [Family.statOf_append, ih]; simp [Cgpm.normalTrunc]

theorem lognormal_stat (l : List ℝ) :
    Cgpm.lognormal.statOf l = ⟨l.length, (l.map Real.log).sum,
      (l.map fun x => Real.log x * Real.log x).sum⟩ := by
  induction l using List.reverseRecOn with
  | nil => rfl
  | append_singleton l x ih => rw [Family.statOf_append, ih]; simp [Cgpm.lognormal]

theorem vonmises_stat (f : ℝ → ℝ) (l : List ℝ) :
    (Cgpm.vonmises f).statOf l = ⟨l.length, (l.map Real.sin).sum, (l.map Real.cos).sum⟩ := by
  induction l using List.reverseRecOn with
  | nil => rfl
  | append_singleton l x ih => rw [Family.statOf_append, ih]; simp [Cgpm.vonmises]

theorem beta_stat (q : ℝ → ℝ → ℝ) (l : List ℝ) :
    (Cgpm.beta q).statOf l = ⟨l.length, (l.map Real.log).sum,
      (l.map fun x => Real.log (1 - x)).sum⟩ := by
  induction l using List.reverseRecOn with
  | nil => rfl
  | append_singleton l x ih => rw [Family.statOf_append, ih]; simp [Cgpm.beta]

theorem categorical_stat (k : ℕ) (l : List ℝ) :
    ((Cgpm.categorical k).statOf l).N = l.length ∧
    ((Cgpm.categorical k).statOf l).counts.length = k ∧
    ∀ i < k, ((Cgpm.categorical k).statOf l).counts[i]? =
      some ((l.countP fun x => decide (⌊x⌋.toNat = i) : ℕ) : ℤ) := by
  induction l using List.reverseRecOn with
  | nil =>
    refine ⟨rfl, by simp [Family.statOf, Cgpm.categorical], fun i hi => ?_⟩
    simp [Family.statOf, Cgpm.categorical, hi]
  | append_singleton l x ih =>
    obtain ⟨h1, h2, h3⟩ := ih
    rw [Family.statOf_append]
    refine ⟨?_, ?_, fun i hi => ?_⟩
    · change ((Cgpm.categorical k).statOf l).N + 1 = _
      rw [h1]; simp
    · change (List.modify _ _ _).length = k
      rw [List.length_modify, h2]
    · change (List.modify _ _ _)[i]? = _
      rw [List.getElem?_modify, h3 i hi]
      by_cases h : ⌊x⌋.toNat = i <;> simp [List.countP_append, h]

end Cgpm
