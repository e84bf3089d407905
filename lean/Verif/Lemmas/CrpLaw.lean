import Verif.Lemmas.Constraints2
import Mathlib.MeasureTheory.Constructions.Pi
import Mathlib.MeasureTheory.Measure.Lebesgue.Basic

namespace Cgpm
open Classical Props MeasureTheory

/-- The tables' sizes after one more customer at `a`. -/
def addTable (Nk : List Nat) (a : Nat) : List Nat :=
  if a = Nk.length then Nk ++ [1] else Nk.modify a (· + 1)

/-- The weights of the draw for customer `i`. -/
noncomputable def crpWeights (alpha : ℝ) (i : Nat) (Nk : List Nat) : List ℝ :=
  (Nk.map fun n : Nat => (n : ℝ) / ((i : ℝ) - 1 + alpha)) ++ [alpha / ((i : ℝ) - 1 + alpha)]

/-- The draws that seat customer `i` at `a`. -/
noncomputable def stepSet (alpha : ℝ) (i : Nat) (Nk : List Nat) (a : Nat) : Set ℝ :=
  {u : ℝ | 0 ≤ u ∧ u < 1 ∧
    pflip (crpWeights alpha i Nk) (List.range (crpWeights alpha i Nk).length) u = .ok a}

theorem volume_stepSet {alpha : ℝ} (ha : 0 < alpha) {i : Nat} (hi : 1 ≤ i) {Nk : List Nat}
    (hs : Nk.sum = i) {a : Nat} (hal : a ≤ Nk.length) :
    volume (stepSet alpha i Nk a)
      = ENNReal.ofReal ((if a = Nk.length then alpha else (Nk.getD a 0 : ℝ)) / (i + alpha)) := by
  obtain ⟨p0, psum, pl⟩ := crpWeights_ok hi ha Nk
  unfold stepSet
  set ps := crpWeights alpha i Nk with hps
  have hd : (0 : ℝ) < (i : ℝ) - 1 + alpha := by
    have : (1 : ℝ) ≤ i := by exact_mod_cast hi
    linarith
  have hsum : ps.sum = (i + alpha) / ((i : ℝ) - 1 + alpha) := by
    have h1 : (Nk.map fun n : Nat => (n : ℝ) / ((i : ℝ) - 1 + alpha)).sum
        = (Nk.sum : ℝ) / ((i : ℝ) - 1 + alpha) := by
      clear * -
      induction Nk with
      | nil => simp
      | cons x t ih => simp only [List.map_cons, List.sum_cons, ih, Nat.cast_add, add_div]
    rw [hps, crpWeights, List.sum_append, h1, hs]
    simp [add_div]
  have hpl : ps.length = Nk.length + 1 := pl
  have hlt : a < ps.length := by omega
  have p0' : ∀ x ∈ ps, 0 ≤ x := p0
  have psum' : 0 < ps.sum := psum
  rw [volume_pflip p0' psum' List.nodup_range (by simp) hlt (List.getElem?_range hlt)]
  congr 1
  rw [hsum]
  have h3 : (0 : ℝ) < i + alpha := by linarith
  by_cases h : a = Nk.length
  · subst h
    rw [if_pos rfl]
    have : ps[Nk.length] = alpha / ((i : ℝ) - 1 + alpha) := by
      simp [hps, crpWeights]
    rw [this]
    field_simp
  · have hlt' : a < Nk.length := by omega
    rw [if_neg h]
    have : ps[a] = (Nk[a] : ℝ) / ((i : ℝ) - 1 + alpha) := by
      simp only [hps, crpWeights]
      rw [List.getElem_append_left (by simpa using hlt')]
      simp
    rw [this, List.getD_eq_getElem?_getD, List.getElem?_eq_getElem hlt', Option.getD_some]
    field_simp

theorem crpLoop_iff {alpha : ℝ} (ha : 0 < alpha) (us : Nat → ℝ)
    (hus : ∀ i, 0 ≤ us i ∧ us i < 1) (zs : List Nat) (i : Nat) (hi : 1 ≤ i) (part Nk : List Nat) :
    (∃ Nk', crpLoop alpha us (List.range' i zs.length) part Nk = .ok (part ++ zs, Nk')) ↔
      ∀ (k : Nat) (hk : k < zs.length),
        us (i + k) ∈ stepSet alpha (i + k) ((zs.take k).foldl addTable Nk) zs[k] := by
  induction zs generalizing i part Nk with
  | nil => simp [crpLoop]
  | cons z zs ih =>
    obtain ⟨p0, psum, pl⟩ := crpWeights_ok hi ha Nk
    obtain ⟨a, hal, hfl, -⟩ := pflip_range p0 psum (hus i).1 (hus i).2
    rw [pl] at hal
    have hmem : us i ∈ stepSet alpha i Nk z ↔ a = z := by
      unfold stepSet
      simp only [Set.mem_ofPred_eq, hus i, true_and]
      change pflip _ _ (us i) = _ ↔ _
      unfold crpWeights
      rw [hfl]
      constructor
      · intro h; exact Except.ok.inj h
      · intro h; rw [h]
    have hlen : ∀ (us : Nat → ℝ) (l part Nk part' Nk' : List Nat),
        crpLoop alpha us l part Nk = .ok (part', Nk') → ∃ w, part' = part ++ w := by
      intro us l
      induction l with
      | nil => intro part Nk part' Nk' h; simp only [crpLoop] at h; cases h; exact ⟨[], by simp⟩
      | cons j l ihl =>
        intro part Nk part' Nk' h
        simp only [crpLoop] at h
        split at h
        · cases h
        · split at h
          · obtain ⟨w, hw⟩ := ihl _ _ _ _ h; exact ⟨_, by rw [hw, List.append_assoc]⟩
          · split at h
            · obtain ⟨w, hw⟩ := ihl _ _ _ _ h; exact ⟨_, by rw [hw, List.append_assoc]⟩
            · cases h
    have hstep : crpLoop alpha us (List.range' i (z :: zs).length) part Nk
        = crpLoop alpha us (List.range' (i + 1) zs.length) (part ++ [a]) (addTable Nk a) := by
      rw [List.length_cons, List.range'_succ, crpLoop]
      simp only [hfl]
      unfold addTable
      by_cases h : a = Nk.length
      · rw [if_pos h, if_pos h]
      · rw [if_neg h, if_pos (by omega), if_neg h]
    rw [hstep]
    constructor
    · rintro ⟨Nk', h⟩
      have haz : a = z := by
        obtain ⟨w, hw⟩ := hlen _ _ _ _ _ _ h
        simp at hw
        exact hw.1.symm
      subst haz
      have h' : ∃ Nk', crpLoop alpha us (List.range' (i + 1) zs.length) (part ++ [a])
          (addTable Nk a) = .ok (part ++ [a] ++ zs, Nk') := ⟨Nk', by simpa using h⟩
      have := (ih (i + 1) (by omega) _ _).mp h'
      intro k hk
      cases k with
      | zero => simpa using hmem.mpr rfl
      | succ k =>
        have h2 := this k (by simpa using hk)
        simp only [List.take_succ_cons, List.foldl_cons, List.getElem_cons_succ]
        rwa [show i + (k + 1) = i + 1 + k by omega]
    · intro h
      have h0 := h 0 (by simp)
      simp only [Nat.add_zero, List.take_zero, List.foldl_nil, List.getElem_cons_zero] at h0
      have haz := hmem.mp h0
      subst haz
      obtain ⟨Nk', h'⟩ := (ih (i + 1) (by omega) (part ++ [a]) (addTable Nk a)).mpr (by
        intro k hk
        have h2 := h (k + 1) (by simpa using hk)
        simp only [List.take_succ_cons, List.foldl_cons, List.getElem_cons_succ] at h2
        rwa [show i + (k + 1) = i + 1 + k by omega] at h2)
      exact ⟨Nk', by simpa using h'⟩

/-- The list of sizes and a Crp agree. -/
def SizesOf (s : Crp) (Nk : List Nat) : Prop :=
  ∀ t : Nat, s.counts.get? t = Nk[t]?.map fun n : Nat => (n : Int)

theorem prod_steps {alpha : ℝ} (ha : 0 < alpha) (zs : List Nat) (i : Nat) (hi : 1 ≤ i)
    (Nk : List Nat) (s : Crp) (hs : Crp.Inv s) (hα : s.alpha = alpha) (hN : s.N = i)
    (hfree : ∀ k : Nat, s.data.get? (i + k) = none) (hsz : SizesOf s Nk) (hsum : Nk.sum = i)
    (hord : ∀ (k : Nat) (hk : k < zs.length), zs[k] ≤ ((zs.take k).foldl addTable Nk).length) :
    ∏ k : Fin zs.length, volume (stepSet alpha (i + k) ((zs.take k).foldl addTable Nk) zs[k])
      = ENNReal.ofReal (Real.exp (predictives s ((List.range' i zs.length).zip zs))) := by
  induction zs generalizing i Nk s with
  | nil => simp [predictives]
  | cons z zs ih =>
    have hz : z ≤ Nk.length := by
      have := hord 0 (by simp)
      rwa [List.take_zero, List.foldl_nil, List.getElem_cons_zero] at this
    have hri : s.data.get? i = none := by simpa using hfree 0
    have hok := Crp.incorporate_ok hs (x := z) hri
    have hinv := Crp.inv_incorporate hs i z
    have hcz : nSeated s.data z = Nk.getD z 0 := by
      have h1 := hs.hCounts z
      rw [hsz z] at h1
      unfold countOf at h1
      by_cases h0 : nSeated s.data z = 0
      · rw [if_pos h0] at h1
        have : Nk[z]? = none := by simpa using h1
        rw [List.getD_eq_getElem?_getD, this, h0]; rfl
      · rw [if_neg h0] at h1
        cases hk : Nk[z]? with
        | none => rw [hk] at h1; simp at h1
        | some n =>
          rw [hk] at h1
          simp at h1
          rw [List.getD_eq_getElem?_getD, hk]; simp; omega
    rw [hok, Out.state_ok] at hinv
    have key := ih (i + 1) (by omega) (addTable Nk z) _ hinv hα (by rw [hN]; simp) (by
        intro k
        simp only [← Dict.set_of_not_mem _ hri]
        rw [Dict.get?_set_ne _ _ (show i + 1 + k ≠ i by omega)]
        have := hfree (1 + k)
        rwa [← Nat.add_assoc] at this) (by
        intro t
        simp only
        rw [Dict.get?_set, hcz, hsz t]
        unfold addTable
        by_cases h : z = Nk.length
        · subst h
          rw [if_pos rfl]
          by_cases ht : t = Nk.length
          · subst ht; simp
          · rw [if_neg ht]
            by_cases hlt : t < Nk.length
            · rw [List.getElem?_append_left hlt]
            · rw [List.getElem?_eq_none (by omega), List.getElem?_eq_none (by simp; omega)]
        · rw [if_neg h, List.getElem?_modify]
          have hlt : z < Nk.length := by omega
          by_cases ht : t = z
          · subst ht
            simp [List.getD_eq_getElem?_getD, List.getElem?_eq_getElem hlt]
          · have : z ≠ t := fun e => ht e.symm
            rw [if_neg ht]
            simp [this]) (by
        unfold addTable
        by_cases h : z = Nk.length
        · rw [if_pos h]; simp [hsum]
        · rw [if_neg h, sum_modify_succ _ _ (by omega), hsum]) (by
        intro k hk
        have := hord (k + 1) (by simpa using hk)
        simpa using this)
    have hv := volume_stepSet ha hi hsum hz
    have hpos : 0 ≤ (if z = Nk.length then alpha else (Nk.getD z 0 : ℝ)) / (i + alpha) := by
      apply div_nonneg
      · split
        · exact ha.le
        · exact Nat.cast_nonneg _
      · positivity
    have hwpos : 0 < (if z = Nk.length then alpha else (Nk.getD z 0 : ℝ)) := by
      split
      · exact ha
      · rename_i h
        have hlt : z < Nk.length := by omega
        have h1 := hsz z
        rw [List.getElem?_eq_getElem hlt] at h1
        have h2 := Crp.counts_pos hs h1
        rw [List.getD_eq_getElem?_getD, List.getElem?_eq_getElem hlt, Option.getD_some]
        have h3 : (0 : ℤ) < (Nk[z] : ℤ) := h2
        exact_mod_cast h3
    have hpred : Real.exp (Crp.calcPredictiveLogp z s.N s.counts s.alpha)
        = (if z = Nk.length then alpha else (Nk.getD z 0 : ℝ)) / (i + alpha) := by
      unfold Crp.calcPredictiveLogp
      have hnum : (match s.counts.get? z with
          | some c => (c : ℝ)
          | none => s.alpha) = (if z = Nk.length then alpha else (Nk.getD z 0 : ℝ)) := by
        rw [hsz z]
        by_cases h : z = Nk.length
        · subst h; simp [hα]
        · have hlt : z < Nk.length := by omega
          simp [h, List.getElem?_eq_getElem hlt, List.getD_eq_getElem?_getD]
      change Real.exp (Real.log (match s.counts.get? z with
          | some c => (c : ℝ)
          | none => s.alpha) - Real.log (s.N + s.alpha)) = _
      rw [hnum, hN, hα]
      have hden : (0 : ℝ) < ((i : Int) : ℝ) + alpha := by positivity
      rw [← Real.log_div hwpos.ne' hden.ne', Real.exp_log (div_pos hwpos hden)]
      norm_num
    refine (Fin.prod_univ_succ (n := zs.length) _).trans ?_
    simp only [Fin.val_zero, Nat.add_zero, List.take_zero, List.foldl_nil, List.length_cons,
      Fin.val_succ, List.take_succ_cons, List.foldl_cons]
    rw [List.range'_succ, List.zip_cons_cons, predictives, Real.exp_add,
      ENNReal.ofReal_mul (Real.exp_pos _).le, hok, Out.state_ok, ← key, hpred]
    congr 1
    refine Finset.prod_congr rfl fun k _ => ?_
    rw [show i + ((k : Nat) + 1) = i + 1 + k by omega]
    rfl

end Cgpm

namespace Cgpm
open Classical Props MeasureTheory

theorem order_lengths (zs : List Nat) (part Nk : List Nat) (hp : ∀ t, t ∈ part ↔ t < Nk.length)
    (h : ∀ (k : Nat) (hk : k < zs.length), ∀ t < zs[k], t ∈ part ++ zs.take k)
    (k : Nat) (hk : k < zs.length) : zs[k] ≤ ((zs.take k).foldl addTable Nk).length := by
  induction zs generalizing part Nk k with
  | nil => simp at hk
  | cons z zs ih =>
    have hz : z ≤ Nk.length := by
      by_contra hc
      have := h 0 (by simp) Nk.length (by simpa using hc)
      simp only [List.take_zero, List.append_nil] at this
      exact absurd ((hp _).mp this) (lt_irrefl _)
    cases k with
    | zero => simpa using hz
    | succ k =>
      have := ih (part ++ [z]) (addTable Nk z) (by
        intro t
        unfold addTable
        rw [List.mem_append, hp t, List.mem_singleton]
        by_cases hc : z = Nk.length
        · rw [if_pos hc]; simp; omega
        · rw [if_neg hc, List.length_modify]; omega) (by
        intro k hk t ht
        have := h (k + 1) (by simpa using hk) t (by simpa using ht)
        simpa using this) k (by simpa using hk)
      simpa using this

/-- A vector of `N` draws as the function the model takes. -/
noncomputable def drawsOf {N : Nat} (us : Fin N → ℝ) : Nat → ℝ :=
  fun i => if h : i < N then us ⟨i, h⟩ else 0

theorem crp_law {alpha : ℝ} (ha : 0 < alpha) (zs : List Nat)
    (hord : ∀ (k : Nat) (hk : k < zs.length), zs[k] ≤ ((zs.take k).foldl addTable [1]).length) :
    volume {us : Fin (zs.length + 1) → ℝ | (∀ k, 0 ≤ us k ∧ us k < 1) ∧
      simulateCrp (zs.length + 1) alpha (drawsOf us) = .ok (0 :: zs)}
    = ENNReal.ofReal (Real.exp ((Crp.init alpha).run
        (seatAll ((List.range (zs.length + 1)).zip (0 :: zs)))).logpdfScore) := by
  let A : Fin (zs.length + 1) → Set ℝ := Fin.cons (Set.Ico 0 1) (fun k : Fin zs.length =>
    stepSet alpha (1 + k) ((zs.take k).foldl addTable [1]) zs[k])
  have hset : {us : Fin (zs.length + 1) → ℝ | (∀ k, 0 ≤ us k ∧ us k < 1) ∧
      simulateCrp (zs.length + 1) alpha (drawsOf us) = .ok (0 :: zs)} = Set.pi Set.univ A := by
    ext us
    simp only [Set.mem_ofPred_eq, Set.mem_pi, Set.mem_univ, true_implies]
    have hsim : (∀ k, 0 ≤ us k ∧ us k < 1) →
        (simulateCrp (zs.length + 1) alpha (drawsOf us) = .ok (0 :: zs) ↔
          ∀ k : Fin zs.length, us k.succ ∈ A k.succ) := by
      intro hus
      have hd : ∀ i, 0 ≤ drawsOf us i ∧ drawsOf us i < 1 := by
        intro i
        unfold drawsOf
        split
        · exact hus _
        · constructor <;> norm_num
      have hloop := crpLoop_iff ha (drawsOf us) hd zs 1 le_rfl [0] [1]
      obtain ⟨part, Nk, e, hI⟩ := crpLoop_ok ha (drawsOf us) hd zs.length 1 le_rfl crpLoopInv_one
      have hN' : 1 + zs.length = zs.length + 1 := by omega
      have hval : simulateCrp (zs.length + 1) alpha (drawsOf us) = .ok part := by
        obtain ⟨part', K, e', -⟩ := simulateCrp_ok (N := zs.length + 1) (by omega) ha (drawsOf us) hd
        have e2 := e'
        unfold simulateCrp at e2
        rw [if_neg (by rintro (h | h); omega; linarith), range_drop_one] at e2
        rw [show zs.length + 1 - 1 = zs.length by omega, e] at e2
        simp only at e2
        split at e2
        · have := Except.ok.inj e2
          rw [e', this]
        · cases e2
      rw [hval]
      have hk : (∀ (k : Nat) (hk : k < zs.length),
          drawsOf us (1 + k) ∈ stepSet alpha (1 + k) ((zs.take k).foldl addTable [1]) zs[k]) ↔
          ∀ k : Fin zs.length, us k.succ ∈ A k.succ := by
        have hA : ∀ k : Fin zs.length, A k.succ =
          stepSet alpha (1 + k) ((zs.take k).foldl addTable [1]) zs[k] := fun k => by
          simp only [A, Fin.cons_succ]
        have hdr : ∀ k : Fin zs.length, drawsOf us (1 + k) = us k.succ := by
          intro k
          unfold drawsOf
          rw [dif_pos (by omega)]
          congr 1
          apply Fin.ext
          simp; omega
        constructor
        · intro h k
          rw [hA, ← hdr]; exact h k k.2
        · intro h k hk
          have := h ⟨k, hk⟩
          rw [hA, ← hdr] at this; exact this
      rw [← hk, ← hloop, e]
      constructor
      · intro h; rw [Except.ok.inj h]; exact ⟨Nk, rfl⟩
      · rintro ⟨Nk', h⟩
        rw [(Prod.mk.inj (Except.ok.inj h)).1]; rfl
    constructor
    · rintro ⟨h1, h2⟩ k
      refine Fin.cases ?_ (fun k => (hsim h1).mp h2 k) k
      simpa [A] using h1 0
    · intro h
      have h1 : ∀ k, 0 ≤ us k ∧ us k < 1 := by
        intro k
        refine Fin.cases ?_ (fun k => ?_) k
        · simpa [A] using h 0
        · have := h k.succ
          simp only [A, Fin.cons_succ, stepSet, Set.mem_ofPred_eq] at this
          exact ⟨this.1, this.2.1⟩
      exact ⟨h1, (hsim h1).mpr fun k => h k.succ⟩
  rw [hset, volume_pi_pi, Fin.prod_univ_succ]
  simp only [A, Fin.cons_zero, Fin.cons_succ, Real.volume_Ico, sub_zero, ENNReal.ofReal_one, one_mul]
  have hinit := Crp.inv_init alpha
  have hok := Crp.incorporate_ok hinit (r := 0) (x := 0) rfl
  have hinv := Crp.inv_incorporate hinit 0 0
  rw [hok, Out.state_ok] at hinv
  have hprod := prod_steps ha zs 1 le_rfl [1] _ hinv rfl (by simp [Crp.init]) (by
      intro k
      change Dict.get? ([(0, 0)] : Dict Row Tab) (1 + k) = none
      rw [Dict.get?_eq_none_iff]
      simp [Dict.keys]) (by
      intro t
      cases t with
      | zero => simp [Crp.init, Dict.set, Dict.get?, nSeated]
      | succ t => simp [Crp.init, Dict.set, Dict.get?]) (by simp) hord
  rw [hprod]
  congr 2
  have hrange : List.range (zs.length + 1) = 0 :: List.range' 1 zs.length := by
    rw [List.range_eq_range', List.range'_succ]
  rw [score_seatAll hinit ha _ ?_ (fun _ _ => rfl)]
  · rw [hrange, List.zip_cons_cons, predictives, hok, Out.state_ok]
    simp [Crp.logpdfScore, Crp.calcLogpdfMarginal, Crp.calcPredictiveLogp, Crp.init, Dict.vals,
      Dict.get?]
  · rw [List.map_fst_zip (by simp)]
    exact List.nodup_range

end Cgpm
