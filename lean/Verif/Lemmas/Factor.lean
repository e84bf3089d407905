import Verif.Lemmas.Gauss
import Verif.Lemmas.NetSample
import Verif.Lemmas.Metadata

/-
Lemmas for C48: the coordinates of the joint vector, and the parameters found there.
-/
namespace Cgpm.Factor
open Matrix Cgpm.Spec.Factor

variable {f : Factor}

theorem D_eq (f : Factor) : f.D = numObs f := by simp [D, numObs]

theorem L_add_D (h : f.L ≤ f.outputs.length) : f.L + f.D = f.outputs.length := by
  rw [D_eq, numObs]; omega

theorem pos_lt {q : Col} (h : q ∈ f.outputs) : pos f q < f.outputs.length :=
  List.idxOf_lt_length_iff.2 h

theorem pos_inj {q r : Col} (hq : q ∈ f.outputs) (h : pos f q = pos f r) : q = r :=
  (List.idxOf_inj hq).1 h

/-- The coordinate of a variable in the joint vector. -/
def coord (f : Factor) (q : Col) : Nat := if IsObs f q then pos f q + f.L else pos f q - numObs f

theorem mem_latents (hn : f.outputs.Nodup) {q : Col} (h : q ∈ f.outputs) :
    q ∈ f.latents ↔ ¬ IsObs f q := by
  have h1 := (List.mem_take_iff_idxOf_lt (n := f.outputs.length - f.L) h)
  unfold latents IsObs numObs pos
  rw [← h1]
  have h2 : q ∈ f.outputs.take (f.outputs.length - f.L) ++ f.outputs.drop (f.outputs.length - f.L) := by
    rwa [List.take_append_drop]
  have h3 := hn
  rw [← List.take_append_drop (f.outputs.length - f.L) f.outputs, List.nodup_append] at h3
  constructor
  · intro hd ht
    exact h3.2.2 q ht q hd rfl
  · intro ht
    exact (List.mem_append.1 h2).resolve_left ht

theorem convert_ok (hn : f.outputs.Nodup) {q : Col} (h : q ∈ f.outputs) :
    f.convert q = .ok (coord f q) := by
  have h1 : f.outputs.idxOf? q = some (pos f q) := by
    rw [List.idxOf?_eq_some_iff]
    refine ⟨pos_lt h, by simp [pos], fun j hj e => ?_⟩
    have hl := pos_lt h
    have h3 : f.outputs[j] = f.outputs[pos f q] := by rw [e]; simp [pos]
    have := (List.Nodup.getElem_inj_iff hn).1 h3
    omega
  unfold convert coord
  rw [h1, D_eq]
  have h2 := mem_latents hn h
  by_cases ho : IsObs f q
  · simp [ho, h2]
  · simp [ho, h2]

theorem convert_err {q : Col} (h : q ∉ f.outputs) : f.convert q = .error .keyError := by
  unfold convert
  have : f.outputs.idxOf? q = none := by simpa using h
  rw [this]

theorem coord_lt (h : f.L ≤ f.outputs.length) {q : Col} (hq : q ∈ f.outputs) :
    coord f q < f.outputs.length := by
  have h1 := pos_lt hq
  unfold coord
  split
  · next ho => unfold IsObs numObs at ho; omega
  · omega

theorem coord_obs {q : Col} (ho : IsObs f q) : coord f q = pos f q + f.L := by simp [coord, ho]

theorem coord_lat {q : Col} (ho : ¬ IsObs f q) : coord f q = pos f q - numObs f := by
  simp [coord, ho]

theorem coord_lat_lt (h : f.L ≤ f.outputs.length) {q : Col} (hq : q ∈ f.outputs)
    (ho : ¬ IsObs f q) : coord f q < f.L := by
  have h1 := pos_lt hq
  rw [coord_lat ho]
  unfold IsObs numObs at *
  omega

theorem coord_inj (h : f.L ≤ f.outputs.length) {q r : Col} (hq : q ∈ f.outputs)
    (hr : r ∈ f.outputs) (e : coord f q = coord f r) : q = r := by
  apply pos_inj hq
  by_cases h1 : IsObs f q <;> by_cases h2 : IsObs f r
  · rw [coord_obs h1, coord_obs h2] at e; omega
  · have := coord_lat_lt h hr h2
    rw [coord_obs h1] at e; omega
  · have := coord_lat_lt h hq h1
    rw [coord_obs h2] at e; omega
  · rw [coord_lat h1, coord_lat h2] at e
    unfold IsObs at *; omega

theorem mu_coord (h : f.L ≤ f.outputs.length) {q : Col} (hq : q ∈ f.outputs) :
    f.mu (coord f q) = mean f q := by
  unfold mu mean
  by_cases ho : IsObs f q
  · rw [coord_obs ho]; simp [ho]
  · simp [ho, coord_lat_lt h hq ho]

/-- The factors of a latent variable: itself. -/
theorem sum_load_lat (h : f.L ≤ f.outputs.length) {q : Col} (hq : q ∈ f.outputs)
    (ho : ¬ IsObs f q) (g : Nat → ℝ) :
    (∑ k ∈ Finset.range f.L, load f q k * g k) = g (coord f q) := by
  have h1 := coord_lat_lt h hq ho
  rw [Finset.sum_eq_single (coord f q)]
  · rw [coord_lat ho]
    unfold load
    have : pos f q = numObs f + (pos f q - numObs f) := by
      unfold IsObs at ho; omega
    simp [ho, ← this]
  · intro k _ hk
    unfold load
    have : ¬ pos f q = numObs f + k := by
      intro e
      apply hk
      rw [coord_lat ho, e]; omega
    simp [ho, this]
  · intro hk
    exact absurd (Finset.mem_range.2 h1) hk

theorem cov_coord (h : f.L ≤ f.outputs.length) {q r : Col} (hq : q ∈ f.outputs)
    (hr : r ∈ f.outputs) : f.cov (coord f q) (coord f r) = covar f q r := by
  unfold covar
  by_cases h1 : IsObs f q
  · have e1 : coord f q = pos f q + f.L := coord_obs h1
    by_cases h2 : IsObs f r
    · have e2 : coord f r = pos f r + f.L := coord_obs h2
      have e3 : (∑ k ∈ Finset.range f.L, load f q k * load f r k)
          = ((List.range f.L).map fun k => f.W (pos f q) k * f.W (pos f r) k).sum := by
        rw [← List.sum_toFinset _ List.nodup_range, List.toFinset_range]
        refine Finset.sum_congr rfl fun k _ => ?_
        simp [load, h1, h2]
      rw [e3]
      unfold cov Spec.Factor.noise
      rw [e1, e2]
      simp [h1, h2]
    · have := coord_lat_lt h hr h2
      have e3 : (∑ k ∈ Finset.range f.L, load f q k * load f r k) = f.W (pos f q) (coord f r) := by
        rw [Finset.sum_congr rfl fun k _ => mul_comm _ _, sum_load_lat h hr h2]
        simp [load, h1]
      rw [e3]
      unfold cov Spec.Factor.noise
      rw [e1]
      simp [h2, this]
  · have h4 := coord_lat_lt h hq h1
    rw [sum_load_lat h hq h1]
    unfold cov Spec.Factor.noise
    by_cases h2 : IsObs f r
    · have e2 : coord f r = pos f r + f.L := coord_obs h2
      rw [e2]
      simp [h1, h2, h4, load]
    · have h5 := coord_lat_lt h hr h2
      simp only [h1, h4, h5, false_and, if_true, if_false, add_zero]
      unfold load
      simp only [h2, if_false]
      have e5 : coord f r = pos f r - numObs f := coord_lat h2
      unfold IsObs at h2
      by_cases e : coord f q = coord f r
      · rw [if_pos e, if_pos (by omega)]
      · rw [if_neg e, if_neg (by omega)]

end Cgpm.Factor
