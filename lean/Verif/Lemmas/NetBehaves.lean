import Verif.Lemmas.NetDrawsJoint
import Verif.Props.PrimSimulate
import Verif.Lemmas.StateDraws

/-! Components with one output. -/
namespace Cgpm.Net
open Cgpm MeasureTheory Classical Cgpm.Props
open scoped ENNReal
variable {R Ω : Type}
variable {μ : Nat → Measure ℝ} [∀ v, SigmaFinite (μ v)] {rowid : R} 

theorem fillWith_single (x : Nat → ℝ) (o : Nat) (t : ℝ) :
    fillWith x [(o, t)] = Function.update x o t := by
  funext v
  unfold fillWith
  by_cases h : o = v
  · subst h; simp [Dict.get?]
  · rw [Function.update_of_ne (Ne.symm h)]; simp [Dict.get?, h]

/-- A component with one output, that draws from the density it reports. -/
theorem behaves_single {c : NetCgpm R ℝ Ω} {o : Nat} (ho : c.outputs = [o])
    {draw : R → List Nat → Look ℝ → Look ℝ → Draws Ω} {p : (Nat → ℝ) → ℝ≥0∞} (hm : Measurable p)
    (hscope : ∀ x y : Nat → ℝ, (∀ v, v = o ∨ v ∈ c.inputs → x v = y v) → p x = p y)
    (htotal : ∀ x : Nat → ℝ, ∫⁻ t, p (Function.update x o t) ∂μ o = 1)
    (hlogpdf : ∀ x, ∃ w, c.logpdf rowid (lookAt {o} x) (lookAt c.inputs.toFinset x) = .ok w ∧
      ENNReal.ofReal (pr w) = p x)
    (hsim : ∀ x, ∀ g : (Nat → ℝ) → ℝ≥0∞, Measurable g →
      ((draw rowid [o] (lookAt ∅ x) (lookAt c.inputs.toFinset x)).bind fun ω => Draws.ofExcept
          (c.simulate ω rowid [o] (lookAt ∅ x) (lookAt c.inputs.toFinset x))).E
            (fun d => g (fillWith x d))
        = ∫⁻ t, g (Function.update x o t) * p (Function.update x o t) ∂μ o) :
    Behaves μ rowid c draw p := by
  have hset : c.outputs.toFinset = {o} := by rw [ho]; rfl
  have hout : ∀ S : Finset Nat, o ∈ S → outDensity μ c.outputs p S = p := by
    intro S hS
    unfold outDensity
    have : c.outputs.toFinset \ S = ∅ := by rw [hset]; simpa using hS
    rw [this, lmarginal_empty]
  have hone : ∀ x, outDensity μ c.outputs p ∅ x = 1 := by
    intro x
    unfold outDensity
    rw [hset, Finset.sdiff_empty, lmarginal_singleton]; exact htotal x
  refine ⟨hm, fun x y h => hscope x y fun v hv => h v ?_, fun x => ?_, ?_, ?_⟩
  · rcases hv with rfl | hv
    · left; rw [ho]; simp
    · exact .inr hv
  · rw [hset, lmarginal_singleton]; exact htotal x
  · intro S hS hne x
    have : S = {o} := by
      rw [hset] at hS
      exact (Finset.subset_singleton_iff.mp hS).resolve_left hne.ne_empty
    subst this
    rw [hout _ (by simp)]
    exact hlogpdf x
  · intro S ts hS hnd hne ht x _ g hg
    have h1 : ∀ t ∈ ts, t = o := fun t h => by
      have := (ht t h).1
      rw [ho] at this
      simpa using this
    have hts : ts = [o] := by
      cases ts with
      | nil => exact absurd rfl hne
      | cons a l =>
        have ha := h1 a (by simp)
        cases l with
        | nil => rw [ha]
        | cons b l =>
          have hb := h1 b (by simp)
          subst ha hb
          simp at hnd
    subst hts
    have hS0 : S = ∅ := by
      rw [hset] at hS
      refine (Finset.subset_singleton_iff.mp hS).resolve_right fun h => ?_
      exact (ht o (by simp)).2 (by rw [h]; simp)
    subst hS0
    rw [hone, mul_one, hsim x g hg]
    have : ([o] : List Nat).toFinset = {o} := rfl
    rw [this, lmarginal_singleton, hout _ (by simp)]

theorem simKeys_values {c : NetCgpm R ℝ (Nat → ℝ)}
    (h : ∀ ω r ts constr ins, c.simulate ω r ts constr ins = .ok (ts.map fun t => (t, ω t))) :
    SimKeys c := by
  intro ω r ts constr ins d hts hd
  rw [h] at hd
  cases hd
  have : Dict.keys (ts.map fun t => (t, ω t)) = ts := by simp [Dict.keys, Function.comp_def]
  exact ⟨by unfold Dict.WF; rw [this]; exact hts, fun k => by rw [this]⟩

end Cgpm.Net
