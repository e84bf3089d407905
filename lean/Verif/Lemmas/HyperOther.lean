import Verif.Lemmas.HyperPrim
import Verif.Props.LinReg

/-!
The loops of `transition_hypers` on a partition and on a linear regression.
-/
namespace Cgpm.Spec.Hyper
open Cgpm Cgpm.Hyper

/-! ### partitions -/

/-- A positive concentration. -/
def crpAdm (h : Hypers) : Prop := ∃ a, h.get? "alpha" = some a ∧ 0 < a

theorem crpGrids_ok {X : List ℝ} (hX : X ≠ []) {n : ℕ} (hn : 0 < n) :
    ∃ l, crpGrids X n = .ok [("alpha", l)] ∧ l.length = n ∧ l ≠ [] ∧ ∀ v ∈ l, 0 < v := by
  have hlenN : X.length ≠ 0 := by
    have := List.length_pos_iff.mpr hX; omega
  have hlen0 : (0 : ℝ) < X.length := by
    exact_mod_cast List.length_pos_iff.mpr hX
  obtain ⟨l, e, hl, hne, hb⟩ := logLinspace_ok (one_div_pos.mpr hlen0) hlen0 hn
  refine ⟨l, ?_, hl, hne, fun v hv =>
    lt_of_lt_of_le (lt_min (one_div_pos.mpr hlen0) hlen0) (hb v hv).1⟩
  simp only [crpGrids, e, if_neg hlenN]
  rfl

theorem crp_good {l : List ℝ} (hne : l ≠ []) (hpos : ∀ v ∈ l, 0 < v) (cl0 : Dict Tab Crp) :
    Good crpApi [("alpha", l)] crpAdm
      (fun a b => a.N = b.N ∧ a.data = b.data ∧ a.counts = b.counts)
      (fun c h => h.get? "alpha" = some c.alpha)
      (fun h c => Crp.calcLogpdfMarginal c.N c.counts.vals ((h.get? "alpha").getD 0)) cl0 where
  wf := by simp [Dict.WF, Dict.keys]
  refl := fun _ _ => ⟨rfl, rfl, rfl⟩
  set := by
    rintro h ⟨a, e, ha⟩ kc _ c ⟨h1, h2, h3⟩
    refine ⟨{ c with alpha := a }, ?_, ⟨h1, h2, h3⟩, e, ?_⟩
    · simp only [crpApi, e, Crp.setHypers, if_pos ha]
    · simp only [crpApi, Crp.logpdfScore, h1, h3, e, Option.getD_some]
  closed := by
    rintro h - name grid hm v hv
    simp only [List.mem_singleton, Prod.mk.injEq] at hm
    obtain ⟨rfl, rfl⟩ := hm
    exact ⟨v, Dict.get?_set_self _ _ _, hpos v hv⟩
  nonempty := by
    rintro name grid hm
    simp only [List.mem_singleton, Prod.mk.injEq] at hm
    obtain ⟨-, rfl⟩ := hm
    exact hne
  fresh := fun h _ => ⟨_, rfl⟩

theorem crp_config {l : List ℝ} (hpos : ∀ v ∈ l, 0 < v) (c : Config [("alpha", l)]) :
    crpAdm c.hypers := by
  have := Config.get?_hypers (by simp [Dict.WF, Dict.keys]) c ⟨0, by simp⟩
  exact ⟨_, this, hpos _ (List.getElem_mem _)⟩

/-! ### linear regressions -/

/-- Positive hyperparameters. -/
def linregAdm (h : Hypers) : Prop :=
  ∃ a b, h.get? "a" = some a ∧ h.get? "b" = some b ∧ 0 < a ∧ 0 < b

theorem linregGrids_ok {X : List ℝ} (hX : X ≠ []) {n : ℕ} (hn : 0 < n) :
    ∃ la lb, linregGrids X n = .ok [("a", la), ("b", lb)] ∧ la.length = n ∧ lb.length = n ∧
      la ≠ [] ∧ lb ≠ [] ∧ (∀ v ∈ la, 0 < v) ∧ ∀ v ∈ lb, 0 < v := by
  have hlenN : X.length ≠ 0 := by
    have := List.length_pos_iff.mpr hX; omega
  have hN : (0 : ℝ) < 10 * (X.length + 1) := by positivity
  have hss : 0 < ssqdev X + 1 := by linarith [ssqdev_nonneg X]
  have hss' : 0 < (ssqdev X + 1) / 100 := by linarith
  obtain ⟨la, ea, hla, hnea, hba⟩ := logLinspace_ok (one_div_pos.mpr hN) hN hn
  obtain ⟨lb, eb, hlb, hneb, hbb⟩ := logLinspace_ok hss' hss hn
  refine ⟨la, lb, ?_, hla, hlb, hnea, hneb, fun v hv =>
    lt_of_lt_of_le (lt_min (one_div_pos.mpr hN) hN) (hba v hv).1, fun v hv =>
    lt_of_lt_of_le (lt_min hss' hss) (hbb v hv).1⟩
  simp only [linregGrids, ea, eb, if_neg hlenN]
  rfl

theorem linreg_good {g : RegSchema} {la lb : List ℝ} (hla : la ≠ []) (hlb : lb ≠ [])
    (pa : ∀ v ∈ la, 0 < v) (pb : ∀ v ∈ lb, 0 < v) (o : LinReg.Obj) (L : ℝ → ℝ → ℝ)
    (hL : ∀ a b, 0 < a → 0 < b → (withAB o a b).logpdfScore = .ok (some (L a b))) :
    Good (linregApi g) [("a", la), ("b", lb)] linregAdm
      (fun c c0 => ∃ a b, c = withAB o a b ∧ c0 = o)
      (fun c h => h.get? "a" = some c.hyp.a ∧ h.get? "b" = some c.hyp.b)
      (fun h _ => L ((h.get? "a").getD 0) ((h.get? "b").getD 0)) [(0, o)] where
  wf := by simp [Dict.WF, Dict.keys]
  refl := by
    intro kc hk
    simp only [List.mem_singleton] at hk
    subst hk
    exact ⟨o.hyp.a, o.hyp.b, rfl, rfl⟩
  set := by
    rintro h ⟨a, b, ea, eb, ha, hb⟩ kc - c ⟨a', b', rfl, h0⟩
    refine ⟨withAB o a b, ?_, ⟨a, b, rfl, h0⟩, ⟨ea, eb⟩, ?_⟩
    · simp only [linregApi, ea, eb, not_lt, not_le.mpr ha, if_false, LinReg.Obj.setHypers,
        not_le.mpr hb]
      rfl
    · simp only [linregApi, hL a b ha hb, ea, eb, Option.getD_some]
      rfl
  closed := by
    rintro h ⟨a, b, ea, eb, ha, hb⟩ name grid hm v hv
    simp only [List.mem_cons, Prod.mk.injEq, List.not_mem_nil, or_false] at hm
    rcases hm with ⟨rfl, rfl⟩ | ⟨rfl, rfl⟩
    · exact ⟨v, b, Dict.get?_set_self _ _ _, by rw [Dict.get?_set_ne _ _ (by decide), eb], pa v hv,
        hb⟩
    · exact ⟨a, v, by rw [Dict.get?_set_ne _ _ (by decide), ea], Dict.get?_set_self _ _ _, ha,
        pb v hv⟩
  nonempty := by
    rintro name grid hm
    simp only [List.mem_cons, Prod.mk.injEq, List.not_mem_nil, or_false] at hm
    rcases hm with ⟨-, rfl⟩ | ⟨-, rfl⟩
    exacts [hla, hlb]
  fresh := fun h _ => ⟨_, rfl⟩

theorem linreg_config {la lb : List ℝ} (pa : ∀ v ∈ la, 0 < v) (pb : ∀ v ∈ lb, 0 < v)
    (c : Config [("a", la), ("b", lb)]) : linregAdm c.hypers := by
  have h0 := Config.get?_hypers (by simp [Dict.WF, Dict.keys]) c ⟨0, by simp⟩
  have h1 := Config.get?_hypers (by simp [Dict.WF, Dict.keys]) c ⟨1, by simp⟩
  exact ⟨_, _, h0, h1, pa _ (List.getElem_mem _), pb _ (List.getElem_mem _)⟩

end Cgpm.Spec.Hyper
