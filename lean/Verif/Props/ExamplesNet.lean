import Verif.Props.Examples
import Verif.Props.NetDraws

/-!
C76, continued: the two variable models of src/uncorrelated that are networks (`Parabola`, `Sin`).
-/
namespace Cgpm.Props
open Cgpm MeasureTheory ProbabilityTheory Classical Cgpm.Examples Cgpm.Net
open scoped ENNReal

theorem example_simKeys (e : Example) : SimKeys e.net := by
  intro ω r ts C I d hn hd
  have : d = ts.map fun t => (t, ω t) := by
    have h : Except.ok (ts.map fun t => (t, ω t)) = Except.ok d := hd
    cases h; rfl
  subst this
  have hk : Dict.keys (ts.map fun t => (t, ω t)) = ts := by
    simp [Dict.keys, Function.comp_def]
  exact ⟨by unfold Dict.WF; rw [hk]; exact hn, fun k => by rw [hk]⟩

/-- A model of two components, the output of the first being the input of the second: what is drawn
without constraints. -/
theorem directed_law {ord : PyOrder} (hord : ord.Lists) {a b : Example} {u v : Nat} (huv : u ≠ v)
    (ha : a.outputs = [u]) (ha' : a.inputs = []) (hb : b.outputs = [v]) (hb' : b.inputs = [u])
    {acc : Option Nat} {net : Network (Option Row) ℝ (Nat → ℝ)}
    (hbuild : build ord [a.net, b.net] acc = .ok net) (hacc : net.accuracy ≠ 0) {rowid : Option Row}
    {pa pb : (Nat → ℝ) → ℝ≥0∞} (hpa : Behaves (fun _ => volume) rowid a.net a.draws pa)
    (hpb : Behaves (fun _ => volume) rowid b.net b.draws pb) (C : Dict Nat ℝ) {g : ℝ → ℝ → ℝ≥0∞}
    (hg : Measurable fun z : ℝ × ℝ => g z.1 z.2) (x0 : Nat → ℝ) :
    (directedSimulate ord (directedDraws a b) net rowid [u, v] C []).E
        (fun d => g (fillWith x0 d u) (fillWith x0 d v))
      = ∫⁻ x, ∫⁻ y, g x y * (pa (Function.update x0 u x)
          * pb (Function.update (Function.update x0 u x) v y)) := by
  have hp : ∀ l c, [a.net, b.net][l]? = some c →
      Behaves (fun _ => volume) rowid c (directedDraws a b l) (if l = 0 then pa else pb) := by
    intro l c hc
    match l, hc with
    | 0, hc => simp only [List.getElem?_cons_zero, Option.some.injEq] at hc; subst hc; exact hpa
    | 1, hc =>
      simp only [List.getElem?_cons_succ, List.getElem?_cons_zero, Option.some.injEq] at hc
      subst hc; exact hpb
    | l + 2, hc => simp at hc
  have hG : Measurable fun y : Nat → ℝ => g (y u) (y v) :=
    hg.comp (f := fun y : Nat → ℝ => (y u, y v))
      ((measurable_pi_apply u).prodMk (measurable_pi_apply v))
  have hsup : Supplied [a.net, b.net] [u, v] [] [] := by
    intro c hc _ w hw
    simp only [List.mem_cons, List.not_mem_nil, or_false] at hc
    rcases hc with rfl | rfl
    · simp [Example.net, ha'] at hw
    · simp [Example.net, hb'] at hw
      subst hw
      exact .inl ⟨_, List.mem_cons_self, by simp [Example.net, ha]⟩
  have hq : GoodQuery [a.net, b.net] [u, v] ([] : Dict Nat ℝ) [] := by
    refine ⟨?_, ?_, ?_, ?_, ?_⟩
    all_goals simp [Dict.WF, Dict.keys, Produced, Example.net, ha, hb, huv, Ne.symm huv]
  have key := C71_simulate hord hbuild (by
      intro c hc
      simp only [List.mem_cons, List.not_mem_nil, or_false] at hc
      rcases hc with rfl | rfl <;> exact example_simKeys _) hq hsup hp hacc
    (g := fun y => g (y u) (y v)) hG
    (fun y z h => by simp only [h u (by simp), h v (by simp)]) x0
  have hfill : fillWith x0 ([] : Dict Nat ℝ) = x0 := by funext w; simp [fillWith, Dict.get?]
  rw [hfill] at key
  show (simulateDraws ord (directedDraws a b) rowid net [u, v] [] []).E _ = _
  rw [key]
  have hall : allOutputs [a.net, b.net] = insert u {v} := by
    unfold allOutputs
    ext w
    simp [Example.net, ha, hb]
  have hj : ∀ y, jointDensity [a.net, b.net] (fun l => if l = 0 then pa else pb) y = pa y * pb y := by
    intro y
    unfold jointDensity
    simp [Finset.prod_range_succ]
  have hJm : Measurable fun y : Nat → ℝ => g (y u) (y v)
      * jointDensity [a.net, b.net] (fun l => if l = 0 then pa else pb) y := by
    simp only [hj]
    exact hG.mul (hpa.measurable.mul hpb.measurable)
  rw [hall, lmarginal_insert _ hJm (by simpa using huv)]
  refine lintegral_congr fun x => ?_
  rw [lmarginal_singleton]
  refine lintegral_congr fun y => ?_
  rw [hj, Function.update_self, Function.update_of_ne huv, Function.update_self]
  congr 2
  exact hpa.scope _ _ fun w hw => by
    have hw' : w = u := by
      rcases hw with h | h
      · simpa [Example.net, ha] using h
      · simp [Example.net, ha'] at h
    rw [hw', Function.update_of_ne huv]

/-- **C76.** `Parabola` draws `X` uniform on (-1, 1) and `Y` around its square, with either sign. -/
theorem C76_parabola_simulate {ord : PyOrder} (hord : ord.Lists) {u v : Nat} (huv : u ≠ v)
    {noise : ℝ} (hn : 0 < noise) {acc : Option Nat} {net : Network (Option Row) ℝ (Nat → ℝ)}
    (hbuild : build ord [(uniformX u (-1) 1).net, (parabolaY v u noise).net] acc = .ok net)
    (hacc : net.accuracy ≠ 0) (rowid : Option Row) {g : ℝ → ℝ → ℝ≥0∞}
    (hg : Measurable fun z : ℝ × ℝ => g z.1 z.2) (x0 : Nat → ℝ) :
    (directedSimulate ord (directedDraws (uniformX u (-1) 1) (parabolaY v u noise)) net rowid [u, v] [] []).E
        (fun d => g (fillWith x0 d u) (fillWith x0 d v))
      = ∫⁻ x, ∫⁻ y, g x y * (uniformDensity (-1) 1 x
          * ((uniformDensity (x ^ 2 - noise) (x ^ 2 + noise) y
            + uniformDensity (-x ^ 2 - noise) (-x ^ 2 + noise) y) / 2)) := by
  rw [directed_law hord huv rfl rfl rfl rfl hbuild hacc
    (C76_uniform (by norm_num) rfl rowid) (C76_parabola (Ne.symm huv) hn rfl rowid) [] hg x0]
  refine lintegral_congr fun x => lintegral_congr fun y => ?_
  unfold parabolaDensity
  rw [Function.update_self, Function.update_self, Function.update_of_ne huv, Function.update_self]

/-- **C76.** `Sin` draws `X` uniform on (-3π/2, 3π/2) and `Y` next to its cosine, towards zero. -/
theorem C76_sin_simulate {ord : PyOrder} (hord : ord.Lists) {u v : Nat} (huv : u ≠ v)
    {noise : ℝ} (hn : 0 < noise) {acc : Option Nat} {net : Network (Option Row) ℝ (Nat → ℝ)}
    (hbuild : build ord [(uniformX u (-1.5 * Real.pi) (1.5 * Real.pi)).net, (sinY v u noise).net] acc
      = .ok net)
    (hacc : net.accuracy ≠ 0) (rowid : Option Row) {g : ℝ → ℝ → ℝ≥0∞}
    (hg : Measurable fun z : ℝ × ℝ => g z.1 z.2) (x0 : Nat → ℝ) :
    (directedSimulate ord (directedDraws (uniformX u (-1.5 * Real.pi) (1.5 * Real.pi)) (sinY v u noise)) net
        rowid [u, v] [] []).E (fun d => g (fillWith x0 d u) (fillWith x0 d v))
      = ∫⁻ x, ∫⁻ y, g x y * (uniformDensity (-1.5 * Real.pi) (1.5 * Real.pi) x
          * if Real.cos x < 0 then uniformDensity (Real.cos x) (Real.cos x + noise) y
            else uniformDensity (Real.cos x - noise) (Real.cos x) y) := by
  rw [directed_law hord huv rfl rfl rfl rfl hbuild hacc
    (C76_uniform (by linarith [Real.pi_pos]) rfl rowid) (C76_sin (Ne.symm huv) hn rfl rowid) [] hg x0]
  refine lintegral_congr fun x => lintegral_congr fun y => ?_
  unfold sinDensity
  rw [Function.update_self, Function.update_self, Function.update_of_ne huv, Function.update_self]

/-- **C76, false of the code.** `Parabola.simulate` and `Parabola.logpdf` drop their
constraints: asked for `Y` given `X = 0`, the first returns values above the noise, which the density of
`Y` given `X = 0` rules out. -/
theorem C76_directed_violated {ord : PyOrder} (hord : ord.Lists) {u v : Nat} (huv : u ≠ v)
    {noise : ℝ} (hn : 0 < noise) (hn1 : noise < 1 / 4) {acc : Option Nat}
    {net : Network (Option Row) ℝ (Nat → ℝ)}
    (hbuild : build ord [(uniformX u (-1) 1).net, (parabolaY v u noise).net] acc = .ok net)
    (hacc : net.accuracy ≠ 0) (rowid : Option Row) :
    (∀ C ts I, directedSimulate ord (directedDraws (uniformX u (-1) 1) (parabolaY v u noise)) net rowid ts C I
      = directedSimulate ord (directedDraws (uniformX u (-1) 1) (parabolaY v u noise)) net rowid ts [] I) ∧
    (∀ T C I, directedLogpdf ord (directedDraws (uniformX u (-1) 1) (parabolaY v u noise)) net rowid T C I
      = directedLogpdf ord (directedDraws (uniformX u (-1) 1) (parabolaY v u noise)) net rowid T [] I) ∧
    (∀ y, noise < y → parabolaDensity v u noise (Function.update (fun _ => 0) v y) = 0) ∧
    0 < (directedSimulate ord (directedDraws (uniformX u (-1) 1) (parabolaY v u noise)) net rowid [u, v]
      [(u, 0)] []).E (fun d => if noise < fillWith (fun _ => 0) d v then 1 else 0) := by
  refine ⟨fun _ _ _ => rfl, fun _ _ _ => rfl, fun y hy => ?_, ?_⟩
  · unfold parabolaDensity uniformDensity
    rw [Function.update_self, Function.update_of_ne huv, if_neg (by rintro ⟨-, h⟩; linarith),
      if_neg (by rintro ⟨-, h⟩; linarith)]
    simp
  · have h := C76_parabola_simulate hord huv hn hbuild hacc rowid
      (g := fun _ y => if noise < y then 1 else 0)
      (Measurable.ite (measurableSet_lt measurable_const measurable_snd) measurable_const
        measurable_const) fun _ => 0
    show 0 < (directedSimulate ord (directedDraws (uniformX u (-1) 1) (parabolaY v u noise)) net rowid [u, v]
      [] []).E _
    rw [h]
    have hq : ENNReal.ofReal (1 - -1) = 2 := by norm_num
    refine lt_of_lt_of_le (b := ∫⁻ _ in Set.Icc (3 / 4 : ℝ) 1, (2⁻¹ * 2⁻¹ : ℝ≥0∞)) ?_ ?_
    · rw [setLIntegral_const, Real.volume_Icc]
      refine ENNReal.mul_pos ?_ ?_
      · simp
      · rw [Ne, ENNReal.ofReal_eq_zero, not_le]; norm_num
    refine le_trans (setLIntegral_mono' measurableSet_Icc fun x hx => ?_) (setLIntegral_le_lintegral _ _)
    have hx1 : uniformDensity (-1) 1 x = 2⁻¹ := by
      unfold uniformDensity
      rw [if_pos ⟨by linarith [hx.1], hx.2⟩, hq]
    have hlow : noise < x ^ 2 - noise := by nlinarith [hx.1, hx.2]
    have h1 : ∫⁻ y, uniformDensity (x ^ 2 - noise) (x ^ 2 + noise) y = 1 := by
      have := lintegral_uniformDensity (x ^ 2 - noise) (x ^ 2 + noise) (fun _ => 1) (by linarith)
      simp only [one_mul, lintegral_one] at this
      rw [this, uniform_prob (by linarith)]
    calc (2⁻¹ * 2⁻¹ : ℝ≥0∞)
        = ∫⁻ y, uniformDensity (x ^ 2 - noise) (x ^ 2 + noise) y * (2⁻¹ * 2⁻¹) := by
          rw [lintegral_mul_const' _ _ (ENNReal.mul_ne_top (by simp) (by simp)), h1, one_mul]
      _ ≤ _ := lintegral_mono fun y => ?_
    rw [hx1]
    by_cases hy : x ^ 2 - noise ≤ y
    · rw [if_pos (by linarith), one_mul, div_eq_mul_inv, mul_comm, mul_assoc]
      refine mul_le_mul_right ?_ _
      rw [mul_comm]
      exact mul_le_mul_left le_self_add _
    · have : uniformDensity (x ^ 2 - noise) (x ^ 2 + noise) y = 0 := by
        unfold uniformDensity
        rw [if_neg fun hh => hy hh.1]
      rw [this, zero_mul]
      exact bot_le

/-- The network of a model with a direction is accepted. -/
theorem directed_wf {a b : NetCgpm (Option Row) ℝ (Nat → ℝ)} {u v : Nat} (huv : u ≠ v)
    (ha : a.outputs = [u]) (ha' : a.inputs = []) (hb : b.outputs = [v]) (hb' : b.inputs = [u]) :
    WellFormed [a, b] := by
  have hf : ∀ i j, Feeds [a, b] i j → i = 0 ∧ j = 1 := by
    rintro i j ⟨x, y, hx, hy, w, hwx, hwy⟩
    match i, j, hx, hy with
    | 0, 1, _, _ => exact ⟨rfl, rfl⟩
    | 0, 0, hx, hy => cases hx; cases hy; simp [ha'] at hwy
    | 1, 0, hx, hy => cases hx; cases hy; simp [ha'] at hwy
    | 1, 1, hx, hy =>
      cases hx; cases hy
      simp only [hb, hb', List.mem_singleton] at hwx hwy
      exact absurd (hwy.symm.trans hwx) huv
    | i + 2, _, hx, _ => simp at hx
    | 0, j + 2, _, hy => simp at hy
    | 1, j + 2, _, hy => simp at hy
  refine ⟨?_, ?_, ?_⟩
  · intro c hc
    simp only [List.mem_cons, List.not_mem_nil, or_false] at hc
    rcases hc with rfl | rfl
    · simp [ha]
    · simp [hb]
  · intro i j x y hx hy w hwx hwy
    match i, j, hx, hy with
    | 0, 0, _, _ => rfl
    | 1, 1, _, _ => rfl
    | 0, 1, hx, hy =>
      cases hx; cases hy
      simp only [ha, hb, List.mem_singleton] at hwx hwy
      exact absurd (hwx.symm.trans hwy) huv
    | 1, 0, hx, hy =>
      cases hx; cases hy
      simp only [ha, hb, List.mem_singleton] at hwx hwy
      exact absurd (hwy.symm.trans hwx) huv
    | i + 2, _, hx, _ => simp at hx
    | 0, j + 2, _, hy => simp at hy
    | 1, j + 2, _, hy => simp at hy
  · intro i hi
    have : ∀ a' b', Relation.TransGen (Feeds [a, b]) a' b' → a' = 0 ∧ b' = 1 := by
      intro a' b' h
      induction h with
      | single h => exact hf _ _ h
      | tail _ h ih => exact ⟨ih.1, (hf _ _ h).2⟩
    have := this i i hi
    omega

/-- The hypotheses are met: the constructor builds the network, with the default accuracy. -/
example : ∃ net, build idOrder [(uniformX 0 (-1) 1).net, (parabolaY 1 0 0.1).net] none = .ok net ∧
    net.accuracy ≠ 0 := by
  obtain ⟨net, hn⟩ := (C26_accepted_iff idOrder idOrder_lists _ none).1
    (directed_wf (a := (uniformX 0 (-1) 1).net) (b := (parabolaY 1 0 0.1).net) (u := 0) (v := 1) (by simp) rfl rfl rfl
      rfl)
  refine ⟨net, hn, ?_⟩
  rw [(C26_accepted_network idOrder idOrder_lists _ none net hn).2.1]
  simp

end Cgpm.Props
