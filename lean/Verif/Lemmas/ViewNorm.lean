import Verif.Lemmas.ViewFast
import Verif.Props.PrimNorm

/-! Discrete columns of a view: the densities of the possible values sum to one. -/
namespace Cgpm.Props
open Cgpm Cgpm.View Cgpm.Net

theorem mass_ofLogP_coe (x : ℝ) : mass (Fl.ofLogP ((x : ℝ) : LogP)) = ENNReal.ofReal (Real.exp x) :=
  rfl

theorem mass_eq_pr (w : LogP) : mass (Fl.ofLogP w) = ENNReal.ofReal (pr w) := by
  cases w with
  | none => change mass (Fl.ofLogP (⊥ : LogP)) = _; simp [Fl.ofLogP_bot', mass, pr]
  | some x => rfl

theorem pr_nonneg (w : LogP) : 0 ≤ pr w := by
  cases w with
  | none => exact le_refl _
  | some x => exact (Real.exp_pos x).le

theorem prim_tsum {p : Prim} (hp : discrete p) (h : p.H) (hk : p.fam.hypOk h) (l : List ℝ)
    (hl : ∀ x ∈ l, support p x) :
    ∑' x : {x : ℝ // support p x}, mass (Fl.ofLogP (p.fam.logpdf h (p.fam.statOf l) x)) = 1 := by
  have key : ∀ {ι : Type} (e : ι → ℝ), Function.Injective e → (∀ x, support p x ↔ ∃ i, e i = x) →
      (∑' x : {x : ℝ // support p x}, mass (Fl.ofLogP (p.fam.logpdf h (p.fam.statOf l) x)))
        = ∑' i, ENNReal.ofReal (pr (p.fam.logpdf h (p.fam.statOf l) (e i))) := by
    intro ι e he hs
    have hset : {x : ℝ | support p x} = Set.range e := by ext x; exact hs x
    have h1 : (∑' x : {x : ℝ // support p x}, mass (Fl.ofLogP (p.fam.logpdf h (p.fam.statOf l) x)))
        = ∑' x : {x : ℝ | support p x},
          (fun x : ℝ => ENNReal.ofReal (pr (p.fam.logpdf h (p.fam.statOf l) x))) x :=
      tsum_congr fun x => mass_eq_pr _
    rw [h1, hset, tsum_range (fun x : ℝ => ENNReal.ofReal (pr (p.fam.logpdf h (p.fam.statOf l) x)))
      he]
  cases p with
  | bernoulli =>
    rw [key (fun b : Bool => if b then (1 : ℝ) else 0)
      (by intro a b; cases a <;> cases b <;> simp)
      (by intro x; simp only [support, Bool.exists_bool]; simp [eq_comm])]
    rw [tsum_bool]
    simp only [Bool.false_eq_true, if_false, if_true]
    rw [← ENNReal.ofReal_add (pr_nonneg _) (pr_nonneg _)]
    exact (congrArg ENNReal.ofReal (bernoulli_norm h hk l hl)).trans ENNReal.ofReal_one
  | categorical k =>
    rw [key (fun i : Fin k => ((i : ℕ) : ℝ))
      (by intro a b hab; simp only [Nat.cast_inj] at hab; exact Fin.ext hab)
      (by
        intro x
        constructor
        · rintro ⟨n, hn, rfl⟩; exact ⟨⟨n, hn⟩, rfl⟩
        · rintro ⟨i, rfl⟩; exact ⟨i, i.2, rfl⟩)]
    rw [tsum_fintype, ← ENNReal.ofReal_sum_of_nonneg fun _ _ => pr_nonneg _,
      Finset.sum_fin_eq_sum_range]
    have : (∑ i ∈ Finset.range k, if h_1 : i < k then
        pr ((Prim.categorical k).fam.logpdf h ((Prim.categorical k).fam.statOf l)
          (((⟨i, h_1⟩ : Fin k) : ℕ) : ℝ)) else 0)
        = ∑ i ∈ Finset.range k, pr ((categorical k).logpdf h ((categorical k).statOf l) (i : ℝ)) :=
      Finset.sum_congr rfl fun i hi => by rw [dif_pos (Finset.mem_range.mp hi)]; rfl
    rw [this, categorical_norm k hp h hk l hl, ENNReal.ofReal_one]
  | geometric =>
    rw [key (fun n : ℕ => (n : ℝ)) Nat.cast_injective (by intro x; simp [support, eq_comm])]
    have := geometric_norm h hk l hl
    refine (ENNReal.ofReal_tsum_of_nonneg (fun _ => pr_nonneg _) this.summable).symm.trans ?_
    rw [this.tsum_eq, ENNReal.ofReal_one]
  | poisson =>
    rw [key (fun n : ℕ => (n : ℝ)) Nat.cast_injective (by intro x; simp [support, eq_comm])]
    have := poisson_norm h hk l hl
    refine (ENNReal.ofReal_tsum_of_nonneg (fun _ => pr_nonneg _) this.summable).symm.trans ?_
    rw [this.tsum_eq, ENNReal.ofReal_one]
  | _ => exact hp.elim

variable {P : Prim → Prop}

/-- The values held by the components of a column of the library are in the support. -/
theorem lib_cells_support {X : (catOf P).Tbl} {v : View (catOf P)} (hI : Inv X v)
    {c : Col} {d : Dim (catOf P)} (hd : v.dims.get? c = some d) (hi : d.inputs = []) {k : Tab}
    {cl : (catOf P).Cl} (hk : d.clusters.get? k = some cl) :
    ∀ o ∈ cl.data.vals, support d.kind.1 o.1 := by
  have hok := hI.dim (c, d) (Dict.mem_of_get? hd)
  have hh := hok.core.cl k cl hk
  intro o ho
  unfold Dict.vals at ho
  obtain ⟨⟨r, o'⟩, hm, rfl⟩ := List.mem_map.mp ho
  have hg := Dict.get?_of_mem hh.wf hm
  rw [hh.data] at hg
  simp only [filing] at hg
  cases hs : v.seat r with
  | none => rw [hs] at hg; cases hg
  | some k' =>
    rw [hs] at hg
    simp only [Option.map_some] at hg
    cases hst : stored X d r with
    | none => rw [hst] at hg; cases hg
    | some o'' =>
      rw [hst] at hg
      have e : o'' = o' := by
        simp only [valIn] at hg
        split at hg
        · exact Option.some.inj hg
        · cases hg
      subst e
      unfold stored at hst
      cases hob : obsOf X d r with
      | none => rw [hob] at hst; cases hst
      | some ob =>
        rw [hob] at hst
        simp only at hst
        cases hpr : d.fam.prep ob with
        | error e => rw [hpr] at hst; cases hst
        | ok y =>
          rw [hpr] at hst
          cases hst
          exact Prim.stored_support (Prim.lift_prep (p := d.kind.1) hpr).2.2

theorem cell_tsum {X : (catOf P).Tbl} {v : View (catOf P)} (hI : Inv X v)
    {c : Col} {d : Dim (catOf P)} (hd : v.dims.get? c = some d) (hi : d.inputs = [])
    (hp : discrete d.kind.1) (k : Tab) :
    ∑' x : {x : ℝ // support d.kind.1 x}, cellDensity d k (some x.1) [] = 1 := by
  have hok := hI.dim (c, d) (Dict.mem_of_get? hd)
  obtain ⟨q, h⟩ : ∃ q : (Σ q : Prim, q.H), q = d.hyp := ⟨_, rfl⟩
  obtain ⟨e, hy⟩ := hok.hyp
  have key : ∀ (l : List (ℝ × List ℝ)), (∀ o ∈ l, support d.kind.1 o.1) →
      ∑' x : {x : ℝ // support d.kind.1 x}, mass (Fl.ofLogP
        (d.kind.1.lift.logpdf d.hyp (d.kind.1.lift.statOf l) (x.1, []))) = 1 := by
    intro l hl
    rw [Prim.lift_statOf]
    generalize hg : d.hyp = y at e hy
    obtain ⟨q, y⟩ := y
    simp only at e
    generalize hp' : d.kind.1 = p at *
    subst e
    simp only [Prim.lift_logpdf_mk]
    exact prim_tsum hp y hy _ fun x hx => by
      obtain ⟨o, ho, rfl⟩ := List.mem_map.mp hx; exact hl o ho
  unfold cellDensity
  simp only [List.any_nil, List.reduceOption_nil]
  cases hk : d.clusters.get? k with
  | none => exact key [] (by simp)
  | some cl =>
    have hst : cl.stat = d.kind.1.lift.statOf cl.data.vals := (hok.core.cl k cl hk).stat
    have := key cl.data.vals (lib_cells_support hI hd hi hk)
    rw [← hst, ← hok.shared.cl k cl hk] at this
    exact this

/-- In a view of the library, a cell has positive density iff its value is in the support. -/
theorem cell_pos_iff {X : (catOf P).Tbl} {v : View (catOf P)} (hI : Inv X v)
    {c : Col} {d : Dim (catOf P)} (hd : v.dims.get? c = some d) (k : Tab) (x : ℝ)
    (ins : List (catOf P).Cell) (hins : ins.any Option.isNone = false) :
    cellDensity d k (some x) ins ≠ 0 ↔ support d.kind.1 x := by
  have hok := hI.dim (c, d) (Dict.mem_of_get? hd)
  obtain ⟨e, hy⟩ := hok.hyp
  have key : ∀ (l : List (ℝ × List ℝ)), mass (Fl.ofLogP
        (d.kind.1.lift.logpdf d.hyp (d.kind.1.lift.statOf l) (x, ins.reduceOption))) ≠ 0 ↔
        support d.kind.1 x := by
    intro l
    rw [Prim.lift_statOf]
    generalize hg : d.hyp = y at e hy
    obtain ⟨q, y⟩ := y
    simp only at e
    generalize hp' : d.kind.1 = p at *
    subst e
    simp only [Prim.lift_logpdf_mk]
    rw [ne_eq, mass_ofLogP_eq_zero, Prim.logpdf_bot_iff, not_not]
  unfold cellDensity
  simp only [hins]
  cases hk : d.clusters.get? k with
  | none => exact key []
  | some cl =>
    have hst : cl.stat = d.kind.1.lift.statOf cl.data.vals := (hok.core.cl k cl hk).stat
    have := key cl.data.vals
    rw [← hst, ← hok.shared.cl k cl hk] at this
    exact this

end Cgpm.Props
