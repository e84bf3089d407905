import Verif.Lemmas.HyperSound
import Verif.Lemmas.SweepChain
import Verif.Spec.HyperSweep

/-! The States of the full model: those with given hyperparameters are the States of a model as in
C60–C62. -/
namespace Cgpm.State
open Cgpm.View Cgpm.Spec Cgpm.Props Cgpm.Mix Cgpm.Spec.Hyper Cgpm.Hyper
variable {C : Cat} {cfg : Cfg C} {s : State C}

/-! ### Another Dim for a column -/

/-- The State with the Dim `d` for column `c`. -/
def putDim (t : State C) (i : Nat) (v : View C) (c : Col) (d : Dim C) : State C :=
  { t with views := t.views.set i { v with dims := v.dims.set c d } }

theorem dimFor_putDim {t : State C} {i : Nat} {v : View C} {c : Col} (hz : t.Zv c = some i)
    (hv : t.views.get? i = some v) (d : Dim C) (c' : Col) :
    (t.putDim i v c d).dimFor c' = if c' = c then .ok d else t.dimFor c' := by
  unfold dimFor
  have hZ : (t.putDim i v c d).Zv c' = t.Zv c' := rfl
  have hV : ∀ j, (t.putDim i v c d).views.get? j
      = if j = i then some { v with dims := v.dims.set c d } else t.views.get? j := fun j =>
    Dict.get?_set _ _ _ _
  rw [hZ]
  by_cases e : c' = c
  · subst e
    simp only [hz, hV, if_true, Dict.get?_set_self]
  · rw [if_neg e]
    cases hz' : t.Zv c' with
    | none => rfl
    | some j =>
      simp only [hV]
      by_cases ej : j = i
      · subst ej
        simp only [if_true, hv, Dict.get?_set, if_neg e]
      · simp only [if_neg ej]

theorem latentOf_putDim {t : State C} {i : Nat} {v : View C} (c : Col)
    (hv : t.views.get? i = some v) (d : Dim C) (cols : Finset Col) (rows : Finset Row) :
    latentOf cols rows (t.putDim i v c d) = latentOf cols rows t := by
  refine Latent.ext rfl rfl (funext fun b => ?_)
  have hV : ∀ j, (t.putDim i v c d).views.get? j
      = if j = i then some { v with dims := v.dims.set c d } else t.views.get? j := fun j =>
    Dict.get?_set _ _ _ _
  have hZ : (t.putDim i v c d).Zv b.1 = t.Zv b.1 := rfl
  simp only [latentOf, viewOf, hZ]
  cases hz : t.Zv b.1 with
  | none => rfl
  | some j =>
    simp only [Option.bind_some, hV]
    by_cases ej : j = i
    · subst ej
      rw [if_pos rfl, hv]
      rfl
    · rw [if_neg ej]

theorem keys_putDim {t : State C} {i : Nat} {v : View C} (c : Col)
    (hv : t.views.get? i = some v) (d : Dim C) :
    (t.putDim i v c d).views.keys = t.views.keys := by
  show (t.views.set i _).keys = _
  rw [Dict.keys_set, if_pos (Dict.mem_keys_of_get? hv)]

theorem freeWeight_putDim {t : State C} (h : Inv t) {i : Nat} {v : View C} {c : Col}
    (hv : t.views.get? i = some v) (hp : 0 < concentrationPrior t.nRows v.crp.alpha) {d : Dim C}
    (hd : v.dims.get? c = some d) (d' : Dim C) :
    freeWeight (t.putDim i v c d')
      = freeWeight t / Real.exp d.score * Real.exp d'.score := by
  have h1 := freeWeight_setView h hv (v' := { v with dims := v.dims.set c d' })
  have hw := (h.views.view i v hv).inv.wf
  have hl : View.likelihood { v with dims := v.dims.set c d' }
      = v.likelihood - d.score + d'.score := by
    have := fsum_set Dim.score hw c d'
    rw [hd] at this
    exact this
  have hsc : View.score { v with dims := v.dims.set c d' } = v.score - d.score + d'.score := by
    unfold View.score
    rw [hl]; ring
  unfold viewFactor at h1
  rw [hsc, Real.exp_add, Real.exp_sub] at h1
  have hpos : concentrationPrior t.nRows v.crp.alpha * Real.exp v.score ≠ 0 :=
    (mul_pos hp (Real.exp_pos _)).ne'
  refine mul_right_cancel₀ hpos (h1.trans ?_)
  show freeWeight t * (concentrationPrior t.nRows v.crp.alpha * (Real.exp v.score / Real.exp d.score
    * Real.exp d'.score)) = _
  ring

/-! ### The hyperparameters of a column are redrawn -/

/-- What the full model needs to know of the types and grids of the columns. -/
def SoundState (lib : HyperLib C) (grids : Col → Grids) (val : C.ι → Hypers → C.H)
    (Adm : C.ι → Hypers → Prop) (s : State C) : Prop :=
  ∀ c d, s.dimFor c = .ok d → Sound lib d.kind (grids c) (val d.kind) (Adm d.kind)

/-- A State of the full model with the hyperparameters `κ`. -/
structure At (cfg : Cfg C) (lib : HyperLib C) {grids : Col → Grids} (s : State C)
    (κ : Choice (colsOf s) grids) (t : State C) : Prop where
  full : FullState cfg s t
  chosen : hypersOf lib (colsOf s) t = κ.hypers
  grid : (latentOf (colsOf s) (rowsOf s) t).OnGrid

section
variable {lib : HyperLib C} {grids : Col → Grids} {val : C.ι → Hypers → C.H}
  {Adm : C.ι → Hypers → Prop}

theorem hypersOf_dim {cols : Finset Col} {t : State C} {a : {c // c ∈ cols}} {d : Dim C}
    (hd : t.dimFor a.1 = .ok d) : hypersOf lib cols t a = lib.dict d.kind d.hyp := by
  unfold hypersOf; rw [hd]

theorem _root_.Cgpm.Spec.FullState.inv (hL : C.Lawful) {t : State C} (h : FullState cfg s t) : Inv t :=
  h.reachable.inv hL

theorem _root_.Cgpm.Spec.FullState.refl (hs : StateReachable cfg s) (hsort : viewsSorted s) : FullState cfg s s :=
  ⟨hs, hsort, rfl, rfl, rfl, rfl, fun c d d' h h' => by rw [h] at h'; cases h'; exact ⟨rfl, rfl, rfl⟩⟩

theorem _root_.Cgpm.Spec.FullState.dims (hL : C.Lawful) (hs : StateReachable cfg s) {t : State C}
    (h : FullState cfg s t) {c : Col} (hc : c ∈ s.outputs) : ∃ d0 d, s.dimFor c = .ok d0 ∧
      t.dimFor c = .ok d ∧ d.index = d0.index ∧ d.inputs = d0.inputs ∧ d.kind = d0.kind ∧
      (C.F d.kind).hypOk d.hyp := by
  obtain ⟨-, -, d0, -, -, -, h0, -⟩ := (hs.inv hL).dim hc
  obtain ⟨_, _, d, -, -, -, h1, -, h2⟩ := (Cgpm.Spec.FullState.inv hL h).dim (c := c) (by rw [h.outputs]; exact hc)
  obtain ⟨e1, e2, e3⟩ := h.columns c d0 d h0 h1
  exact ⟨d0, d, h0, h1, e1, e2, e3, h2.hyp⟩

/-- The sound types are the same in all States of the model. -/
theorem _root_.Cgpm.Spec.FullState.sound (hL : C.Lawful) (hs : StateReachable cfg s) {t : State C}
    (h : FullState cfg s t) (hS : SoundState lib grids val Adm s) {c : Col} (hc : c ∈ s.outputs)
    {d : Dim C} (hd : t.dimFor c = .ok d) :
    Sound lib d.kind (grids c) (val d.kind) (Adm d.kind) := by
  obtain ⟨d0, d', h0, h1, -, -, e, -⟩ := FullState.dims hL hs h hc
  rw [hd] at h1; cases h1
  rw [e]; exact hS c d0 h0

theorem _root_.Cgpm.Spec.FullState.putDim (hL : C.Lawful) {t : State C}
    (h : FullState cfg s t) {c : Col} {i : Nat} {v : View C} {d : Dim C} (hz : t.Zv c = some i)
    (hv : t.views.get? i = some v) (hd : v.dims.get? c = some d) {hy : C.H}
    (hh : (C.F d.kind).hypOk hy) : FullState cfg s (t.putDim i v c (d.transitionHypers hy)) := by
  have hdim : t.dimFor c = .ok d := by simp only [dimFor, hz, hv, hd]
  obtain ⟨i', v', g1, g2, g3, g4, -⟩ := (Cgpm.Spec.FullState.inv hL h).transitionDimHypers_ok hdim (hy := hy) hh
  rw [hz] at g1; cases g1
  rw [hv] at g2; cases g2
  have hr := h.reachable.step (op := .hypers c hy) (fun d' hd' => by
    rw [hdim] at hd'; cases hd'; exact hh)
  simp only [State.apply, g4, Out.state_ok] at hr
  refine ⟨hr, ?_, h.data, h.outputs, h.dependent, h.independent, fun c' d0 d' h0 h1 => ?_⟩
  · unfold viewsSorted
    rw [keys_putDim c hv]
    exact h.sorted
  · rw [dimFor_putDim hz hv] at h1
    split at h1
    · rename_i e
      cases h1
      subst e
      exact h.columns c' d0 d h0 hdim
    · exact h.columns c' d0 d' h0 h1

theorem At.putDim (hL : C.Lawful) (hs : StateReachable cfg s)
    (hS : SoundState lib grids val Adm s) {κ : Choice (colsOf s) grids} {t : State C}
    (h : At cfg lib s κ t) (a : {c // c ∈ colsOf s}) {i : Nat} {v : View C} {d : Dim C}
    (hz : t.Zv a.1 = some i) (hv : t.views.get? i = some v) (hd : v.dims.get? a.1 = some d)
    (k : Config (grids a.1)) :
    At cfg lib s (Function.update κ a k)
      (t.putDim i v a.1 (d.transitionHypers (val d.kind k.hypers))) := by
  have hdim : t.dimFor a.1 = .ok d := by simp only [dimFor, hz, hv, hd]
  have S := FullState.sound hL hs h.full hS (mem_colsOf.mp a.2) hdim
  refine ⟨FullState.putDim hL h.full hz hv hd (S.ok k), funext fun b => ?_, ?_⟩
  · by_cases e : b = a
    · subst e
      rw [hypersOf_dim (d := d.transitionHypers (val d.kind k.hypers))
        (by rw [dimFor_putDim hz hv, if_pos rfl])]
      simp only [Choice.hypers, Function.update_self]
      exact S.dict k
    · have e' : b.1 ≠ a.1 := fun h => e (Subtype.ext h)
      have := congrFun h.chosen b
      simp only [Choice.hypers, Function.update_of_ne e] at this ⊢
      rw [← this]
      unfold hypersOf
      rw [dimFor_putDim hz hv, if_neg e']
  · rw [latentOf_putDim a.1 hv]; exact h.grid

/-! ### Fibres -/

/-- Any hyperparameters can be had, with the latent structure unchanged. -/
theorem exists_putAll (hL : C.Lawful) (hs : StateReachable cfg s)
    (hS : SoundState lib grids val Adm s) (κ : Choice (colsOf s) grids) :
    ∃ (Q : Crp) (V : Dict Nat (View C)), FullState cfg s { s with crp := Q, views := V } ∧
      hypersOf lib (colsOf s) { s with crp := Q, views := V } = κ.hypers := by
  have key : ∀ l : List {c // c ∈ colsOf s}, ∃ (Q : Crp) (V : Dict Nat (View C)),
      FullState cfg s { s with crp := Q, views := V } ∧
      ∀ a ∈ l, hypersOf lib (colsOf s) { s with crp := Q, views := V } a = κ.hypers a := by
    intro l
    induction l with
    | nil =>
      obtain ⟨p1, ⟨W, hW⟩, p3⟩ := C60_posterior hL hs
      obtain ⟨L, hLg⟩ : (latents (colsOf s) (rowsOf s)).Nonempty := by
        by_contra hne
        have := (p3 W hW).2
        rw [Finset.not_nonempty_iff_eq_empty.mp hne, Finset.sum_empty] at this
        exact lt_irrefl _ this
      obtain ⟨⟨X, o, Q, V, Cd, Ci⟩, ht, -⟩ := p1 L hLg
      obtain ⟨r, so, e1, e2, e3, e4, e5⟩ := ht
      simp only at e1 e2 e3 e4
      subst e1 e2 e3 e4
      refine ⟨Q, V, ⟨r, so, rfl, rfl, rfl, rfl, fun c d d' h h' => ?_⟩, by simp⟩
      obtain ⟨g1, g2, g3, -⟩ := e5 c d d' h h'
      exact ⟨g1, g2, g3⟩
    | cons a l ih =>
      obtain ⟨Q, V, h1, h2⟩ := ih
      obtain ⟨-, d, -, hdim, -⟩ := FullState.dims hL hs h1 (mem_colsOf.mp a.2)
      obtain ⟨i, v, hz, hv, hd⟩ := dimFor_ok hdim
      have S := FullState.sound hL hs h1 hS (mem_colsOf.mp a.2) hdim
      refine ⟨Q, V.set i { v with dims := v.dims.set a.1 (d.transitionHypers (val d.kind (κ a).hypers)) },
        FullState.putDim hL h1 hz hv hd (S.ok (κ a)), fun b hb => ?_⟩
      have hdd := fun c' => dimFor_putDim (t := { s with crp := Q, views := V }) hz hv
        (d.transitionHypers (val d.kind (κ a).hypers)) c'
      change hypersOf lib (colsOf s) (State.putDim { s with crp := Q, views := V } i v a.1
        (d.transitionHypers (val d.kind (κ a).hypers))) b = _
      by_cases e : b = a
      · subst e
        rw [hypersOf_dim (d := d.transitionHypers (val d.kind (κ b).hypers))
          (by rw [hdd, if_pos rfl])]
        exact S.dict (κ b)
      · have e' : b.1 ≠ a.1 := fun h => e (Subtype.ext h)
        rw [← h2 b ((List.mem_cons.mp hb).resolve_left e)]
        unfold hypersOf
        rw [hdd, if_neg e']
  obtain ⟨Q, V, h1, h2⟩ := key Finset.univ.toList
  exact ⟨Q, V, h1, funext fun a => h2 a (by simp)⟩

/-- The States with hyperparameters `κ` are those of the model of `s` with other views. -/
theorem full_iff_same (hL : C.Lawful) (hs : StateReachable cfg s)
    (hS : SoundState lib grids val Adm s) {κ : Choice (colsOf s) grids} {Q : Crp}
    {V : Dict Nat (View C)} (hV : FullState cfg s { s with crp := Q, views := V })
    (hκ : hypersOf lib (colsOf s) { s with crp := Q, views := V } = κ.hypers) {t : State C} :
    FullState cfg s t ∧ hypersOf lib (colsOf s) t = κ.hypers
      ↔ SameState cfg { s with crp := Q, views := V } t := by
  constructor
  · rintro ⟨h, hc'⟩
    refine ⟨h.reachable, h.sorted, h.data, h.outputs, h.dependent, h.independent,
      fun c d d' h1 h2 => ?_⟩
    have hc : c ∈ s.outputs := (dimFor_of_mem (FullState.inv hL hV)).mp ⟨d, h1⟩
    obtain ⟨d0, d1, g0, g1, g2, g3, g4, g5⟩ := FullState.dims hL hs hV hc
    rw [h1] at g1; cases g1
    obtain ⟨d0', d2, k0, k1, k2, k3, k4, k5⟩ := FullState.dims hL hs h hc
    rw [h2] at k1; cases k1
    rw [g0] at k0; cases k0
    have hk : d'.kind = d.kind := k4.trans g4.symm
    refine ⟨k2.trans g2.symm, k3.trans g3.symm, hk, ?_⟩
    have S := FullState.sound hL hs hV hS hc h1
    have e1 := congrFun hκ ⟨c, mem_colsOf.mpr hc⟩
    have e2 := congrFun hc' ⟨c, mem_colsOf.mpr hc⟩
    rw [hypersOf_dim h1] at e1
    rw [hypersOf_dim h2, hk] at e2
    rw [hk] at k5
    rw [S.inj _ _ g5 e1, S.inj _ _ k5 e2]
  · intro h
    refine ⟨⟨h.reachable, h.sorted, h.data, h.outputs, h.dependent, h.independent,
      fun c d d' h1 h2 => ?_⟩, ?_⟩
    · have hc : c ∈ s.outputs := (dimFor_of_mem (hs.inv hL)).mp ⟨d, h1⟩
      obtain ⟨d0, d1, g0, g1, g2, g3, g4, -⟩ := FullState.dims hL hs hV hc
      rw [h1] at g0; cases g0
      obtain ⟨q1, q2, q3, -⟩ := h.columns c d1 d' g1 h2
      exact ⟨q1.trans g2, q2.trans g3, q3.trans g4⟩
    · rw [← hκ]
      funext a
      obtain ⟨-, d1, -, g1, -⟩ := FullState.dims hL hs hV (mem_colsOf.mp a.2)
      obtain ⟨-, -, d', -, -, -, h2, -⟩ := (h.reachable.inv hL).dim (c := a.1)
        (by rw [h.outputs]; exact mem_colsOf.mp a.2)
      obtain ⟨-, -, q3, q4⟩ := h.columns a.1 d1 d' g1 h2
      rw [hypersOf_dim g1, hypersOf_dim h2, q3, q4]

theorem At.onModel (hL : C.Lawful) (hs : StateReachable cfg s)
    (hS : SoundState lib grids val Adm s) {κ : Choice (colsOf s) grids} {Q : Crp}
    {V : Dict Nat (View C)} (hV : FullState cfg s { s with crp := Q, views := V })
    (hκ : hypersOf lib (colsOf s) { s with crp := Q, views := V } = κ.hypers) {t : State C} :
    At cfg lib s κ t ↔ OnModel { s with crp := Q, views := V } t ∧ StateReachable cfg t := by
  constructor
  · intro h
    exact ⟨sameState_onModel hL ((full_iff_same hL hs hS hV hκ).mp ⟨h.full, h.chosen⟩) h.grid,
      h.full.reachable⟩
  · rintro ⟨h, hr⟩
    obtain ⟨h1, h2⟩ := (full_iff_same hL hs hS hV hκ).mpr (sameState_of h hr)
    exact ⟨h1, h2, h.grid⟩

end

end Cgpm.State
