import Verif.Lemmas.StateFrame
import Verif.Model.LibCfg
import Verif.Props.Dim

/-! States with numerical columns only: every call is legal. -/
namespace Cgpm.Props
open Cgpm Cgpm.View Cgpm.State

/-- All columns are normal columns without inputs, and no constraints are declared. -/
structure PlainState (s : State libCat) : Prop where
  kind : ∀ c d, s.dimFor c = .ok d → d.kind = ⟨.normal, trivial⟩ ∧ d.inputs = []
  Cd : s.Cd = []
  Ci : s.Ci = []

/-- Calls with admissible hyperparameters, concentrations and uniform draws; new columns are
normal columns. -/
def PlainOp : State.Op libCat → Prop
  | .force _ obs => obs.keys.Nodup
  | .incDim _ _ _ kind _ ω => kind = ⟨.normal, trivial⟩ ∧
      (libCat.F ⟨.normal, trivial⟩).hypOk ω.hyp ∧ (libCat.F ⟨.normal, trivial⟩).hypOk ω.hyp' ∧
      0 < ω.view.1 ∧ goodDraws ω.aux ω.u
  | .cctype _ kind _ hyp hyp' => kind = ⟨.normal, trivial⟩ ∧
      (libCat.F ⟨.normal, trivial⟩).hypOk hyp ∧ (libCat.F ⟨.normal, trivial⟩).hypOk hyp'
  | .hypers _ h => (libCat.F ⟨.normal, trivial⟩).hypOk h
  | .column _ m aux u => 0 < m ∧ goodDraws aux u
  | _ => True

theorem normal_admissible (X : libCat.Tbl) (d : Dim libCat) (r : Row)
    (hk : d.kind = ⟨.normal, trivial⟩) (hi : d.inputs = []) : admissible X d r := by
  unfold admissible fileOf
  rw [hk, hi]
  cases hx : X d.index r with
  | none => simp [file]
  | some x =>
    have hok : (libCat.F ⟨.normal, trivial⟩).prep (x, []) = .ok (x, []) :=
      (C10_primitives_store _ _ _).mpr ⟨rfl, by simp [remembered, support]⟩
    simp [file, hok]

abbrev plainCfg : Cfg libCat := libCfg _

theorem plain_legal {s : State libCat} (hp : PlainState s) {op : State.Op libCat} (ho : PlainOp op) :
    stateLegal plainCfg s op := by
  have hpart : ∀ c, partnersExist s c := by
    intro c a _ h
    rw [hp.Ci] at h; simp at h
  cases op with
  | inc r obs ks z => exact fun _ c d hd => normal_admissible _ d _ (hp.kind c d hd).1 (hp.kind c d hd).2
  | unc r => trivial
  | force r obs =>
    refine ⟨ho, fun _ => ⟨fun c _ d hd => normal_admissible _ d _ (hp.kind c d hd).1
      (hp.kind c d hd).2, fun c d hd i hi => ?_⟩⟩
    rw [(hp.kind c d hd).2] at hi; cases hi
  | incDim T outs ins kind v ω =>
    obtain ⟨rfl, h1, h2, h3, h4⟩ := ho
    intro col _ _ _ _
    exact ⟨rfl, h1, h2, fun r _ => normal_admissible _ _ _ rfl rfl, h3, h4,
      fun _ => ⟨hpart col, Or.inl rfl⟩⟩
  | uncDim col =>
    intro c d hd _
    rw [(hp.kind c d hd).2]; simp
  | cctype col kind ins hyp hyp' =>
    obtain ⟨rfl, h1, h2⟩ := ho
    intro v view inputs _ _ hc
    have : inputs = [] := by
      unfold cctypeInputs at hc
      rw [if_neg (by simp [libCfg])] at hc
      cases hc; rfl
    subst this
    exact ⟨h1, h2, fun r _ => normal_admissible _ _ _ rfl rfl⟩
  | alpha a => trivial
  | viewAlpha v a => trivial
  | hypers c h =>
    intro d hd
    rw [(hp.kind c d hd).1]; exact ho
  | row v r z => trivial
  | column c m aux u =>
    refine ⟨ho.1, ho.2, hpart c, fun d hd => Or.inl ?_⟩
    rw [(hp.kind c d hd).1]; rfl

theorem plain_keeps {s s' : State libCat} (hp : PlainState s) (hk : Keeps s s') (hb : s'.Cd = s.Cd)
    (hc : s'.Ci = s.Ci) :
    PlainState s' where
  kind := fun c d hd => by
    obtain ⟨d0, h1, h2, h3⟩ := hk c d hd
    rw [h2, h3]; exact hp.kind c d0 h1
  Cd := hb.trans hp.Cd
  Ci := hc.trans hp.Ci

theorem keeps_setView {C : Cat} {s : State C} {i : Nat} {v v' : View C}
    (hv : s.views.get? i = some v)
    (hd : ∀ c d', v'.dims.get? c = some d' →
      ∃ d, v.dims.get? c = some d ∧ d'.kind = d.kind ∧ d'.inputs = d.inputs) :
    Keeps s { s with views := s.views.set i v' } := by
  refine keeps_of (fun c i h => h) fun j w hw0 => ?_
  have hw : (s.views.set i v').get? j = some w := hw0
  clear hw0
  rw [Dict.get?_set] at hw
  split at hw
  · rename_i e; subst e; cases hw; exact ⟨v, hv, hd⟩
  · exact ⟨w, hw, fun c d' hd' => ⟨d', hd', rfl, rfl⟩⟩

theorem keeps_drop {C : Cat} {s s' : State C} {col : Col} (hz : s'.Zv = upd s.Zv col none)
    (hv : ∀ i v', s'.views.get? i = some v' → ∃ v, s.views.get? i = some v ∧ v' = drop col v) :
    Keeps s s' := by
  refine keeps_of (fun c i h => ?_) fun i v' hv' => ?_
  · rw [hz] at h
    by_cases hc : c = col
    · subst hc; simp [upd] at h
    · rwa [upd_ne _ _ hc] at h
  · obtain ⟨v, h1, rfl⟩ := hv i v' hv'
    refine ⟨v, h1, fun c d' hd' => ?_⟩
    have : (v.dims.erase col).get? c = some d' := hd'
    rw [Dict.get?_erase] at this
    split at this
    · cases this
    · exact ⟨d', this, rfl, rfl⟩

theorem plain_cond (s : State libCat) : s.anyConditional plainCfg = false := by
  rw [Bool.eq_false_iff]
  intro h
  unfold anyConditional at h
  simp only [libCfg, List.any_eq_true] at h
  obtain ⟨x, -, hx⟩ := h
  cases x <;> simp at hx

theorem plain_apply {s : State libCat} (h : State.Inv s) (hp : PlainState s) {op : State.Op libCat}
    (ho : PlainOp op) : PlainState (s.apply plainCfg op).state := by
  have hL : Cat.Lawful libCat := catOf_lawful fun _ => True
  have hl := plain_legal hp ho
  cases op with
  | inc r obs ks z =>
    by_cases hg : r = s.nRows ∧ (∀ v ∈ ks.keys, v ∈ s.views.keys) ∧
        (∀ c ∈ obs.keys, c ∈ s.outputs) ∧ ∀ p ∈ obs, p.2 ≠ none
    · obtain ⟨rfl, h1, h2, h3⟩ := hg
      obtain ⟨s', g1, g2, -, -, g5, g6, g7, -, -, g10⟩ := h.incorporate_ok hL z h1 h2 h3
        (fun c d hd => (admissible_iff _ _ _).mp (hl rfl c d hd))
      simp only [State.apply, g1]
      refine plain_keeps hp (keeps_of (fun c i hz => ?_) fun i v' hv' => ?_) g6 g7
      · unfold Zv at hz ⊢
        rw [Out.state, g5] at hz; exact hz
      · obtain ⟨v, f1, f2⟩ := g10.get? hv'
        exact ⟨v, f1, fun c d' hd' => same_dims f2.2.2 hd'⟩
    · simp only [State.apply, incorporate_err hg]; exact hp
  | unc r =>
    by_cases hg : r + 1 = s.nRows ∧ s.nRows ≠ 1
    · obtain ⟨s', g1, g2, -, -, g5, g6, g7, -, g10⟩ := h.unincorporate_ok hL hg.1.symm
        (Nat.pos_of_ne_zero fun e => hg.2 (by rw [← hg.1, e]))
      simp only [State.apply, g1]
      refine plain_keeps hp (keeps_of (fun c i hz => ?_) fun i v' hv' => ?_) g6 g7
      · unfold Zv at hz ⊢
        rw [Out.state, g5] at hz; exact hz
      · obtain ⟨v, f1, f2⟩ := g10.get? hv'
        exact ⟨v, f1, fun c d' hd' => same_dims f2.2.2 hd'⟩
    · simp only [State.apply, unincorporate_err hg]; exact hp
  | force r obs =>
    by_cases hg : r < s.nRows ∧ allMissing s.X r obs.keys = .ok true
    · obtain ⟨h1, h2⟩ := hl.2 hg.1
      obtain ⟨s', g1, g2, -, -, g5, g6, g7, -, -, g10⟩ := h.forceCell_ok hL hl.1 hg.1 hg.2
        (fun c hc d hd => (admissible_iff _ _ _).mp (by
          rw [← cellsForced_eq]; exact h1 c hc d hd)) h2
      simp only [State.apply, g1]
      refine plain_keeps hp (keeps_of (fun c i hz => ?_) fun i v' hv' => ?_) g6 g7
      · unfold Zv at hz ⊢
        rw [Out.state, g5] at hz; exact hz
      · obtain ⟨v, f1, -, f2⟩ := g10 i v' hv'
        exact ⟨v, f1, fun c d' hd' => same_dims f2 hd'⟩
    · obtain ⟨e, he⟩ := forceCell_err hg
      simp only [State.apply, he]; exact hp
  | incDim T outs ins kind v ω =>
    by_cases hg : T.length = s.nRows ∧ ins = [] ∧ ∃ col, outs = [col] ∧ col ∉ s.outputs
    · obtain ⟨hT, rfl, col, rfl, hc⟩ := hg
      obtain ⟨h1, h2, h3, h4, h5, h6, h7⟩ := hl col rfl rfl hT hc
      have hok : IncDimOk plainCfg s T col kind v ω :=
        ⟨h1, h2, h3, fun r hr => (admissible_iff _ _ _).mp (by
        rw [← columnAdded_eq]; exact h4 r hr), h5, h6.1, h6.2.1, h6.2.2,
        fun hv => partners_of (h7 hv).1, fun hv => (h7 hv).2⟩
      obtain ⟨s', k1, -, -, k2, k3, -⟩ := (h.incorporateDim_inv hT hc hok).2 (Or.inr
        ⟨plain_cond s, hp.Cd⟩)
      refine ⟨fun c d' hd' => ?_, ?_, ?_⟩
      · rcases h.incorporateDim_dims hT hc hok c d' hd' with ⟨-, e1, e2⟩ | ⟨-, d, e1, e2, e3⟩
        · exact ⟨e1.trans ho.1, e2⟩
        · rw [e2, e3]; exact hp.kind c d e1
      · simp only [State.apply, k1]; exact k2.trans hp.Cd
      · simp only [State.apply, k1]; exact k3.trans hp.Ci
    · simp only [State.apply, incorporateDim_err hg]; exact hp
  | uncDim col =>
    by_cases hg : s.outputs.length ≠ 1 ∧ col ∈ s.outputs
    · obtain ⟨s', g1, g2, -, -, -, g6, -, g8, g9, g10⟩ := h.unincorporateDim_ok hg.2 hg.1 hl
      simp only [State.apply, g1]
      exact plain_keeps hp (keeps_drop g6 g10) g8 g9
    · simp only [State.apply, unincorporateDim_err hg]; exact hp
  | cctype col kind ins hyp hyp' =>
    by_cases hg : ∃ v view inputs, s.Zv col = some v ∧ s.views.get? v = some view ∧
      cctypeInputs plainCfg view col kind ins = .ok inputs
    · obtain ⟨v, view, inputs, h1, h2, h3⟩ := hg
      obtain ⟨h4, h5, h6⟩ := hl v view inputs h1 h2 h3
      obtain ⟨d, g1, g2, g3, g4, g5, g6⟩ := h.updateCctype_ok h1 h2 h3 h4 h5
        (fun r hr => (admissible_iff _ _ _).mp (h6 r hr))
      have he : inputs = [] := by
        unfold cctypeInputs at h3
        rw [if_neg (by simp [libCfg])] at h3
        cases h3; rfl
      simp only [State.apply, g1]
      refine ⟨fun c e hd => ?_, hp.Cd, hp.Ci⟩
      obtain ⟨i, w, k1, k2, k3⟩ := dimFor_ok hd
      have k2' : (s.views.set v { view with dims := (view.dims.erase col).set col d }).get? i =
        some w := k2
      have k1' : s.Zv c = some i := k1
      rw [Dict.get?_set] at k2'
      split at k2'
      · rename_i ei
        subst ei
        cases k2'
        have k3' : ((view.dims.erase col).set col d).get? c = some e := k3
        rw [Dict.get?_set] at k3'
        split at k3'
        · cases k3'
          exact ⟨g5.trans ho.1, g4.trans he⟩
        · rename_i hc
          rw [Dict.get?_erase_ne _ hc] at k3'
          exact hp.kind c e (dimFor_mk k1' h2 k3')
      · exact hp.kind c e (dimFor_mk k1' k2' k3)
    · obtain ⟨e, he⟩ := updateCctype_err h (hyp := hyp) (hyp' := hyp') hg
      simp only [State.apply, he]; exact hp
  | alpha a =>
    simp only [State.apply, State.setAlpha, Crp.setHypers]
    split <;>
    · exact plain_keeps hp (keeps_of (fun c i h => h) fun i v hv =>
        ⟨v, hv, fun c d hd => ⟨d, hd, rfl, rfl⟩⟩) rfl rfl
  | viewAlpha v a =>
    simp only [State.apply]
    unfold State.viewAlpha onView
    cases hv : s.views.get? v with
    | none => exact hp
    | some w =>
      simp only [View.setAlpha, Crp.setHypers]
      split <;> rename_i hh <;> split at hh <;> cases hh
      · exact plain_keeps hp (keeps_setView hv fun c d' hd' => ⟨d', hd', rfl, rfl⟩) rfl rfl
      · exact plain_keeps hp (keeps_setView hv fun c d' hd' => ⟨d', hd', rfl, rfl⟩) rfl rfl
  | hypers c hy =>
    simp only [State.apply]
    refine plain_keeps hp (h.transitionDimHypers_keeps c hy) ?_ ?_ <;>
    · unfold State.transitionDimHypers
      repeat' split
      all_goals rfl
  | row i r z =>
    simp only [State.apply]
    by_cases hn : s.nRows = 1
    · unfold State.viewRow; rw [if_pos hn]; exact hp
    · cases hv : s.views.get? i with
      | none => unfold State.viewRow onView; rw [if_neg hn]; simp only [hv]; exact hp
      | some v =>
        by_cases hr : r < s.nRows
        · obtain ⟨v', h1, -, -, -, h2⟩ := h.viewRow_ok hL hv hr hn z
          rw [h1]
          exact plain_keeps hp (keeps_setView hv fun c d' hd' => same_dims h2 hd') rfl rfl
        · have ho := h.views.view i v hv
          have hs : v.seat r = none := by
            by_contra hne; exact hr ((ho.rows r).mp hne)
          obtain ⟨e, he⟩ := gibbsTransitionRow_missing (X := s.tbl) hs z
          unfold State.viewRow onView
          rw [if_neg hn]
          simp only [hv, he]
          exact plain_keeps hp (keeps_setView hv fun c d' hd' => ⟨d', hd', rfl, rfl⟩) rfl rfl
  | column c m aux u =>
    obtain ⟨h1, h2, h3, h4⟩ := hl
    by_cases hg : s.anyConditional plainCfg = false ∧ s.Cd = [] ∧ ∃ d, s.dimFor c = .ok d
    · obtain ⟨g1, g2, d, g3⟩ := hg
      obtain ⟨s', cur, new, va, f1, f2, f3, f4, f5, -⟩ := h.gibbsTransitionDim_ok (cfg := plainCfg) g3 g1 g2 h1 h2.1
        (partners_of h3) h2.2.1 h2.2.2 (h4 d g3)
      simp only [State.apply, f1]
      exact plain_keeps hp (f4.keeps h g3 f5) f4.Cd f4.Ci
    · obtain ⟨e, he⟩ := gibbsTransitionDim_err (m := m) (aux := aux) (u := u) hg
      simp only [State.apply, he]; exact hp

/-- Every history of numerical calls is legal. -/
theorem plain_legalRun {s : State libCat} (h : State.Inv s) (hp : PlainState s)
    {ops : List (State.Op libCat)} (ho : ∀ op ∈ ops, PlainOp op) : stateLegalRun plainCfg s ops := by
  induction ops generalizing s with
  | nil => trivial
  | cons op ops ih =>
    have h1 := ho op (by simp)
    exact ⟨plain_legal hp h1, ih (inv_apply (catOf_lawful fun _ => True) h op (plain_legal hp h1))
      (plain_apply h hp h1) fun op' h' => ho op' (by simp [h'])⟩

end Cgpm.Props
