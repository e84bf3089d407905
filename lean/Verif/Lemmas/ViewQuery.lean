import Verif.Spec.ViewQuery
import Verif.Props.Network
import Verif.Lemmas.ViewSpec
import Verif.Lemmas.CrpProps

/-! The network of a view computes the mixture densities. -/
namespace Cgpm.Props
open Cgpm Cgpm.View Cgpm.Net

variable {C : Cat} {Ω : Type}

theorem Fl.ofLogP_bot' : Fl.ofLogP (⊥ : LogP) = .ninf := rfl

theorem mass_ofLogP_add (a b : LogP) :
    mass (Fl.ofLogP (a + b)) = mass (Fl.ofLogP a) * mass (Fl.ofLogP b) := by
  cases a with
  | none => change mass (Fl.ofLogP (⊥ : LogP)) = mass .ninf * _; simp [mass, Fl.ofLogP_bot']
  | some x =>
    cases b with
    | none => change mass (Fl.ofLogP (⊥ : LogP)) = _ * mass .ninf; simp [mass, Fl.ofLogP_bot']
    | some y =>
      change ENNReal.ofReal (Real.exp (x + y)) = ENNReal.ofReal (Real.exp x) * ENNReal.ofReal (Real.exp y)
      rw [Real.exp_add, ENNReal.ofReal_mul (Real.exp_pos x).le]

theorem mass_ofLogP_zero : mass (Fl.ofLogP (0 : LogP)) = 1 := by
  change ENNReal.ofReal (Real.exp 0) = 1
  simp

theorem mass_ofLogP_sum (l : List LogP) :
    mass (Fl.ofLogP l.sum) = (l.map fun w => mass (Fl.ofLogP w)).prod := by
  induction l with
  | nil => simpa using mass_ofLogP_zero
  | cons a t ih => rw [List.sum_cons, mass_ofLogP_add, ih, List.map_cons, List.prod_cons]

theorem map_eq_of_forall₂ {α β γ : Type} {f : β → γ} {g : α → γ} {l : List α} {m : List β}
    (h : List.Forall₂ (fun a b => f b = g a) l m) : m.map f = l.map g := by
  induction h with
  | nil => rfl
  | cons h _ ih => rw [List.map_cons, List.map_cons, h, ih]

theorem crp_simKeys (sim : Simulator C Ω) (z : Nat) (crp : Crp) : SimKeys (crpCgpm sim z crp) := by
  intro ω r ts constr ins d hts hd
  simp only [crpCgpm] at hd
  cases hd
  constructor
  · unfold Dict.WF Dict.keys; simpa [Function.comp_def] using hts
  · intro k; simp [Dict.keys]

theorem dim_simKeys (sim : Simulator C Ω) (z : Nat) (d : Dim C) : SimKeys (dimCgpm sim z d) := by
  intro ω r ts constr ins d' hts hd
  simp only [dimCgpm] at hd
  split at hd
  · split at hd
    · cases hd
    · cases hd
      constructor
      · unfold Dict.WF Dict.keys; simpa [Function.comp_def] using hts
      · intro k; simp [Dict.keys]
  · cases hd
  · cases hd

/-- The components of the network of a view. -/
noncomputable def nodes (sim : Simulator C Ω) (z : Nat) (v : View C) :
    List (NetCgpm (Option Row) (Val C) Ω) :=
  crpCgpm sim z v.crp :: v.dims.vals.map (dimCgpm sim z)

theorem mem_nodes {sim : Simulator C Ω} {z : Nat} {v : View C}
    {c : NetCgpm (Option Row) (Val C) Ω} (h : c ∈ nodes sim z v) :
    c = crpCgpm sim z v.crp ∨ ∃ p ∈ v.dims, c = dimCgpm sim z p.2 := by
  unfold nodes Dict.vals at h
  simp only [List.mem_cons, List.mem_map, exists_exists_and_eq_and] at h
  rcases h with h | ⟨p, hp, rfl⟩
  · exact .inl h
  · exact .inr ⟨p, hp, rfl⟩

theorem nodes_simKeys (sim : Simulator C Ω) (z : Nat) (v : View C) :
    ∀ c ∈ nodes sim z v, SimKeys c := by
  intro c hc
  rcases mem_nodes hc with rfl | ⟨p, -, rfl⟩
  · exact crp_simKeys sim z v.crp
  · exact dim_simKeys sim z p.2

theorem nodes_wellFormed {sim : Simulator C Ω} {z : Nat} {v : View C} {X : C.Tbl} (hI : Inv X v)
    (hs : Schema v z) : WellFormed (nodes sim z v) := by
  have hidx : ∀ p ∈ v.dims, p.2.index = p.1 := fun p hp => (hI.dim p hp).index
  have hout : ∀ i (c : NetCgpm (Option Row) (Val C) Ω), (nodes sim z v)[i]? = some c →
      (i = 0 ∧ c = crpCgpm sim z v.crp) ∨ ∃ j p, i = j + 1 ∧ v.dims[j]? = some p ∧
        c = dimCgpm sim z p.2 := by
    intro i c h
    cases i with
    | zero => simp only [nodes, List.getElem?_cons_zero, Option.some.injEq] at h; exact .inl ⟨rfl, h.symm⟩
    | succ j =>
      simp only [nodes, Dict.vals, List.getElem?_cons_succ, List.getElem?_map, Option.map_map,
        Option.map_eq_some_iff] at h
      obtain ⟨p, hp, rfl⟩ := h
      exact .inr ⟨j, p, rfl, hp, rfl⟩
  refine ⟨?_, ?_, ?_⟩
  · intro c hc
    rcases mem_nodes hc with rfl | ⟨p, -, rfl⟩ <;> simp [crpCgpm, dimCgpm]
  · intro i j a b ha hb x hxa hxb
    rcases hout i a ha with ⟨rfl, rfl⟩ | ⟨i', p, rfl, hp, rfl⟩ <;>
    rcases hout j b hb with ⟨rfl, rfl⟩ | ⟨j', q, rfl, hq, rfl⟩
    · rfl
    · simp only [crpCgpm, dimCgpm, List.mem_singleton] at hxa hxb
      have hq' := List.mem_of_getElem? hq
      exact absurd (show z ∈ v.dims.keys from List.mem_map.mpr ⟨q, hq', by
        rw [← hidx q hq', ← hxb, hxa]⟩) hs.token
    · simp only [crpCgpm, dimCgpm, List.mem_singleton] at hxa hxb
      have hp' := List.mem_of_getElem? hp
      exact absurd (show z ∈ v.dims.keys from List.mem_map.mpr ⟨p, hp', by
        rw [← hidx p hp', ← hxa, hxb]⟩) hs.token
    · simp only [dimCgpm, List.mem_singleton] at hxa hxb
      have hk : p.1 = q.1 := by
        rw [← hidx p (List.mem_of_getElem? hp), ← hidx q (List.mem_of_getElem? hq), ← hxa, hxb]
      have hi : i' < v.dims.length := (List.getElem?_eq_some_iff.mp hp).1
      have hj : j' < v.dims.length := (List.getElem?_eq_some_iff.mp hq).1
      have h1 : (Dict.keys v.dims)[i']? = some p.1 := by simp [Dict.keys, hp]
      have h2 : (Dict.keys v.dims)[j']? = some p.1 := by simp [Dict.keys, hq, hk]
      have := (List.getElem?_inj (by simpa [Dict.keys] using hi) hI.wf).mp (h1.trans h2.symm)
      omega
  · intro i hcyc
    let out : Nat → Nat := fun i => match (nodes sim z v)[i]? with
      | some c => c.outputs.headD 0
      | none => 0
    let E : Nat → Nat → Prop := fun a b => ∃ d, v.dims.get? b = some d ∧ (a ∈ d.inputs ∨ a = z)
    have hE : ∀ a b, Feeds (nodes sim z v) a b → E (out a) (out b) := by
      rintro a b ⟨ca, cb, ha, hb, x, hxa, hxb⟩
      rcases hout b cb hb with ⟨rfl, rfl⟩ | ⟨j, q, rfl, hq, rfl⟩
      · simp [crpCgpm] at hxb
      · have hq' := List.mem_of_getElem? hq
        have hob : out (j + 1) = q.1 := by
          simp only [out, hb, dimCgpm, List.headD_cons]; exact hidx q hq'
        have hoa : out a = x := by
          simp only [out, ha]
          rcases hout a ca ha with ⟨-, rfl⟩ | ⟨-, p, -, -, rfl⟩ <;>
          simp only [crpCgpm, dimCgpm, List.mem_singleton, List.headD_cons] at hxa ⊢ <;>
          exact hxa.symm
        rw [hob, hoa]
        refine ⟨q.2, Dict.get?_of_mem hI.wf hq', ?_⟩
        simp only [dimCgpm, List.mem_cons] at hxb
        exact hxb.symm
    have hc : Relation.TransGen E (out i) (out i) := Relation.TransGen.lift out (fun a b h => hE a b h) _ _ hcyc
    have hb : ∀ a b, Relation.TransGen E a b → b ≠ z := by
      intro a b h
      have : ∃ a', E a' b := by
        cases h with
        | single h => exact ⟨_, h⟩
        | tail _ h => exact ⟨_, h⟩
      obtain ⟨a', d, hd, -⟩ := this
      rintro rfl
      exact hs.token (Dict.mem_keys_of_get? hd)
    have hgo : ∀ a b, Relation.TransGen E a b → a ≠ z → Relation.TransGen
        (fun a b => ∃ d, v.dims.get? b = some d ∧ a ∈ d.inputs) a b := by
      intro a b h ha
      induction h with
      | single h =>
        obtain ⟨d, hd, h⟩ := h
        exact .single ⟨d, hd, h.resolve_right ha⟩
      | tail h1 h2 ih =>
        obtain ⟨d, hd, h⟩ := h2
        exact .tail ih ⟨d, hd, h.resolve_right (hb _ _ h1)⟩
    exact hs.acyclic _ (hgo _ _ hc (hb _ _ hc))

/-- The network of a view is accepted. -/
theorem buildNetwork_ok {ord : PyOrder} (hord : ord.Lists) {sim : Simulator C Ω} {z : Nat}
    {v : View C} {X : C.Tbl} (hI : Inv X v) (hs : Schema v z) :
    ∃ net, v.buildNetwork ord sim z = .ok net ∧ net.accuracy = 1 := by
  obtain ⟨net, h⟩ := (C26_accepted_iff ord hord (nodes sim z v) (some 1)).1 (nodes_wellFormed hI hs)
  exact ⟨net, h, (C26_accepted_network ord hord _ _ net h).2.1⟩

/-! ### the weight of fully specified constraints -/

/-- `D` holds the cluster `k` and the cells `D'`. -/
structure Holds (z : Nat) (k : Tab) (D' : Col → Option C.Cell) (D : Dict Nat (Val C)) : Prop where
  wf : D.WF
  cluster : D.get? z = some (.tab k)
  cell : ∀ c, c ≠ z → D.get? c = (D' c).map .cell

theorem validObs_spec (x : C.Cell) (ins : List C.Cell) :
    validObs x ins = match x, ins.any Option.isNone with
      | some y, false => some (y, ins.reduceOption)
      | _, _ => none := by
  have h : allVals ins = if ins.any Option.isNone then none else some ins.reduceOption := by
    induction ins with
    | nil => rfl
    | cons a t ih =>
      cases a with
      | none => simp [allVals]
      | some y =>
        simp only [allVals, ih, List.any_cons, Option.isNone_some, Bool.false_or,
          List.reduceOption_cons_of_some]
        split <;> simp
  unfold validObs
  rw [h]
  cases x with
  | none => rfl
  | some y => cases ins.any Option.isNone <;> rfl

/-- The row is not one of the rows of the view. -/
def NewRow (v : View C) (rowid : Option Row) : Prop := ∀ r, rowid = some r → v.seat r = none

theorem dim_logpdf_mass {X : C.Tbl} {v : View C} (hI : Inv X v) {p : Col × Dim C}
    (hp : p ∈ v.dims) {rowid : Option Row} (hr : NewRow v rowid) (k : Tab) (x : C.Cell)
    (ins : List C.Cell) :
    ∃ w, p.2.logpdf rowid k x ins = .ok w ∧ mass (Fl.ofLogP w) = cellDensity p.2 k x ins := by
  have hc := columnConsistent_of (hI.dim p hp)
  unfold Dim.logpdf cellDensity
  rw [validObs_spec]
  cases x with
  | none => exact ⟨0, rfl, mass_ofLogP_zero⟩
  | some y =>
    cases ins.any Option.isNone with
    | true => exact ⟨0, rfl, mass_ofLogP_zero⟩
    | false =>
      simp only [Dim.clusterOr]
      cases hk : p.2.clusters.get? k with
      | none =>
        obtain ⟨h1, h2, h3⟩ := hc.template
        refine ⟨_, ?_, rfl⟩
        simp only [Option.getD_none, Comp.logpdf, h1, h2, h3]
        cases rowid <;> rfl
      | some c =>
        refine ⟨_, ?_, rfl⟩
        simp only [Option.getD_some, Comp.logpdf]
        cases rowid with
        | none => rfl
        | some r =>
          have : c.data.get? r = none := by
            cases ho : c.data.get? r with
            | none => rfl
            | some o =>
              have := ((hc.values k c hk r o).mp ho).1
              rw [hr r rfl] at this; cases this
          simp only [Option.bind_some, this]

theorem mem_occupied {X : C.Tbl} {v : View C} (hI : Inv X v) (k : Tab) :
    k ∈ occupied v ↔ k ∈ v.crp.counts.keys := by
  unfold occupied
  rw [Crp.occupied_iff hI.crp, List.mem_toFinset, List.mem_map]
  constructor
  · rintro ⟨⟨r, x⟩, hm, rfl⟩; exact ⟨r, Dict.get?_of_mem hI.crp.wfData hm⟩
  · rintro ⟨r, hr⟩; exact ⟨(r, k), Dict.mem_of_get? hr, rfl⟩

theorem prior_eq {X : C.Tbl} {v : View C} (hI : Inv X v) (k : Tab) :
    mass (Fl.fin (Crp.calcPredictiveLogp k v.crp.N v.crp.counts v.crp.alpha)) = prior v k := by
  unfold mass prior
  simp only []
  rw [pr_predictive hI.crp hI.alpha]
  have hc := consistent_of hI
  have hN : ((({r | v.seat r ≠ none}.ncard : ℕ) : ℝ)) = (v.crp.N : ℝ) := by
    rw [hc.total]; simp
  rw [hN]
  congr 2
  unfold wt
  cases h : v.crp.counts.get? k with
  | none =>
    have : k ∉ occupied v := by
      rw [mem_occupied hI]; exact (Dict.get?_eq_none_iff _ _).mp h
    simp [this]
  | some n =>
    have : k ∈ occupied v := by rw [mem_occupied hI]; exact Dict.mem_keys_of_get? h
    rw [if_pos this]
    simp only [((hc.counts k n).mp h).1]
    push_cast; rfl

theorem crp_logpdf_mass {X : C.Tbl} {v : View C} (hI : Inv X v) {rowid : Option Row}
    (hr : NewRow v rowid) (k : Tab) :
    mass (Fl.ofLogP (v.crp.logpdf rowid k)) = prior v k := by
  rw [← prior_eq hI]
  unfold Crp.logpdf
  cases rowid with
  | none => rfl
  | some r =>
    have : v.crp.data.get? r = none := hr r rfl
    simp only [Option.bind_some, this]; rfl

theorem cellInputs_ok {ins : Look (Val C)} {D' : Col → Option C.Cell} (l : List Col)
    (h : ∀ i ∈ l, ins i = (D' i).map .cell ∧ D' i ≠ none) :
    cellInputs ins l = .ok (l.map fun i => (D' i).getD none) := by
  induction l with
  | nil => rfl
  | cons i t ih =>
    obtain ⟨h1, h2⟩ := h i (by simp)
    obtain ⟨x, hx⟩ := Option.ne_none_iff_exists'.mp h2
    have := ih fun j hj => h j (by simp [hj])
    simp only [cellInputs, h1, hx, Option.map_some, this, Except.map, List.map_cons,
      Option.getD_some]

theorem closed_weight {ord : PyOrder} (hord : ord.Lists) {sim : Simulator C Ω} {z : Nat}
    {v : View C} {X : C.Tbl} (hI : Inv X v) (hs : Schema v z)
    {net : Network (Option Row) (Val C) Ω} (hb : v.buildNetwork ord sim z = .ok net)
    {rowid : Option Row} (hr : NewRow v rowid) {k : Tab} {D' : Col → Option C.Cell}
    {D : Dict Nat (Val C)} (hD : Holds z k D' D) (hin : InputsIn v D') (ω : Nat → Ω) :
    ∃ s w, weightedSample ord ω rowid net [] D [] = .ok (s, w) ∧
      mass (Fl.ofLogP w) = prior v k * rowDensity v k D' := by
  have hidx : ∀ p ∈ v.dims, p.2.index = p.1 := fun p hp => (hI.dim p hp).index
  have hne : ∀ p ∈ v.dims, p.1 ≠ z := fun p hp e =>
    hs.token (e ▸ List.mem_map.mpr ⟨p, hp, rfl⟩)
  have hkey : ∀ c, c ≠ z → (c ∈ D.keys ↔ D' c ≠ none) := by
    intro c hc
    rw [← not_iff_not, ← Dict.get?_eq_none_iff, hD.cell c hc]
    cases D' c <;> simp
  have hzk : z ∈ D.keys := Dict.mem_keys_of_get? hD.cluster
  have hclosed : ∀ c ∈ nodes sim z v, (∃ o ∈ c.outputs, o ∈ D.keys) → ∀ i ∈ c.inputs,
      i ∈ D.keys := by
    rintro c hc ⟨o, ho, hoD⟩ i hi
    rcases mem_nodes hc with rfl | ⟨p, hp, rfl⟩
    · simp [crpCgpm] at hi
    · simp only [dimCgpm, List.mem_singleton] at ho
      simp only [dimCgpm, List.mem_cons] at hi
      rcases hi with rfl | hi
      · exact hzk
      · have hg := Dict.get?_of_mem hI.wf hp
        rw [ho, hidx p hp] at hoD
        have hiz : i ≠ z := fun e => hs.tokenInput _ _ hg (e ▸ hi)
        rw [hkey i hiz]
        exact hin _ _ hg ((hkey _ (hne p hp)).mp hoD) i hi
  have hneed : ∀ x, Needed (nodes sim z v) (· ∈ ([] : List Nat)) (· ∈ D.keys) x → x ∈ D.keys := by
    intro x hx
    induction hx with
    | target h => simp at h
    | input hc ho _ hv ih => exact hclosed _ hc ⟨_, ho, ih⟩ _ hv
    | constr hc ho h hv => exact hclosed _ hc ⟨_, ho, h⟩ _ hv
  have hq : GoodQuery (nodes sim z v) [] D [] :=
    ⟨hD.wf, Dict.wf_nil, List.nodup_nil, by simp, by simp⟩
  -- what a component answers when its inputs are those of `D`
  have hlp : ∀ p ∈ v.dims, p.1 ∈ D.keys → ∀ ins : Look (Val C),
      (∀ i ∈ (dimCgpm sim z p.2).inputs, ins i = D.get? i) →
      ∃ w, (dimCgpm sim z p.2).logpdf rowid (constrFor (dimCgpm sim z p.2) D.get?) ins = .ok w ∧
        mass (Fl.ofLogP w) = (match D' p.1 with
          | none => 1
          | some x => cellDensity p.2 k x (p.2.inputs.map fun i => (D' i).getD none)) := by
    intro p hp hpD ins hins
    have hg := Dict.get?_of_mem hI.wf hp
    have hx0 := (hkey _ (hne p hp)).mp hpD
    obtain ⟨x, hx⟩ := Option.ne_none_iff_exists'.mp hx0
    have hz : ins z = some (.tab k) := by
      rw [hins z (by simp [dimCgpm]), hD.cluster]
    have hci : cellInputs ins p.2.inputs = .ok (p.2.inputs.map fun i => (D' i).getD none) := by
      refine cellInputs_ok _ fun i hi => ?_
      have hiz : i ≠ z := fun e => hs.tokenInput _ _ hg (e ▸ hi)
      refine ⟨?_, hin _ _ hg hx0 i hi⟩
      rw [hins i (by simp [dimCgpm, hi]), hD.cell i hiz]
    have hcf : constrFor (dimCgpm sim z p.2) D.get? p.2.index = some (.cell x) := by
      simp only [constrFor, dimCgpm, List.mem_singleton, if_true]
      rw [hidx p hp, hD.cell _ (hne p hp), hx]; rfl
    obtain ⟨w, hw, hm⟩ := dim_logpdf_mass hI hp hr k x (p.2.inputs.map fun i => (D' i).getD none)
    refine ⟨w, ?_, by rw [hx]; exact hm⟩
    simp only [dimCgpm] at hcf ⊢
    simp only [hz, hci, hcf, hw]
  have hclp : ∀ ins : Look (Val C),
      (crpCgpm sim z v.crp).logpdf rowid (constrFor (crpCgpm sim z v.crp) D.get?) ins
        = .ok (v.crp.logpdf rowid k) := by
    intro ins
    simp only [crpCgpm, constrFor, List.mem_singleton, if_true, hD.cluster]
  cases hrun : weightedSample ord ω rowid net [] D [] with
  | error e =>
    exfalso
    obtain ⟨c, hc, ⟨o, ho, hact⟩, h⟩ := C27_failure ord hord _ _ net hb (nodes_simKeys sim z v)
      [] D [] hq ω rowid e hrun
    have hoD : o ∈ D.keys := hact.elim (hneed o) id
    rcases h with ⟨-, x, hx, -, hxD, -⟩ | ⟨sample, hsa, -, ⟨-, h⟩ | ⟨l, ts, hts, hk, -⟩⟩
    · exact hxD (hclosed c hc ⟨o, ho, hoD⟩ x hx)
    · rcases mem_nodes hc with rfl | ⟨p, hp, rfl⟩
      · rw [hclp] at h; cases h
      · have hoD' : p.1 ∈ D.keys := by
          simp only [dimCgpm, List.mem_singleton] at ho
          rw [← hidx p hp, ← ho]; exact hoD
        obtain ⟨w, hw, -⟩ := hlp p hp hoD' (inputsFrom (dimCgpm sim z p.2) sample (Dict.get? []))
          (by
            intro i hi
            have := hclosed _ hc ⟨o, ho, hoD⟩ i hi
            obtain ⟨y, hy⟩ := Dict.exists_of_mem_keys this
            unfold inputsFrom
            rw [if_pos hi, hsa i y hy, hy]; rfl)
        rw [hw] at h; cases h
    · obtain ⟨t, l', rfl⟩ := List.exists_cons_of_ne_nil hts
      obtain ⟨-, h1, h2⟩ := hk t (by simp)
      exact h1 (hneed t h2)
  | ok r =>
    obtain ⟨s, w⟩ := r
    obtain ⟨hkeys, hag, -, ⟨ws, hw, hf⟩, -⟩ := C27_weighted_sample ord hord _ _ net hb
      (nodes_simKeys sim z v) [] D [] hq ω rowid s w hrun
    refine ⟨s, w, rfl, ?_⟩
    have hsD : ∀ c ∈ nodes sim z v, (∃ o ∈ c.outputs, o ∈ D.keys) → ∀ i ∈ c.inputs,
        inputsFrom c s.get? (Dict.get? []) i = D.get? i := by
      intro c hc ho i hi
      obtain ⟨y, hy⟩ := Dict.exists_of_mem_keys (hclosed c hc ho i hi)
      unfold inputsFrom
      rw [if_pos hi, hag i y hy, hy]; rfl
    cases ws with
    | nil => cases hf
    | cons w0 ws =>
      rw [List.forall₂_cons] at hf
      obtain ⟨h0, hf⟩ := hf
      have hw0 := h0.1 ⟨z, by simp [crpCgpm], hzk⟩
      rw [hclp] at hw0
      cases hw0
      rw [hw, List.sum_cons, mass_ofLogP_add, crp_logpdf_mass hI hr, mass_ofLogP_sum]
      congr 1
      unfold rowDensity
      congr 1
      unfold Dict.vals at hf
      rw [List.map_map, List.forall₂_map_left_iff] at hf
      have hf' : List.Forall₂ (fun (p : Col × Dim C) wc => mass (Fl.ofLogP wc) =
          (match D' p.1 with
          | none => 1
          | some x => cellDensity p.2 k x (p.2.inputs.map fun i => (D' i).getD none)))
          v.dims ws := by
        have : List.Forall₂ (fun (p : Col × Dim C) wc => p ∈ v.dims → mass (Fl.ofLogP wc) =
          (match D' p.1 with
          | none => 1
          | some x => cellDensity p.2 k x (p.2.inputs.map fun i => (D' i).getD none)))
          v.dims ws := by
          refine hf.imp fun p wc hpw hp => ?_
          have hmem : dimCgpm sim z p.2 ∈ nodes sim z v := by
            unfold nodes Dict.vals
            exact List.mem_cons_of_mem _ (List.mem_map.mpr ⟨p.2, List.mem_map.mpr ⟨p, hp, rfl⟩, rfl⟩)
          have hoiff : (∃ o ∈ (dimCgpm sim z p.2).outputs, o ∈ D.keys) ↔ p.1 ∈ D.keys := by
            simp [dimCgpm, hidx p hp]
          by_cases hpD : p.1 ∈ D.keys
          · have h1 := hpw.1 (hoiff.mpr hpD)
            obtain ⟨w', hw', hm'⟩ := hlp p hp hpD _ (hsD _ hmem (hoiff.mpr hpD))
            have : wc = w' := by
              simp only [Function.comp_apply] at h1
              rw [hw'] at h1; cases h1; rfl
            rw [this, hm']
          · have h1 := hpw.2 (fun h => hpD (hoiff.mp h))
            have h2 : D' p.1 = none := by
              by_contra h; exact hpD ((hkey _ (hne p hp)).mpr h)
            rw [h1, h2, mass_ofLogP_zero]
        rw [List.forall₂_iff_get] at this ⊢
        exact ⟨this.1, fun i h1 h2 => this.2 i h1 h2 (List.get_mem _ _)⟩
      exact map_eq_of_forall₂ hf'

end Cgpm.Props
