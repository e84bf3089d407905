import Verif.Spec.Schema
import Verif.Lemmas.Dict
import Mathlib.Data.List.Forall2
import Mathlib.Data.List.TakeWhile

/-! Facts about reading a data set by a schema. -/
namespace Cgpm.Schema

variable {V : Type} [DecidableEq V]

/-! ### The mapping of the values -/

theorem unique_mem (col : Column V) (x : Option V) : x ∈ unique col ↔ x ∈ col := by
  simp [unique]

theorem unique_nodup (col : Column V) : (unique col).Nodup := by
  unfold unique
  exact List.nodup_reverse.mpr (List.nodup_dedup _)

theorem reduceOption_nodup {l : Column V} (h : l.Nodup) : l.reduceOption.Nodup := by
  unfold List.reduceOption
  exact h.filterMap (fun a b c hb hc => by
    simp only [id] at hb hc
    rw [Option.mem_def] at hb hc
    rw [hb, hc])

theorem zipIdx_get? {u : List V} (h : u.Nodup) (n : Nat) (v : V) (c : Nat) :
    Dict.get? (u.zipIdx n) v = some c ↔ n ≤ c ∧ u[c - n]? = some v := by
  induction u generalizing n with
  | nil => simp
  | cons a u ih =>
    rw [List.zipIdx_cons, Dict.get?_cons]
    obtain ⟨h1, h2⟩ := List.nodup_cons.mp h
    by_cases hav : a = v
    · subst hav
      simp only [if_true, Option.some.injEq]
      constructor
      · rintro rfl; simp
      · rintro ⟨hn, hc⟩
        rcases Nat.lt_or_ge n c with hlt | hge
        · obtain ⟨k, hk⟩ : ∃ k, c - n = k + 1 := ⟨c - n - 1, by omega⟩
          rw [hk, List.getElem?_cons_succ] at hc
          exact absurd (List.mem_of_getElem? hc) h1
        · omega
    · rw [if_neg hav, ih h2]
      constructor
      · rintro ⟨hn, hc⟩
        refine ⟨by omega, ?_⟩
        obtain ⟨k, hk⟩ : ∃ k, c - n = k + 1 := ⟨c - n - 1, by omega⟩
        rw [hk, List.getElem?_cons_succ]
        rwa [show c - (n + 1) = k by omega] at hc
      · rintro ⟨hn, hc⟩
        rcases Nat.lt_or_ge n c with hlt | hge
        · obtain ⟨k, hk⟩ : ∃ k, c - n = k + 1 := ⟨c - n - 1, by omega⟩
          rw [hk, List.getElem?_cons_succ] at hc
          exact ⟨by omega, by rwa [show c - (n + 1) = k by omega]⟩
        · rw [show c - n = 0 by omega] at hc
          simp at hc
          exact absurd hc hav

/-- The distinct values of a column, in the order of their codes. -/
def valuesOf (sort : Column V → Column V) (col : Column V) : List V :=
  (sort (unique col)).reduceOption

theorem valuesOf_nodup {sort : Column V → Column V} (hs : SortsAll sort) (col : Column V) :
    (valuesOf sort col).Nodup :=
  reduceOption_nodup ((hs _).nodup_iff.mpr (unique_nodup col))

theorem valuesOf_mem {sort : Column V → Column V} (hs : SortsAll sort) (col : Column V) (v : V) :
    v ∈ valuesOf sort col ↔ some v ∈ col := by
  unfold valuesOf
  rw [List.reduceOption_mem_iff, (hs _).mem_iff, unique_mem]

theorem valmap_get? {sort : Column V → Column V} (hs : SortsAll sort) (col : Column V) (v : V)
    (c : Nat) : (buildValmap sort col).get? v = some c ↔ (valuesOf sort col)[c]? = some v := by
  unfold buildValmap
  rw [show Dict.get? ((sort (unique col)).reduceOption.zipIdx) v =
    Dict.get? ((valuesOf sort col).zipIdx 0) v from rfl, zipIdx_get? (valuesOf_nodup hs col)]
  simp

theorem valmap_length {sort : Column V → Column V} (col : Column V) :
    (buildValmap sort col).length = (valuesOf sort col).length := by
  simp [buildValmap, valuesOf]

/-! ### The data frame -/

theorem get?_replaceNA (na : V) (df : Dict Str (Column V)) (name : Str) :
    (replaceNA na df).get? name =
      (df.get? name).map fun col => col.map fun x => if x = some na then none else x := by
  unfold replaceNA
  induction df with
  | nil => rfl
  | cons p t ih =>
    obtain ⟨k, c⟩ := p
    rw [List.map_cons, Dict.get?_cons, Dict.get?_cons, ih]
    split <;> rfl

/-- The cleaned column. -/
def cleaned (na : V) (col : Column V) : Column V :=
  col.map fun x => if x = some na then none else x

theorem cellOf_eq {na : V} {df : Dict Str (Column V)} {name : Str} {col : Column V}
    (h : df.get? name = some col) (r : Nat) :
    cellOf na df name r = ((cleaned na col)[r]?).getD none := by
  unfold cellOf cleaned
  rw [h, List.getElem?_map]
  rcases hx : col[r]? with _ | _ | v
  · simp [hx]
  · simp [hx]
  · simp [hx]

theorem observed_iff {na : V} {df : Dict Str (Column V)} {name : Str} {col : Column V}
    (h : df.get? name = some col) (v : V) :
    observed na df name v ↔ some v ∈ cleaned na col := by
  unfold observed
  constructor
  · rintro ⟨r, hr⟩
    rw [cellOf_eq h] at hr
    cases hx : (cleaned na col)[r]? with
    | none => rw [hx] at hr; simp at hr
    | some x =>
      rw [hx] at hr
      simp at hr
      subst hr
      exact List.mem_of_getElem? hx
  · intro hm
    obtain ⟨r, hr⟩ := List.getElem?_of_mem hm
    exact ⟨r, by rw [cellOf_eq h, hr]; rfl⟩

theorem codes_valmap {sort : Column V → Column V} (hs : SortsAll sort) {na : V}
    {df : Dict Str (Column V)} {name : Str} {col : Column V} (h : df.get? name = some col) :
    Codes na df name (buildValmap sort (cleaned na col))
      (buildValmap sort (cleaned na col)).length where
  total v := by
    rw [observed_iff h, ← valuesOf_mem hs]
    constructor
    · intro hm
      obtain ⟨c, hc⟩ := List.getElem?_of_mem hm
      exact ⟨c, (valmap_get? hs _ _ _).mpr hc⟩
    · rintro ⟨c, hc⟩
      exact List.mem_of_getElem? ((valmap_get? hs _ _ _).mp hc)
  own v w c hv hw := by
    rw [valmap_get? hs] at hv hw
    rw [hv] at hw
    cases hw; rfl
  dense c := by
    rw [valmap_length]
    constructor
    · intro hc
      exact ⟨_, (valmap_get? hs _ _ _).mpr (List.getElem?_eq_getElem hc)⟩
    · rintro ⟨v, hv⟩
      rw [valmap_get? hs] at hv
      exact (List.getElem?_eq_some_iff.mp hv).1

/-! ### The loop -/

theorem parseCols_ok {float : Str → Option ℝ} {sort : Column V → Column V}
    {df : Dict Str (Column V)} {schema : List Entry} {os : List (ColOut V)}
    (h : parseCols float sort df schema = .ok os) :
    List.Forall₂ (fun e o => parseCol float sort df e = .ok o) (kept schema) os := by
  induction schema generalizing os with
  | nil => cases h; exact List.Forall₂.nil
  | cons e es ih =>
    unfold parseCols at h
    unfold kept
    by_cases he : e.type = "ignore".toList
    · rw [if_pos he] at h
      rw [List.filter_cons_of_neg (by simp [he])]
      exact ih h
    · rw [if_neg he] at h
      rw [List.filter_cons_of_pos (by simpa using he)]
      cases ho : parseCol float sort df e with
      | error x => rw [ho] at h; cases h
      | ok o =>
        rw [ho] at h
        cases hr : parseCols float sort df es with
        | error x => rw [hr] at h; cases h
        | ok os' =>
          rw [hr] at h
          cases h
          exact List.Forall₂.cons ho (ih hr)

theorem parseCols_complete {float : Str → Option ℝ} {sort : Column V → Column V}
    {df : Dict Str (Column V)} {schema : List Entry}
    (h : ∀ e ∈ kept schema, ∃ o, parseCol float sort df e = .ok o) :
    ∃ os, parseCols float sort df schema = .ok os := by
  induction schema with
  | nil => exact ⟨[], rfl⟩
  | cons e es ih =>
    unfold parseCols
    unfold kept at h
    by_cases he : e.type = "ignore".toList
    · rw [if_pos he]
      rw [List.filter_cons_of_neg (by simp [he])] at h
      exact ih h
    · rw [if_neg he]
      rw [List.filter_cons_of_pos (by simpa using he)] at h
      obtain ⟨o, ho⟩ := h e (by simp)
      obtain ⟨os, hos⟩ := ih fun e' he' => h e' (List.mem_cons_of_mem _ he')
      exact ⟨o :: os, by rw [ho, hos]⟩

theorem parseCol_entry {float : Str → Option ℝ} {sort : Column V → Column V}
    {df : Dict Str (Column V)} {e : Entry} {o : ColOut V} (h : parseCol float sort df e = .ok o) :
    o.entry = e ∧ ∃ X, df.get? e.name = some X ∧
      (Nominal e.type → o.X = replaceMap (buildValmap sort X) X ∧
        o.mapping = some (buildValmap sort X)) ∧
      (¬ Nominal e.type → o.X = X.map (Option.map Cell.raw) ∧ o.mapping = none ∧ o.k = none) ∧
      (e.type = "bernoulli".toList → (buildValmap sort X).length = 2 ∧ o.k = none) ∧
      (e.type = "categorical".toList → ∃ ts ks, parseDistargs float [e.name] = .ok (ts, ks) ∧
        o.k = if ks = [none] then some (buildValmap sort X).length else none) := by
  unfold parseCol at h
  cases hX : df.get? e.name with
  | none => rw [hX] at h; cases h
  | some X =>
    rw [hX] at h
    simp only at h
    by_cases hb : e.type = "bernoulli".toList
    · have hne : e.type ≠ "categorical".toList := by rw [hb]; decide
      rw [if_pos hb] at h
      split at h
      · rename_i hl
        cases h
        exact ⟨rfl, X, rfl, fun _ => ⟨rfl, rfl⟩, fun hn => absurd (Or.inl hb) hn,
          fun _ => ⟨hl, rfl⟩, fun hc => absurd hc hne⟩
      · cases h
    · rw [if_neg hb] at h
      by_cases hc : e.type = "categorical".toList
      · rw [if_pos hc] at h
        cases hd : parseDistargs float [e.name] with
        | error x => rw [hd] at h; cases h
        | ok q =>
          obtain ⟨ts, ks⟩ := q
          rw [hd] at h
          cases h
          exact ⟨rfl, X, rfl, fun _ => ⟨rfl, rfl⟩, fun hn => absurd (Or.inr hc) hn,
            fun hb' => absurd hb' hb, fun _ => ⟨ts, ks, rfl, rfl⟩⟩
      · rw [if_neg hc] at h
        cases h
        have hn : ¬ Nominal e.type := fun h => h.elim hb hc
        exact ⟨rfl, X, rfl, fun h => absurd h hn, fun _ => ⟨rfl, rfl, rfl⟩,
          fun hb' => absurd hb' hb, fun hc' => absurd hc' hc⟩

theorem parseCol_length {float : Str → Option ℝ} {sort : Column V → Column V}
    {df : Dict Str (Column V)} {e : Entry} {o : ColOut V} (h : parseCol float sort df e = .ok o)
    {n : Nat} (hn : Rows df n) : o.X.length = n := by
  obtain ⟨-, X, hX, h1, h2, -⟩ := parseCol_entry h
  have := hn _ (Dict.mem_of_get? hX)
  by_cases hN : Nominal e.type
  · rw [(h1 hN).1]; simpa [replaceMap] using this
  · rw [(h2 hN).1]; simpa using this

theorem rows_replaceNA {na : V} {df : Dict Str (Column V)} {n : Nat} (h : Rows df n) :
    Rows (replaceNA na df) n := by
  rintro ⟨k, c⟩ hp
  unfold replaceNA at hp
  rw [List.mem_map] at hp
  obtain ⟨q, hq, he⟩ := hp
  cases he
  simpa using h q hq

/-- The mappings are stored by name: columns of one name have one mapping. -/
theorem valmap_foldl {g : Str → Option (Dict V Nat)} (os : List (ColOut V))
    (h : ∀ o ∈ os, ∀ f, o.mapping = some f → g o.entry.name = some f)
    (acc : Dict Str (Dict V Nat)) (name : Str) :
    ((∃ o ∈ os, o.entry.name = name ∧ o.mapping ≠ none) ∨ acc.get? name = g name ∧ g name ≠ none →
      (os.foldl (fun m o => match o.mapping with
        | some f => m.set o.entry.name f
        | none => m) acc).get? name = g name) := by
  induction os generalizing acc with
  | nil =>
    rintro (⟨o, ho, -⟩ | ⟨h1, -⟩)
    · cases ho
    · exact h1
  | cons o os ih =>
    intro hh
    rw [List.foldl_cons]
    refine ih (fun o' ho' => h o' (List.mem_cons_of_mem _ ho')) _ ?_
    cases hm : o.mapping with
    | none =>
      simp only
      rcases hh with ⟨o', ho', h1, h2⟩ | hh
      · rcases List.mem_cons.mp ho' with rfl | ho'
        · exact absurd hm h2
        · exact Or.inl ⟨o', ho', h1, h2⟩
      · exact Or.inr hh
    | some f =>
      simp only
      have hg := h o (by simp) f hm
      by_cases hn : o.entry.name = name
      · subst hn
        exact Or.inr ⟨by rw [Dict.get?_set_self, hg], by rw [hg]; simp⟩
      · rcases hh with ⟨o', ho', h1, h2⟩ | ⟨h1, h2⟩
        · rcases List.mem_cons.mp ho' with rfl | ho'
          · exact absurd h1 hn
          · exact Or.inl ⟨o', ho', h1, h2⟩
        · exact Or.inr ⟨by rw [Dict.get?_set_ne _ _ (Ne.symm hn), h1], h2⟩

theorem entryAt_transpose {D : List (List (Option (Cell V)))} {n : Nat}
    (hD : ∀ X ∈ D, X.length = n) (hne : D ≠ []) :
    (transpose D).length = n ∧ (∀ row ∈ transpose D, row.length = D.length) ∧
    ∀ r < n, ∀ (j : Nat) X, D[j]? = some X → entryAt (transpose D) r j = some ((X[r]?).getD none) := by
  obtain ⟨X0, t, rfl⟩ := List.exists_cons_of_ne_nil hne
  have hl : (((X0 :: t).head?.map List.length).getD 0) = n := by simpa using hD X0 (by simp)
  unfold transpose
  rw [hl]
  refine ⟨by simp, ?_, fun r hr j X hX => ?_⟩
  · intro row hrow
    rw [List.mem_map] at hrow
    obtain ⟨r, -, rfl⟩ := hrow
    simp
  · unfold entryAt
    rw [List.getElem?_map, List.getElem?_range hr]
    simp only [Option.map_some, List.getElem?_map, hX]

/-- The mapping that is returned for a nominal column. -/
theorem parse_valmap {sort : Column V → Column V} {na : V} {float : Str → Option ℝ}
    {df df' : Dict Str (Column V)} {schema : List Entry} {res : Parsed V}
    (h : parseSchema na float sort schema df = .ok res df') {e : Entry} (he : e ∈ kept schema)
    (hN : Nominal e.type) {col : Column V} (hc : df.get? e.name = some col) :
    res.valmap.get? e.name = some (buildValmap sort (cleaned na col)) := by
  unfold parseSchema at h
  cases hp : parseCols float sort (replaceNA na df) schema with
  | error x => simp only [hp] at h; cases h
  | ok os =>
    simp only [hp] at h
    by_cases hem : os.isEmpty
    · rw [if_pos hem] at h; cases h
    · rw [if_neg hem] at h
      cases h
      have hf := parseCols_ok hp
      have hlen := hf.length_eq
      have hnth : ∀ (j : Nat) (h1 : j < (kept schema).length) (h2 : j < os.length),
          parseCol float sort (replaceNA na df) (kept schema)[j] = .ok os[j] := fun j h1 h2 =>
        (List.forall₂_iff_get.mp hf).2 j h1 h2
      obtain ⟨j, hj⟩ := List.getElem?_of_mem he
      obtain ⟨hlt, rfl⟩ := List.getElem?_eq_some_iff.mp hj
      have hj2 : j < os.length := hlen ▸ hlt
      obtain ⟨hoe, X, hX, h1, -⟩ := parseCol_entry (hnth j hlt hj2)
      have := valmap_foldl (g := fun name =>
        ((replaceNA na df).get? name).map (buildValmap sort)) os (fun o' ho' f hf' => by
          obtain ⟨i, hi⟩ := List.getElem?_of_mem ho'
          obtain ⟨hi2, rfl⟩ := List.getElem?_eq_some_iff.mp hi
          obtain ⟨q0, X', q1, q2, q3, -⟩ := parseCol_entry (hnth i (hlen ▸ hi2) hi2)
          by_cases hN' : Nominal (kept schema)[i].type
          · rw [(q2 hN').2] at hf'
            rw [q0, q1]; exact hf'
          · rw [(q3 hN').2.1] at hf'; cases hf') [] (kept schema)[j].name
        (Or.inl ⟨os[j], List.getElem_mem hj2, by rw [hoe], by rw [(h1 hN).2]; simp⟩)
      rw [get?_replaceNA, hc] at this
      exact this

/-! ### Strings -/

theorem parenGroup_none {s : Str} (h : '(' ∉ s) : parenGroup s = none := by
  induction s with
  | nil => rfl
  | cons c cs ih =>
    unfold parenGroup
    rw [if_neg (fun e => h (by rw [e]; simp)), ih (fun hm => h (List.mem_cons_of_mem _ hm))]

theorem parseDistargs_plain {float : Str → Option ℝ} {s : Str} (h : '(' ∉ s) :
    parseDistargs float [s] = .ok ([s], [none]) := by
  simp [parseDistargs, parseDistarg, parenGroup_none h]

theorem pySplit_none {c : Char} {s : Str} (h : c ∉ s) : pySplit c s = [s] := by
  induction s with
  | nil => rfl
  | cons x xs ih =>
    unfold pySplit
    rw [if_neg (fun e => h (by rw [e]; simp)), ih (fun hm => h (List.mem_cons_of_mem _ hm))]

theorem pySplit_append {c : Char} {s t : Str} (h : c ∉ s) :
    pySplit c (s ++ c :: t) = s :: pySplit c t := by
  induction s with
  | nil => simp [pySplit]
  | cons x xs ih =>
    rw [List.cons_append]
    conv_lhs => unfold pySplit
    rw [if_neg (fun e => h (by rw [e]; simp)), ih (fun hm => h (List.mem_cons_of_mem _ hm))]

theorem pySplit_join (l : List Str) (hne : l ≠ []) (h : ∀ s ∈ l, ',' ∉ s) :
    pySplit ',' (",".toList.intercalate l) = l := by
  induction l with
  | nil => exact absurd rfl hne
  | cons s l ih =>
    cases l with
    | nil => simpa using pySplit_none (h s (by simp))
    | cons s' l =>
      have := ih (by simp) fun t ht => h t (List.mem_cons_of_mem _ ht)
      rw [List.intercalate_cons_cons]
      show pySplit ',' (s ++ [','] ++ _) = _
      rw [List.append_assoc, List.singleton_append, pySplit_append (h s (by simp)), this]

theorem mem_join {l : List Str} {c : Char} (h : c ∈ ",".toList.intercalate l) :
    c = ',' ∨ ∃ s ∈ l, c ∈ s := by
  induction l with
  | nil => simp at h
  | cons s l ih =>
    cases l with
    | nil => exact Or.inr ⟨s, by simp, by simpa using h⟩
    | cons s' l =>
      rw [List.intercalate_cons_cons] at h
      rcases List.mem_append.mp h with h | h
      · rcases List.mem_append.mp h with h | h
        · exact Or.inr ⟨s, by simp, h⟩
        · left; simpa using h
      · rcases ih h with h | ⟨t, ht, hc⟩
        · exact Or.inl h
        · exact Or.inr ⟨t, List.mem_cons_of_mem _ ht, hc⟩

theorem parsePairs_ok {float : Str → Option ℝ} {vals : Str → ℝ} {args : List (Str × Str)}
    (hsplit : ∀ a ∈ args, pySplit '=' (a.1 ++ '=' :: a.2) = [a.1, a.2])
    (hv : ∀ a ∈ args, float a.2 = some (vals a.2)) (d0 : Dict Str ℝ) :
    ∃ d, parsePairs float (args.map fun a => a.1 ++ '=' :: a.2) d0 = .ok d ∧
      ∀ k, d.get? k = ((args.reverse.find? fun a => a.1 = k).map fun a => vals a.2).or
        (d0.get? k) := by
  induction args generalizing d0 with
  | nil => exact ⟨d0, rfl, fun k => by simp⟩
  | cons a args ih =>
    obtain ⟨d, h1, h2⟩ := ih (fun b hb => hsplit b (List.mem_cons_of_mem _ hb))
      (fun b hb => hv b (List.mem_cons_of_mem _ hb)) (d0.set a.1 (vals a.2))
    refine ⟨d, ?_, fun k => ?_⟩
    · rw [List.map_cons]
      unfold parsePairs
      rw [hsplit a (by simp)]
      simp only [hv a (by simp), h1]
    · rw [h2, Dict.get?_set, List.reverse_cons, List.find?_append]
      cases args.reverse.find? fun a => a.1 = k with
      | some b => simp
      | none =>
        by_cases hk : k = a.1
        · subst hk; simp
        · simp [hk, Ne.symm hk]

theorem parsePairs_err {float : Str → Option ℝ} {args : List (Str × Str)}
    (hsplit : ∀ a ∈ args, pySplit '=' (a.1 ++ '=' :: a.2) = [a.1, a.2]) {a : Str × Str}
    (ha : a ∈ args) (hn : float a.2 = none) (d0 : Dict Str ℝ) :
    parsePairs float (args.map fun a => a.1 ++ '=' :: a.2) d0 = .error .valueError := by
  induction args generalizing d0 with
  | nil => cases ha
  | cons b args ih =>
    rw [List.map_cons]
    unfold parsePairs
    rw [hsplit b (by simp)]
    simp only
    cases hb : float b.2 with
    | none => rfl
    | some x =>
      rcases List.mem_cons.mp ha with rfl | ha
      · rw [hn] at hb; cases hb
      · exact ih (fun b' hb' => hsplit b' (List.mem_cons_of_mem _ hb')) ha _

/-- The group of a string `s(mid)`. -/
theorem parenGroup_of {pre mid : Str} (h1 : '(' ∉ pre) (h2 : '\n' ∉ mid) :
    parenGroup (pre ++ '(' :: (mid ++ [')'])) = some ('(' :: (mid ++ [')'])) := by
  induction pre with
  | nil =>
    rw [List.nil_append]
    unfold parenGroup
    rw [if_pos rfl]
    have : upToLast (mid ++ [')']) = some (mid ++ [')']) := by
      unfold upToLast
      have ht : (mid ++ [')']).takeWhile (· ≠ '\n') = mid ++ [')'] := by
        rw [List.takeWhile_eq_self_iff]
        intro x hx
        rcases List.mem_append.mp hx with hx | hx
        · simp only [decide_eq_true_eq]; rintro rfl; exact h2 hx
        · rw [List.mem_singleton.mp hx]; decide
      rw [ht]
      simp
    rw [this]
  | cons c cs ih =>
    rw [List.cons_append]
    unfold parenGroup
    rw [if_neg (fun e => h1 (by rw [e]; simp)), ih (fun hm => h1 (List.mem_cons_of_mem _ hm))]

end Cgpm.Schema
