import Verif.Lemmas.Schema

/-!
C84: a data set read by a schema holds the values of the data frame, and the mappings of the values
are bijections.
-/
namespace Cgpm.Props
open Cgpm Cgpm.Schema

variable {V : Type} [DecidableEq V]

/-- C84.  When `parse_schema` returns, the results describe the columns that are not ignored, in the
order of the schema.  The matrix holds the values of the data frame, with `NA` missing; the values of
nominal columns are replaced by codes, by a mapping that is returned, that gives each value its own
code and that uses the codes `0, …, k - 1`; `k` is 2 for a bernoulli column, and is returned for a
categorical column (if the name of the column has no parenthesis). -/
theorem C84_reads {sort : Column V → Column V} (hs : SortsAll sort) {na : V}
    {float : Str → Option ℝ} {df df' : Dict Str (Column V)} {n : Nat} (hn : Rows df n)
    {schema : List Entry} {res : Parsed V}
    (h : parseSchema na float sort schema df = .ok res df') : Reads na df n schema res := by
  have h0 := h
  unfold parseSchema at h
  cases hp : parseCols float sort (replaceNA na df) schema with
  | error x => simp only [hp] at h; cases h
  | ok os =>
    simp only [hp] at h
    by_cases he : os.isEmpty
    · rw [if_pos he] at h; cases h
    · rw [if_neg he] at h
      cases h
      have hne : os ≠ [] := by simpa using he
      have hf := parseCols_ok hp
      have hlen := hf.length_eq
      have hrows : Rows (replaceNA na df) n := rows_replaceNA hn
      -- the record of each entry
      have hget : ∀ (j : Nat) e, (kept schema)[j]? = some e →
          ∃ o, os[j]? = some o ∧ parseCol float sort (replaceNA na df) e = .ok o := by
        intro j e hj
        obtain ⟨hlt, hje⟩ := List.getElem?_eq_some_iff.mp hj
        have := (List.forall₂_iff_get.mp hf).2 j hlt (hlen ▸ hlt)
        refine ⟨os[j]'(hlen ▸ hlt), List.getElem?_eq_getElem _, ?_⟩
        simp only [List.get_eq_getElem, hje] at this
        exact this
      have hmem : ∀ o ∈ os, ∃ e ∈ kept schema,
          parseCol float sort (replaceNA na df) e = .ok o := by
        intro o ho
        obtain ⟨j, hj⟩ := List.getElem?_of_mem ho
        obtain ⟨hlt, hje⟩ := List.getElem?_eq_some_iff.mp hj
        have hlt' : j < (kept schema).length := by rw [hlen]; exact hlt
        obtain ⟨o', h1, h2⟩ := hget j _ (List.getElem?_eq_getElem hlt')
        rw [hj] at h1; cases h1
        exact ⟨_, List.getElem_mem hlt', h2⟩
      have hproj : os.map ColOut.entry = kept schema := by
        clear hget hmem hlen hne he hp h0
        generalize kept schema = ks at hf
        induction hf with
        | nil => rfl
        | cons h1 _ ih => rw [List.map_cons, ih, (parseCol_entry h1).1]
      have hX : ∀ X ∈ os.map ColOut.X, X.length = n := by
        intro X hX
        obtain ⟨o, ho, rfl⟩ := List.mem_map.mp hX
        obtain ⟨e, -, h2⟩ := hmem o ho
        exact parseCol_length h2 hrows
      obtain ⟨t1, t2, t3⟩ := entryAt_transpose hX (by simpa using hne)
      have hcol : ∀ {e : Entry} {X : Column V}, (replaceNA na df).get? e.name = some X →
          ∃ col, df.get? e.name = some col ∧ X = cleaned na col := by
        intro e X hX
        rw [get?_replaceNA] at hX
        cases hc : df.get? e.name with
        | none => rw [hc] at hX; cases hX
        | some col => rw [hc] at hX; cases hX; exact ⟨col, rfl, rfl⟩
      refine ⟨?_, ?_, ?_, t1, ?_, ?_, ?_⟩
      · rw [← hproj, List.map_map]; rfl
      · rw [← hproj, List.map_map]; rfl
      · rw [← hproj, List.map_map]; rfl
      · intro row hrow
        rw [t2 row hrow, List.length_map, hlen]
      · intro r hr j e hj hN
        obtain ⟨o, ho, hoc⟩ := hget j e hj
        obtain ⟨-, X, hX', -, h2, -⟩ := parseCol_entry hoc
        obtain ⟨col, hc, rfl⟩ := hcol hX'
        obtain ⟨h21, -, h22⟩ := h2 hN
        refine ⟨?_, by rw [List.getElem?_map, ho]; simp [h22]⟩
        rw [t3 r hr j o.X (by rw [List.getElem?_map, ho]; rfl), h21, cellOf_eq hc,
          List.getElem?_map]
        cases (cleaned na col)[r]? <;> rfl
      · intro j e hj hN
        obtain ⟨o, ho, hoc⟩ := hget j e hj
        obtain ⟨hoe, X, hX', h1, -, h3, h4⟩ := parseCol_entry hoc
        obtain ⟨col, hc, rfl⟩ := hcol hX'
        obtain ⟨h11, h12⟩ := h1 hN
        refine ⟨buildValmap sort (cleaned na col), _, ?_, codes_valmap hs hc, fun r hr => ?_,
          fun hb => ?_, fun hb hnp => ?_⟩
        · exact parse_valmap h0 (List.mem_of_getElem? hj) hN hc
        · refine ⟨_, t3 r hr j o.X (by rw [List.getElem?_map, ho]; rfl), fun hnone => ?_,
            fun v hv => ?_⟩
          · rw [cellOf_eq hc] at hnone
            rw [h11, replaceMap, List.getElem?_map]
            cases hx : (cleaned na col)[r]? with
            | none => rfl
            | some x => rw [hx] at hnone; simp only [Option.getD_some] at hnone; rw [hnone]; rfl
          · obtain ⟨c, hcc⟩ := ((codes_valmap hs hc).total v).mp ⟨r, hv⟩
            refine ⟨c, hcc, ?_⟩
            rw [cellOf_eq hc] at hv
            rw [h11, replaceMap, List.getElem?_map]
            cases hx : (cleaned na col)[r]? with
            | none => rw [hx] at hv; cases hv
            | some x =>
              rw [hx] at hv
              simp only [Option.getD_some] at hv
              rw [hv]
              simp only [Option.map_some, Option.getD_some, hcc]
        · exact ⟨(h3 hb).1, by rw [List.getElem?_map, ho]; simp [(h3 hb).2]⟩
        · obtain ⟨ts, ks, h41, h42⟩ := h4 hb
          rw [parseDistargs_plain hnp] at h41
          cases h41
          rw [List.getElem?_map, ho, Option.map_some, h42, if_pos rfl]

/-- C84, which calls succeed, for names of columns without parenthesis: those where some column is
not ignored, all of these exist, and each bernoulli column has exactly two values. -/
theorem C84_succeeds {sort : Column V → Column V} (hs : SortsAll sort) {na : V}
    {float : Str → Option ℝ} {df : Dict Str (Column V)} {schema : List Entry}
    (hnames : ∀ e ∈ schema, '(' ∉ e.name) :
    (∃ res df', parseSchema na float sort schema df = .ok res df') ↔
      kept schema ≠ [] ∧ ∀ e ∈ kept schema, e.name ∈ df.keys ∧
        (e.type = "bernoulli".toList → ∃ v w, v ≠ w ∧
          ∀ x, observed na df e.name x ↔ x = v ∨ x = w) := by
  have hcard : ∀ (name : Str) (col : Column V), df.get? name = some col →
      ((buildValmap sort (cleaned na col)).length = 2 ↔ ∃ v w, v ≠ w ∧
          ∀ x, observed na df name x ↔ x = v ∨ x = w) := by
    intro name col hc
    rw [valmap_length, List.length_eq_two]
    have hm : ∀ x, observed na df name x ↔ x ∈ valuesOf sort (cleaned na col) := fun x => by
      rw [observed_iff hc, valuesOf_mem hs]
    have hnd := valuesOf_nodup hs (cleaned na col)
    constructor
    · rintro ⟨v, w, he⟩
      refine ⟨v, w, ?_, fun x => by rw [hm, he]; simp⟩
      rintro rfl
      rw [he] at hnd
      simp at hnd
    · rintro ⟨v, w, hvw, hx⟩
      have : (valuesOf sort (cleaned na col)).Perm [v, w] := by
        refine (List.perm_ext_iff_of_nodup hnd (by simp [hvw])).mpr fun x => ?_
        rw [← hm, hx]; simp
      rcases List.length_eq_two.mp (by rw [this.length_eq]; rfl) with ⟨a, b, hab⟩
      exact ⟨a, b, hab⟩
  have hcol : ∀ e ∈ kept schema, (∃ o, parseCol float sort (replaceNA na df) e = .ok o) ↔
      e.name ∈ df.keys ∧ (e.type = "bernoulli".toList → ∃ v w, v ≠ w ∧
          ∀ x, observed na df e.name x ↔ x = v ∨ x = w) := by
    intro e he
    have hnp := hnames e (List.mem_of_mem_filter he)
    unfold parseCol
    rw [get?_replaceNA]
    cases hc : df.get? e.name with
    | none =>
      simp only [Option.map_none]
      constructor
      · rintro ⟨o, ho⟩; cases ho
      · rintro ⟨hk, -⟩
        obtain ⟨col, h'⟩ := Dict.exists_of_mem_keys hk
        rw [hc] at h'; cases h'
    | some col =>
      simp only [Option.map_some]
      rw [show (col.map fun x => if x = some na then none else x) = cleaned na col from rfl]
      have hk : e.name ∈ df.keys := Dict.mem_keys_of_get? hc
      by_cases hb : e.type = "bernoulli".toList
      · rw [if_pos hb]
        rw [← hcard e.name col hc]
        by_cases h2 : (buildValmap sort (cleaned na col)).length = 2
        · rw [if_pos h2]; exact ⟨fun _ => ⟨hk, fun _ => h2⟩, fun _ => ⟨_, rfl⟩⟩
        · rw [if_neg h2]
          exact ⟨fun ⟨o, ho⟩ => (by cases ho), fun ⟨_, h⟩ => absurd (h hb) h2⟩
      · rw [if_neg hb]
        refine ⟨fun _ => ⟨hk, fun h => absurd h hb⟩, fun _ => ?_⟩
        by_cases hcat : e.type = "categorical".toList
        · rw [if_pos hcat, parseDistargs_plain hnp]; exact ⟨_, rfl⟩
        · rw [if_neg hcat]; exact ⟨_, rfl⟩
  unfold parseSchema
  constructor
  · rintro ⟨res, df', h⟩
    cases hp : parseCols float sort (replaceNA na df) schema with
    | error x => simp only [hp] at h; cases h
    | ok os =>
      simp only [hp] at h
      have hf := parseCols_ok hp
      refine ⟨fun hk => ?_, fun e he => (hcol e he).mp ?_⟩
      · rw [hk] at hf
        cases hf
        simp at h
      · obtain ⟨j, hj⟩ := List.getElem?_of_mem he
        obtain ⟨hlt, hje⟩ := List.getElem?_eq_some_iff.mp hj
        have := (List.forall₂_iff_get.mp hf).2 j hlt (hf.length_eq ▸ hlt)
        simp only [List.get_eq_getElem, hje] at this
        exact ⟨_, this⟩
  · rintro ⟨hk, hall⟩
    obtain ⟨os, hos⟩ := parseCols_complete fun e he => (hcol e he).mpr (hall e he)
    have hl := (parseCols_ok hos).length_eq
    have hne : ¬ os.isEmpty := fun h => by
      rw [List.isEmpty_iff.mp h] at hl
      exact hk (List.length_eq_zero_iff.mp hl)
    simp only [hos, if_neg hne]
    exact ⟨_, _, rfl⟩

/-- C84, the data frame of the caller is changed, whether or not the call succeeds: `NA` is missing
from then on, and nothing else changes. -/
theorem C84_frame (sort : Column V → Column V) (na : V) (float : Str → Option ℝ)
    (df : Dict Str (Column V)) (schema : List Entry) (name : Str) (r : Nat) :
    ((parseSchema na float sort schema df).state).keys = df.keys ∧
    cellOf na ((parseSchema na float sort schema df).state) name r = cellOf na df name r ∧
    ∀ col, ((parseSchema na float sort schema df).state).get? name = some col → some na ∉ col := by
  have : (parseSchema na float sort schema df).state = replaceNA na df := by
    unfold parseSchema
    cases hp : parseCols float sort (replaceNA na df) schema with
    | error x => simp only [hp, Res.state]
    | ok os => by_cases h : os.isEmpty <;> simp only [hp, h, if_true, Bool.false_eq_true, if_false,
        Res.state]
  rw [this]
  refine ⟨by simp [replaceNA, Dict.keys], ?_, fun col hc => ?_⟩
  · unfold cellOf
    rw [get?_replaceNA]
    cases df.get? name with
    | none => rfl
    | some col =>
      simp only [Option.map_some, List.getElem?_map]
      rcases col[r]? with _ | _ | v
      · rfl
      · rfl
      · by_cases hv : v = na <;> simp [hv]
  · rw [get?_replaceNA] at hc
    cases hd : df.get? name with
    | none => rw [hd] at hc; cases hc
    | some c =>
      rw [hd] at hc; cases hc
      intro hm
      obtain ⟨x, -, hx⟩ := List.mem_map.mp hm
      split at hx
      · cases hx
      · rename_i h; exact h hx

/-- C84, codes are in the order of the values, in a column without missing values. -/
theorem C84_order {W : Type} [LinearOrder W] {sort : Column W → Column W} (hs : SortsAll sort)
    (hup : SortsUp sort) {na : W} {float : Str → Option ℝ} {df df' : Dict Str (Column W)}
    {schema : List Entry} {res : Parsed W}
    (h : parseSchema na float sort schema df = .ok res df') {e : Entry} (he : e ∈ kept schema)
    (hN : Nominal e.type) {col : Column W} (hc : df.get? e.name = some col)
    (hfull : ∀ r < col.length, cellOf na df e.name r ≠ none) {m : Dict W Nat}
    (hm : res.valmap.get? e.name = some m) {v w : W} {i j : Nat} (hi : m.get? v = some i)
    (hj : m.get? w = some j) : v < w ↔ i < j := by
  rw [parse_valmap h he hN hc] at hm
  cases hm
  rw [valmap_get? hs] at hi hj
  have hnone : none ∉ unique (cleaned na col) := by
    rw [unique_mem]
    intro hm
    obtain ⟨r, hr⟩ := List.getElem?_of_mem hm
    refine hfull r ?_ (by rw [cellOf_eq hc, hr]; rfl)
    have := (List.getElem?_eq_some_iff.mp hr).1
    simpa [cleaned] using this
  obtain ⟨l, hl⟩ : ∃ l : List W, unique (cleaned na col) = l.map some := by
    generalize unique (cleaned na col) = u at hnone
    induction u with
    | nil => exact ⟨[], rfl⟩
    | cons x u ih =>
      obtain ⟨l, rfl⟩ := ih fun hm => hnone (List.mem_cons_of_mem _ hm)
      cases x with
      | none => exact absurd (by simp) hnone
      | some x => exact ⟨x :: l, rfl⟩
  obtain ⟨l', h1, h2⟩ := hup l
  have hv : valuesOf sort (cleaned na col) = l' := by
    unfold valuesOf
    rw [hl, h1]
    unfold List.reduceOption
    rw [List.filterMap_map]
    simp
  have hnd := valuesOf_nodup hs (cleaned na col)
  rw [hv] at hi hj hnd
  have hlt : ∀ {a b : Nat} {x y : W}, l'[a]? = some x → l'[b]? = some y → a < b → x < y := by
    intro a b x y ha hb hab
    obtain ⟨ha1, rfl⟩ := List.getElem?_eq_some_iff.mp ha
    obtain ⟨hb1, rfl⟩ := List.getElem?_eq_some_iff.mp hb
    refine lt_of_le_of_ne (List.pairwise_iff_getElem.mp h2 a b ha1 hb1 hab) fun e => ?_
    have := (hnd.getElem_inj_iff).mp e
    omega
  constructor
  · intro hvw
    by_contra hij
    rcases Nat.lt_or_eq_of_le (Nat.le_of_not_lt hij) with hji | rfl
    · exact lt_asymm hvw (hlt hj hi hji)
    · rw [hi] at hj; cases hj; exact lt_irrefl _ hvw
  · exact hlt hi hj

/-- SPEC. The text of a type with arguments: `name(key=val,…,key=val)`. -/
def typeText (name : Str) (args : List (Str × Str)) : Str :=
  name ++ '(' :: (",".toList.intercalate (args.map fun a => a.1 ++ '=' :: a.2) ++ [')'])

/-- SPEC. A text without the characters that separate arguments. -/
def Word (s : Str) : Prop := ∀ c ∈ s, c ∉ ['(', ')', ',', '=', '\n']

/-- C84, types with arguments.  `parse_distargs` returns the name of the type and the values of its
arguments (of the last one, for a key that is repeated).  It raises ValueError if some value is not a
number. -/
theorem C84_distargs (float : Str → Option ℝ) {name : Str} (hname : '(' ∉ name)
    {args : List (Str × Str)} (hne : args ≠ []) (hargs : ∀ a ∈ args, Word a.1 ∧ Word a.2) :
    (∀ vals : Str → ℝ, (∀ a ∈ args, float a.2 = some (vals a.2)) →
      ∃ d, parseDistarg float (typeText name args) = .ok (name, some d) ∧
        ∀ k, d.get? k = ((args.reverse.find? fun a => a.1 = k).map fun a => vals a.2)) ∧
    ((∃ a ∈ args, float a.2 = none) →
      parseDistarg float (typeText name args) = .error .valueError) := by
  have hjoin : pySplit ',' (",".toList.intercalate (args.map fun a => a.1 ++ '=' :: a.2)) =
      args.map fun a => a.1 ++ '=' :: a.2 := by
    refine pySplit_join _ (by simpa using hne) ?_
    intro s hs
    obtain ⟨a, ha, rfl⟩ := List.mem_map.mp hs
    obtain ⟨h1, h2⟩ := hargs a ha
    intro hm
    rcases List.mem_append.mp hm with hm | hm
    · exact h1 _ hm (by simp)
    · rcases List.mem_cons.mp hm with hm | hm
      · cases hm
      · exact h2 _ hm (by simp)
  have hall : ∀ c ∈ ",".toList.intercalate (args.map fun a => a.1 ++ '=' :: a.2),
      c ∉ ['(', ')', '\n'] := by
    intro c hc
    rcases mem_join hc with rfl | ⟨s, hs, hcs⟩
    · decide
    · obtain ⟨a, ha, rfl⟩ := List.mem_map.mp hs
      obtain ⟨h1, h2⟩ := hargs a ha
      rcases List.mem_append.mp hcs with hm | hm
      · have := h1 _ hm
        simp only [List.mem_cons, not_or] at this ⊢
        tauto
      · rcases List.mem_cons.mp hm with rfl | hm
        · decide
        · have := h2 _ hm
          simp only [List.mem_cons, not_or] at this ⊢
          tauto
  have hfil : ('(' :: (",".toList.intercalate (args.map fun a => a.1 ++ '=' :: a.2) ++
      [')'])).filter (fun c => c ≠ '(' ∧ c ≠ ')') =
      ",".toList.intercalate (args.map fun a => a.1 ++ '=' :: a.2) := by
    rw [List.filter_cons_of_neg (by simp), List.filter_append]
    rw [show ([')'] : Str).filter (fun c => c ≠ '(' ∧ c ≠ ')') = [] by decide, List.append_nil,
      List.filter_eq_self]
    intro c hc
    have := hall c hc
    simp only [List.mem_cons, not_or] at this
    simp [this.1, this.2.1]
  have htake : (typeText name args).takeWhile (· ≠ '(') = name := by
    unfold typeText
    rw [List.takeWhile_append_of_pos (by
      intro c hc
      simp only [decide_eq_true_eq]
      rintro rfl
      exact hname hc)]
    simp
  have hparse : parseDistarg float (typeText name args) =
      match parsePairs float (args.map fun a => a.1 ++ '=' :: a.2) [] with
      | .error e => .error e
      | .ok d => .ok (name, some d) := by
    unfold parseDistarg
    rw [htake]
    unfold typeText
    rw [parenGroup_of hname (fun hm => by have := hall _ hm; simp at this)]
    dsimp only
    rw [hfil, hjoin]
    cases parsePairs float (args.map fun a => a.1 ++ '=' :: a.2) [] <;> rfl
  have hsplit : ∀ a ∈ args, pySplit '=' (a.1 ++ '=' :: a.2) = [a.1, a.2] := by
    intro a ha
    obtain ⟨h1, h2⟩ := hargs a ha
    rw [pySplit_append (fun hm => h1 _ hm (by simp)), pySplit_none (fun hm => h2 _ hm (by simp))]
  rw [hparse]
  constructor
  · intro vals hv
    obtain ⟨d, h1, h2⟩ := parsePairs_ok (vals := vals) hsplit hv []
    exact ⟨d, by rw [h1], fun k => by rw [h2 k]; simp⟩
  · rintro ⟨a, ha, hn⟩
    rw [parsePairs_err hsplit ha hn []]

/-- C84, the documentation allows the type `categorical(k=7)`.  The code does not recognise it: the
values are not coded, there are no distargs, the type is returned with its arguments, and it is the
type of no column (`cctype_class` raises KeyError), so no State can be made from the results. -/
theorem C84_stated_k_violated {sort : Column V → Column V} (hs : SortsAll sort) {na : V}
    {float : Str → Option ℝ} {df df' : Dict Str (Column V)} {n : Nat} (hn : Rows df n)
    (h0 : 0 < n) {schema : List Entry} {res : Parsed V}
    (h : parseSchema na float sort schema df = .ok res df') {j : Nat} {e : Entry}
    (hj : (kept schema)[j]? = some e) {args : List (Str × Str)}
    (he : e.type = typeText "categorical".toList args) :
    res.cctypes[j]? = some e.type ∧ cctypeClass e.type = .error .keyError ∧
    res.distargs[j]? = some none := by
  have hr := C84_reads hs hn h
  have hp : '(' ∈ e.type := by rw [he]; unfold typeText; simp
  have hN : ¬ Nominal e.type := by
    rintro (hb | hb) <;> rw [hb] at hp <;> revert hp <;> decide
  refine ⟨by rw [hr.cctypes, List.getElem?_map, hj]; rfl, ?_, (hr.numerical 0 h0 j e hj hN).2⟩
  unfold cctypeClass
  rw [if_neg (List.ne_nil_of_mem hp), if_neg]
  intro hk
  have : ∀ s ∈ knownTypes, '(' ∉ s := by decide
  exact this _ hk hp

/-- C84, the code looks for arguments in the name of the column, not in its type: a categorical
column with a name like `income (usd)` cannot be read, whatever its values. -/
theorem C84_column_name_violated (sort : Column V → Column V) (na : V) (float : Str → Option ℝ)
    {df : Dict Str (Column V)} {pre mid : Str} (h1 : '(' ∉ pre) (h2 : Word mid) {col : Column V}
    (hc : df.get? (pre ++ '(' :: (mid ++ [')'])) = some col) (i : Nat) :
    ∃ df', parseSchema na float sort
      [⟨pre ++ '(' :: (mid ++ [')']), "categorical".toList, i⟩] df = .err .valueError df' := by
  have hg := parenGroup_of (pre := pre) (mid := mid) h1 (fun hm => h2 _ hm (by simp))
  have hfil : ('(' :: (mid ++ [')'])).filter (fun c => c ≠ '(' ∧ c ≠ ')') = mid := by
    rw [List.filter_cons_of_neg (by simp), List.filter_append]
    rw [show ([')'] : Str).filter (fun c => c ≠ '(' ∧ c ≠ ')') = [] by decide, List.append_nil,
      List.filter_eq_self]
    intro c hc
    have := h2 c hc
    simp only [List.mem_cons, not_or] at this
    simp [this.1, this.2.1]
  have hd : parseDistarg float (pre ++ '(' :: (mid ++ [')'])) = .error .valueError := by
    unfold parseDistarg
    rw [hg]
    dsimp only
    rw [hfil, pySplit_none (fun hm => h2 _ hm (by simp))]
    unfold parsePairs
    rw [pySplit_none (fun hm => h2 _ hm (by simp))]
  have hcol : ∀ e : Entry, e.name = pre ++ '(' :: (mid ++ [')']) → e.type = "categorical".toList →
      parseCols float sort (replaceNA na df) [e] = .error .valueError := by
    intro e hen het
    have n1 : e.type ≠ "ignore".toList := by rw [het]; decide
    have n2 : e.type ≠ "bernoulli".toList := by rw [het]; decide
    unfold parseCols
    rw [if_neg n1]
    unfold parseCol
    rw [get?_replaceNA, hen, hc]
    dsimp only [Option.map_some]
    rw [if_neg n2, if_pos het]
    unfold parseDistargs
    rw [hd]
  exact ⟨replaceNA na df, by
    have := hcol ⟨pre ++ '(' :: (mid ++ [')']), "categorical".toList, i⟩ rfl rfl
    unfold parseSchema; simp only [this]⟩

/-! A data frame with a nominal column of three values and a missing one, a numerical column and a
column that is ignored; values are natural numbers and 99 stands for `NA`. -/

def demoFrame : Dict Str (Column ℕ) :=
  [("city".toList, [some 7, some 99, some 3, some 5, some 3]),
   ("age".toList, [some 40, some 41, none, some 99, some 12]),
   ("id".toList, [some 0, some 1, some 2, some 3, some 4]),
   ("income (usd)".toList, [some 1, some 2, some 1, some 2, some 1])]

def demoSchema : List Entry := [⟨"id".toList, "ignore".toList, 0⟩,
  ⟨"city".toList, "categorical".toList, 4⟩, ⟨"age".toList, "normal".toList, 2⟩]

/-- A `sorted` that puts the values in increasing order, the missing ones first. -/
def demoSort (l : Column ℕ) : Column ℕ := l.mergeSort fun x y => decide (x.getD 0 ≤ y.getD 0)

theorem demoSort_all : SortsAll demoSort := fun l => List.mergeSort_perm l _

theorem demoSort_up : SortsUp demoSort := by
  intro l
  have hp : (demoSort (l.map some)).Perm (l.map some) := demoSort_all _
  obtain ⟨l', hl', he⟩ : ∃ l' : List ℕ, l'.Perm l ∧ demoSort (l.map some) = l'.map some := by
    refine ⟨(demoSort (l.map some)).reduceOption, ?_, ?_⟩
    · have := hp.filterMap id
      rw [List.filterMap_map] at this
      simpa [List.reduceOption] using this
    · have hn : ∀ x ∈ demoSort (l.map some), x ≠ none := fun x hx => by
        obtain ⟨y, -, rfl⟩ := List.mem_map.mp (hp.mem_iff.mp hx); simp
      generalize demoSort (l.map some) = u at hn
      induction u with
      | nil => rfl
      | cons x u ih =>
        cases x with
        | none => exact absurd rfl (hn none (by simp))
        | some x =>
          rw [List.reduceOption_cons_of_some, List.map_cons,
            ← ih fun y hy => hn y (List.mem_cons_of_mem _ hy)]
  refine ⟨l', he, ?_⟩
  have hs := List.pairwise_mergeSort (le := fun x y : Option ℕ => decide (x.getD 0 ≤ y.getD 0))
    (fun a b c h1 h2 => by simp only [decide_eq_true_eq] at *; omega)
    (fun a b => by simp only [Bool.or_eq_true, decide_eq_true_eq]; omega) (l.map some)
  rw [show (l.map some).mergeSort _ = l'.map some from he, List.pairwise_map] at hs
  exact hs.imp fun h => by simpa using h

example : Rows demoFrame 5 := by
  intro p hp
  simp only [demoFrame, List.mem_cons, List.not_mem_nil, or_false] at hp
  rcases hp with rfl | rfl | rfl | rfl <;> rfl

/-- The schema is read. -/
example (float : Str → Option ℝ) : ∃ res df', parseSchema 99 float demoSort demoSchema demoFrame =
    .ok res df' := by
  refine (C84_succeeds demoSort_all (by decide)).mpr ⟨by decide, ?_⟩
  have h1 : ∀ e ∈ kept demoSchema, e.name ∈ demoFrame.keys ∧ e.type ≠ "bernoulli".toList := by decide
  exact fun e he => ⟨(h1 e he).1, fun hb => absurd hb (h1 e he).2⟩

/-- The name of the last column of the data frame is one that cannot be categorical. -/
example : '(' ∉ "income ".toList ∧ Word "usd".toList ∧
    demoFrame.get? ("income ".toList ++ '(' :: ("usd".toList ++ [')'])) =
      some [some 1, some 2, some 1, some 2, some 1] := by
  refine ⟨by decide, ?_, by decide⟩
  unfold Word
  decide

/-- A type with arguments. -/
example : typeText "categorical".toList [("k".toList, "7".toList)] = "categorical(k=7)".toList := by
  decide

end Cgpm.Props
