import Verif.Model.Py
import Mathlib.Data.Real.Basic
import Mathlib.Data.List.Dedup
import Mathlib.Data.List.ReduceOption

/-!
Model of reading a data set by a schema: `parse_schema` and `build_valmap` of src/utils/data.py and
`parse_distargs` of src/utils/config.py.  Strings are lists of characters.
-/
namespace Cgpm.Schema

abbrev Str := List Char

/-! ### Arguments of types -/

/-- `s.split(c)` for one character `c`. -/
def pySplit (c : Char) : Str → List Str
  | [] => [[]]
  | x :: xs =>
    if x = c then [] :: pySplit c xs
    else
      match pySplit c xs with
      | [] => [[x]]
      | h :: t => (x :: h) :: t

/-- The longest match of `.*\)` at the start of a string; the dot does not match a newline. -/
def upToLast (s : Str) : Option Str :=
  match (s.takeWhile (· ≠ '\n')).reverse.dropWhile (· ≠ ')') with
  | [] => none
  | r => some r.reverse

/-- src/utils/config.py:98 `re.search('\(.*\)', cctype)`: the leftmost, longest match. -/
def parenGroup : Str → Option Str
  | [] => none
  | c :: cs =>
    if c = '(' then
      match upToLast cs with
      | some g => some (c :: g)
      | none => parenGroup cs
    else parenGroup cs

/-- src/utils/config.py:102-105: the pairs `key=val`.  `float` is Python's conversion of a string; it
raises ValueError when there is no value. -/
noncomputable def parsePairs (float : Str → Option ℝ) :
    List Str → Dict Str ℝ → Except Exn (Dict Str ℝ)
  | [], d => .ok d
  | s :: ss, d =>
    match pySplit '=' s with
    | [k, v] =>
      match float v with
      | some x => parsePairs float ss (d.set k x)
      | none => .error .valueError
    | _ => .error .valueError

/-- src/utils/config.py:97-109: one element of the loop of `parse_distargs`. -/
noncomputable def parseDistarg (float : Str → Option ℝ) (s : Str) :
    Except Exn (Str × Option (Dict Str ℝ)) :=
  match parenGroup s with
  | none => .ok (s, none)
  | some g =>
    match parsePairs float (pySplit ',' (g.filter fun c => c ≠ '(' ∧ c ≠ ')')) [] with
    | .error e => .error e
    | .ok d => .ok (s.takeWhile (· ≠ '('), some d)

/-- src/utils/config.py:91-110 `parse_distargs`. -/
noncomputable def parseDistargs (float : Str → Option ℝ) :
    List Str → Except Exn (List Str × List (Option (Dict Str ℝ)))
  | [] => .ok ([], [])
  | s :: ss =>
    match parseDistarg float s with
    | .error e => .error e
    | .ok (t, d) =>
      match parseDistargs float ss with
      | .error e => .error e
      | .ok (ts, ds) => .ok (t :: ts, d :: ds)

/-- src/utils/config.py:24-38: the names of the types of columns. -/
def knownTypes : List Str := ["bernoulli", "beta", "categorical", "crp", "exponential", "geometric",
  "linear_regression", "lognormal", "normal", "normal_trunc", "poisson", "random_forest",
  "vonmises"].map String.toList

/-- src/utils/config.py:64-70 `cctype_class`; a class is represented by the name of its type. -/
def cctypeClass (s : Str) : Except Exn Str :=
  if s = [] then .error .valueError
  else if s ∈ knownTypes then .ok s
  else .error .keyError

/-! ### Columns -/

variable {V : Type} [DecidableEq V]

/-- A column of a data frame; a missing value (NaN) is `none`. -/
abbrev Column (V : Type) := List (Option V)

/-- `column.unique()`: the values in the order in which they first appear. -/
def unique (col : Column V) : Column V := col.reverse.dedup.reverse

/-- src/utils/data.py:118-120 `build_valmap`; `sort` is Python's `sorted`. -/
def buildValmap (sort : Column V → Column V) (col : Column V) : Dict V Nat :=
  ((sort (unique col)).reduceOption).zipIdx

/-- A value of the data set that is read: as in the data frame, or an integer code. -/
inductive Cell (V : Type)
  | raw (v : V)
  | code (k : Nat)

/-- src/utils/data.py:100 `X.replace(mapping)`: all values are replaced at once. -/
def replaceMap (m : Dict V Nat) (col : Column V) : List (Option (Cell V)) :=
  col.map (Option.map fun v => match m.get? v with
    | some k => .code k
    | none => .raw v)

/-- An entry of the schema: the name of a column, its statistical type and its index. -/
structure Entry where
  name : Str
  type : Str
  index : Nat

/-- What one entry of the schema appends to the results (src/utils/data.py:92-111): the column, the
distargs (the number `k` of categories or None) and the mapping of the values. -/
structure ColOut (V : Type) where
  entry : Entry
  X : List (Option (Cell V))
  k : Option Nat
  mapping : Option (Dict V Nat)

/-- src/utils/data.py:92-111: one column that is not ignored.  L106 parses the name of the column
(sic); L110 compares an integer with a list, which is true in Python 2. -/
noncomputable def parseCol (float : Str → Option ℝ) (sort : Column V → Column V)
    (df : Dict Str (Column V)) (e : Entry) : Except Exn (ColOut V) :=
  match df.get? e.name with
  | none => .error .keyError
  | some X =>
    if e.type = "bernoulli".toList then
      if (buildValmap sort X).length = 2 then
        .ok ⟨e, replaceMap (buildValmap sort X) X, none, some (buildValmap sort X)⟩
      else .error .assertion
    else if e.type = "categorical".toList then
      match parseDistargs float [e.name] with
      | .error x => .error x
      | .ok (_, ks) =>
        .ok ⟨e, replaceMap (buildValmap sort X) X,
          if ks = [none] then some (buildValmap sort X).length else none,
          some (buildValmap sort X)⟩
    else .ok ⟨e, X.map (Option.map .raw), none, none⟩

/-- src/utils/data.py:89-111: the loop.  The lists that the code appends to in step are one list of
records here. -/
noncomputable def parseCols (float : Str → Option ℝ) (sort : Column V → Column V)
    (df : Dict Str (Column V)) : List Entry → Except Exn (List (ColOut V))
  | [] => .ok []
  | e :: es =>
    if e.type = "ignore".toList then parseCols float sort df es
    else
      match parseCol float sort df e with
      | .error x => .error x
      | .ok o =>
        match parseCols float sort df es with
        | .error x => .error x
        | .ok os => .ok (o :: os)

/-- The results of `parse_schema`. -/
structure Parsed (V : Type) where
  T : List (List (Option (Cell V)))
  outputs : List Nat
  cctypes : List Str
  distargs : List (Option Nat)
  valmap : Dict Str (Dict V Nat)
  columns : List Str

/-- src/utils/data.py:83: `'NA'` is replaced by NaN, in the data frame of the caller. -/
def replaceNA (na : V) (df : Dict Str (Column V)) : Dict Str (Column V) :=
  df.map fun p => (p.1, p.2.map fun x => if x = some na then none else x)

/-- src/utils/data.py:112 `np.asarray(D).T`, for columns of one length. -/
def transpose (D : List (List (Option (Cell V)))) : List (List (Option (Cell V))) :=
  (List.range ((D.head?.map List.length).getD 0)).map fun r => D.map fun X => (X[r]?).getD none

/-- src/utils/data.py:25-115 `parse_schema`, with the data frame that it leaves behind.  Without
columns `T.shape[1]` raises IndexError. -/
noncomputable def parseSchema (na : V) (float : Str → Option ℝ) (sort : Column V → Column V)
    (schema : List Entry) (df : Dict Str (Column V)) : Res (Dict Str (Column V)) (Parsed V) :=
  let df' := replaceNA na df
  match parseCols float sort df' schema with
  | .error e => .err e df'
  | .ok os =>
    if os.isEmpty then .err .indexError df'
    else .ok
      { T := transpose (os.map ColOut.X)
        outputs := os.map fun o => o.entry.index
        cctypes := os.map fun o => o.entry.type
        distargs := os.map ColOut.k
        valmap := os.foldl (fun m o => match o.mapping with
          | some f => m.set o.entry.name f
          | none => m) []
        columns := os.map fun o => o.entry.name } df'

end Cgpm.Schema
