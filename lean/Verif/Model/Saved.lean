import Verif.Model.LinReg
import Verif.Model.Ols
import Verif.Model.Factor

/-
Model of `to_metadata` and `from_metadata` of the stand-alone models: src/regressions/linreg.py,
src/regressions/ols.py, src/regressions/forest.py, src/factor/factor.py, src/kde/mvkde.py and
src/knn/mvknn.py.

Simplifications, global to this file:
* The metadata is loaded as it was saved, or after it was written as JSON and read again.  JSON turns
  the row numbers that are keys of a dictionary into strings, which `int` turns back, and loses the
  order of a dictionary: `ord` gives the order in which Python iterates over a dictionary whose keys
  were inserted in a given order.  It is the same for two dictionaries with the same keys, and the
  identity if the metadata was not written.
* Pickling a regressor and reading it again gives the same regressor; so do `tolist` and `asarray`
  for an array of numbers.
* The seed of the loaded object is not part of it: queries draw from a generator that is a parameter.
* Sharing of lists between the saved and the loaded object is not modelled.
-/
namespace Cgpm

/-- The exception that a call raises, if it does. -/
def Out.exn {σ : Type} : Out σ → Option Exn
  | .ok _ => none
  | .err e _ => some e

/-- `OrderedDict((int(k), v) for k, v in d.iteritems())` -/
def Dict.reload {V : Type} (ord : List Row → List Row) (d : Dict Row V) : Dict Row V :=
  Dict.update [] ((ord d.keys).filterMap fun r => (d.get? r).map fun v => (r, v))

/-- src/regressions/linreg.py:360-364, src/regressions/ols.py:244-248 and
src/regressions/forest.py:267-270: the rows that `from_metadata` restores. -/
def RegRows.reload {X : Type} (ord : List Row → List Row) (N : ℤ) (x : Dict Row X)
    (Y : Dict Row (List (Option ℝ))) : RegRows X := ⟨N, x.reload ord, Y.reload ord⟩

namespace LinReg

/-- A linear regression with the types of its inputs, `input_cctypes` and `input_ccargs`
(src/regressions/linreg.py:70-71). -/
structure Inst where
  types : List InputType
  o : Obj

/-- src/regressions/linreg.py:339-348 `to_metadata`: the entries.  `get_distargs` (lines 180-188)
answers the types, `get_hypers` (lines 171-172) only `a` and `b`. -/
structure Meta where
  output : Col
  inputs : List Col
  types : List InputType
  N : ℤ
  x : Dict Row ℝ
  Y : Dict Row (List (Option ℝ))
  a : ℝ
  b : ℝ

namespace Inst

/-- src/regressions/linreg.py:61-92 `__init__`. -/
noncomputable def new (out : Col) (inputs : List Col) (types : List InputType)
    (hypers : (p : Nat) → Hyp p) : Except Exn Inst :=
  (Obj.new out inputs types hypers).map fun o => ⟨types, o⟩

/-- A history of calls. -/
noncomputable def run (i : Inst) (ops : List Obj.Op) : Inst := { i with o := i.o.run ops }

/-- src/regressions/linreg.py:339-348 `to_metadata`. -/
def save (i : Inst) : Meta :=
  { output := i.o.g.output, inputs := i.o.g.inputs, types := i.types, N := i.o.rows.N,
    x := i.o.rows.x, Y := i.o.rows.Y, a := i.o.hyp.a, b := i.o.hyp.b }

/-- src/regressions/linreg.py:350-365 `from_metadata`: hyperparameters that are not in the metadata
have their defaults. -/
noncomputable def load (ord : List Row → List Row) (m : Meta) : Except Exn Inst :=
  match new m.output m.inputs m.types fun p => { Hyp.default p with a := m.a, b := m.b } with
  | .error e => .error e
  | .ok i => .ok { i with o := { i.o with rows := .reload ord m.N m.x m.Y } }

end Inst
end LinReg

namespace OlsReg

/-- A least squares regression with the types of its inputs (src/regressions/ols.py:51-52). -/
structure Inst where
  types : List InputType
  o : OlsReg

/-- src/regressions/ols.py:215-231 `to_metadata`: the entries. -/
structure Meta where
  output : Col
  inputs : List Col
  types : List InputType
  N : ℤ
  x : Dict Row ℝ
  Y : Dict Row (List (Option ℝ))
  noise : ℝ
  reg : Option (List ℝ → ℝ)

namespace Inst

/-- src/regressions/ols.py:40-68 `__init__`. -/
noncomputable def new (output : Col) (inputs : List Col) (types : List InputType) (noise : Option ℝ)
    (reg : Option (List ℝ → ℝ)) : Except Exn Inst :=
  (OlsReg.new output inputs types noise reg).map fun o => ⟨types, o⟩

/-- A history of calls. -/
noncomputable def run (fit : List (List ℝ) → List ℝ → (List ℝ → ℝ)) (i : Inst) (ops : List Op) : Inst :=
  { i with o := i.o.run fit ops }

/-- src/regressions/ols.py:215-231 `to_metadata`. -/
def save (i : Inst) : Meta :=
  { output := i.o.g.output, inputs := i.o.g.inputs, types := i.types, N := i.o.rows.N,
    x := i.o.rows.x, Y := i.o.rows.Y, noise := i.o.noise, reg := i.o.reg }

/-- src/regressions/ols.py:233-250 `from_metadata`. -/
noncomputable def load (ord : List Row → List Row) (m : Meta) : Except Exn Inst :=
  match new m.output m.inputs m.types (some m.noise) m.reg with
  | .error e => .error e
  | .ok i => .ok { i with o := { i.o with rows := .reload ord m.N m.x m.Y } }

end Inst
end OlsReg

namespace RForest

/-- src/regressions/forest.py:231-249 `to_metadata`: the entries; of the types of the inputs only
their number matters. -/
structure Meta where
  output : Col
  inputs : List Col
  ntypes : Nat
  k : Nat
  N : ℤ
  x : Dict Row Nat
  Y : Dict Row (List (Option ℝ))
  counts : List ℤ
  alpha : ℝ
  clf : Option Classifier

/-- src/regressions/forest.py:231-249 `to_metadata`. -/
def save (o : RForest) : Meta :=
  { output := o.g.output, inputs := o.g.inputs, ntypes := o.g.p, k := o.g.k, N := o.obj.rows.N,
    x := o.obj.rows.x, Y := o.obj.rows.Y, counts := o.obj.counts, alpha := o.alpha, clf := o.clf }

/-- src/regressions/forest.py:251-272 `from_metadata`. -/
noncomputable def load (ord : List Row → List Row) (m : Meta) : Except Exn RForest :=
  match new m.output m.inputs m.ntypes m.k (some m.alpha) m.clf with
  | .error e => .error e
  | .ok o => .ok { o with obj := { rows := .reload ord m.N m.x m.Y, counts := m.counts } }

end RForest

/-- `OrderedDict(metadata['data'])`, the data being a list of pairs. -/
def Dict.ofItems {V : Type} (l : List (Row × V)) : Dict Row V := Dict.update [] l

namespace Factor

/-- A factor analysis with the number `N` of its rows. -/
structure Inst where
  f : Factor
  N : ℤ

/-- src/factor/factor.py:341-357 `to_metadata`: the entries. -/
structure Meta where
  outputs : List Col
  inputs : List Col
  N : ℤ
  L : Nat
  data : List (Row × List (Option ℝ))
  mux : Nat → ℝ
  Psi : Nat → Nat → ℝ
  W : Nat → Nat → ℝ

namespace Inst

/-- src/factor/factor.py:75-132 `__init__`. -/
def new (outputs inputs : List Col) (L : Option Nat) (mux : Nat → ℝ) (Psi W : Nat → Nat → ℝ) :
    Except Exn Inst := (Factor.new outputs inputs L mux Psi W).map fun f => ⟨f, 0⟩

/-- Calls that change a factor analysis: `learn` is a transition with the estimates of sklearn. -/
inductive Op
  | inc (r : Row) (obs inputs : Vals)
  | unc (r : Row)
  | learn (noise mean : Nat → ℝ) (components : Nat → Nat → ℝ)

/-- src/factor/factor.py:134-162 `incorporate`, `unincorporate` and 220-230 `transition`. -/
noncomputable def apply (i : Inst) : Op → Out Inst
  | .inc r obs inputs =>
    (MvRows.incorporate i.f.outputs i.f.latents i.f.observables ⟨i.N, i.f.data⟩ r obs inputs).map fun s =>
      ⟨{ i.f with data := s.data }, s.N⟩
  | .unc r => (MvRows.unincorporate ⟨i.N, i.f.data⟩ r).map fun s => ⟨{ i.f with data := s.data }, s.N⟩
  | .learn noise mean components => .ok ⟨i.f.transition noise mean components, i.N⟩

/-- A history of calls. -/
noncomputable def run (i : Inst) (ops : List Op) : Inst := ops.foldl (fun i op => (i.apply op).state) i

/-- src/factor/factor.py:341-357 `to_metadata`. -/
def save (i : Inst) : Meta :=
  { outputs := i.f.outputs, inputs := [], N := i.N, L := i.f.L, data := i.f.data, mux := i.f.mux,
    Psi := i.f.Psi, W := i.f.W }

/-- src/factor/factor.py:360-372 `from_metadata`. -/
def load (m : Meta) : Except Exn Inst :=
  match new m.outputs m.inputs (some m.L) m.mux m.Psi m.W with
  | .error e => .error e
  | .ok i => .ok { f := { i.f with data := Dict.ofItems m.data }, N := m.N }

end Inst
end Factor

/-- `stattypes` and `statargs` of an output. -/
def KType.toInput : KType → InputType
  | .numerical => .numeric
  | .nominal k => .nominal (some k)

namespace Kde

/-- src/kde/mvkde.py:288-300 `to_metadata`: the entries. -/
structure Meta where
  outputs : List Col
  inputs : List Col
  types : List InputType
  N : ℤ
  data : List (Row × List (Option ℝ))
  bw : List ℝ

/-- src/kde/mvkde.py:288-300 `to_metadata`, with 273-279 `get_distargs`. -/
def save (o : Kde) : Meta :=
  { outputs := o.outputs, inputs := [], types := o.types.map KType.toInput, N := o.rows.N,
    data := o.rows.data, bw := o.bw }

/-- src/kde/mvkde.py:302-315 `from_metadata`. -/
noncomputable def load (m : Meta) : Except Exn Kde :=
  match new m.outputs m.inputs m.types (some m.bw) with
  | .error e => .error e
  | .ok o => .ok { o with rows := ⟨m.N, Dict.ofItems m.data⟩ }

end Kde

namespace Knn

/-- src/knn/mvknn.py:375-386 `to_metadata`: the entries. -/
structure Meta where
  outputs : List Col
  inputs : List Col
  types : List InputType
  K : Option Int
  M : Option Int
  N : ℤ
  data : List (Row × List (Option ℝ))

/-- src/knn/mvknn.py:375-386 `to_metadata`, with 273-281 `get_distargs`. -/
def save (o : Knn) : Meta :=
  { outputs := o.outputs, inputs := [], types := o.types.map KType.toInput, K := some o.K,
    M := some o.M, N := o.rows.N, data := o.rows.data }

/-- src/knn/mvknn.py:388-403 `from_metadata`. -/
def load (m : Meta) : Except Exn Knn :=
  match new m.outputs m.inputs m.K m.M m.types with
  | .error e => .error e
  | .ok o => .ok { o with rows := ⟨m.N, Dict.ofItems m.data⟩ }

end Knn
end Cgpm
