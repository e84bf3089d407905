import Verif.Model.DummyCode
import Verif.Model.Dim

/-
Model of the row bookkeeping of the stand-alone CGPMs: the regressions
(src/regressions/linreg.py, src/regressions/ols.py, src/regressions/forest.py) and the multivariate
models (src/kde/mvkde.py, src/knn/mvknn.py, src/factor/factor.py).

Simplifications, global to this file:
* A value is a real number or NaN, which is `none`; the value `None` of Python is not represented.
* The parameters (regressor, bandwidths, factors) are dropped: `incorporate` and `unincorporate` do
  not touch them.
-/
namespace Cgpm

/-- The values of an observation, or of its inputs. -/
abbrev Vals := Dict Col (Option ℝ)

/-- The statistical type of an input: numeric, or nominal with the number `k` of its categories if
`statargs` says so. -/
inductive InputType
  | numeric
  | nominal (k : Option Nat)

/-- The schema of a regression. -/
structure RegSchema where
  output : Col
  inputs : List Col
  p : Nat
  discretes : Dict Nat Nat

namespace RegSchema

/-- `{i:c for i, c in enumerate(counts) if c}` -/
def discretesOf (counts : List (Option Nat)) : Dict Nat Nat :=
  counts.zipIdx.filterMap fun q =>
    match q.1 with
    | some (c + 1) => some (q.2, c + 1)
    | _ => none

/-- src/regressions/linreg.py:63-92 and src/regressions/ols.py:40-68: the constructors;
`count` is `_predictor_count`.  (A constructor takes a list of outputs, which must have one element;
duplicated inputs are not refused.) -/
def new (count : InputType → Except Exn (Nat × Option Nat)) (output : Col) (inputs : List Col)
    (types : List InputType) : Except Exn RegSchema :=
  if inputs.isEmpty then .error .assertion
  else if inputs.contains output then .error .assertion
  else if types.length ≠ inputs.length then .error .assertion
  else
    match Net.collect count types with
    | .error e => .error e
    | .ok l => .ok ⟨output, inputs, (l.map Prod.fst).sum + 1, discretesOf (l.map Prod.snd)⟩

/-- `set(inputs.keys()) == set(self.inputs)` -/
def sameKeys (g : RegSchema) (ins : Vals) : Bool :=
  (ins.keys.all g.inputs.contains) && g.inputs.all ins.has

end RegSchema

/-- The data of a regression: `self.N`, `self.data.x`, `self.data.Y`. -/
structure RegRows (X : Type) where
  N : ℤ
  x : Dict Row X
  Y : Dict Row (List (Option ℝ))

namespace RegRows
variable {X : Type}

/-- A regression without rows. -/
def empty : RegRows X := ⟨0, [], []⟩

/-- src/regressions/linreg.py:94-102, src/regressions/ols.py:70-78 and
src/regressions/forest.py:66-73 `incorporate`, `prep` being what `preprocess` answers. -/
def incorporate (o : RegRows X) (r : Row) (prep : Except Exn (X × List (Option ℝ))) :
    Out (RegRows X) :=
  if o.x.has r then .err .assertion o
  else if o.Y.has r then .err .assertion o
  else
    match prep with
    | .error e => .err e o
    | .ok (x, y) => .ok { N := o.N + 1, x := o.x.set r x, Y := o.Y.set r y }

/-- src/regressions/linreg.py:104-110, src/regressions/ols.py:80-86 and
src/regressions/forest.py:75-81 `unincorporate`. -/
def unincorporate (o : RegRows X) (r : Row) : Out (RegRows X) :=
  if o.x.has r then
    let o1 := { o with x := o.x.erase r }
    if o1.Y.has r then .ok { o1 with Y := o1.Y.erase r, N := o1.N - 1 }
    else .err .valueError o1
  else .err .valueError o

end RegRows

/-! ### Linear regression -/
namespace LinReg

/-- src/regressions/linreg.py:263-278 `_predictor_count`.  For a nominal input without `k` the
variables `p, counts` are unbound: UnboundLocalError. -/
def predictorCount : InputType → Except Exn (Nat × Option Nat)
  | .numeric => .ok (1, none)
  | .nominal (some k) => .ok (k, some (k + 1))
  | .nominal none => .error .runtime

/-- src/regressions/linreg.py:239-261 `preprocess`; `inputs=None` raises TypeError. -/
noncomputable def preprocess (g : RegSchema) (targets : Vals) (inputs : Option Vals) :
    Except Exn (Option ℝ × List (Option ℝ)) :=
  match inputs with
  | none => .error .typeError
  | some ins =>
    if ins.has g.output then .error .valueError
    else
      let x : Except Exn (Option ℝ) :=
        if targets.isEmpty then .ok none
        else match targets.get? g.output with
          | none => .error .valueError
          | some none => .error .valueError
          | some (some x) => .ok (some x)
      match x with
      | .error e => .error e
      | .ok x =>
        if !g.sameKeys ins then .error .valueError
        else
          match dummyCode (g.inputs.map fun i => (ins.get? i).getD none) g.discretes with
          | .error e => .error e
          | .ok y => if y.length ≠ g.p - 1 then .error .assertion else .ok (x, some 1 :: y)

/-- src/regressions/linreg.py:97-99: what `incorporate` stores. -/
noncomputable def prep (g : RegSchema) (obs : Vals) (inputs : Option Vals) :
    Except Exn (ℝ × List (Option ℝ)) :=
  if !obs.has g.output then .error .valueError
  else
    match preprocess g obs inputs with
    | .error e => .error e
    | .ok (some x, y) => .ok (x, y)
    | .ok (none, _) => .error .valueError

end LinReg

/-! ### Ordinary least squares -/
namespace Ols

/-- src/regressions/ols.py:175-186 `_predictor_count`. -/
def predictorCount : InputType → Except Exn (Nat × Option Nat)
  | .numeric => .ok (1, none)
  | .nominal (some k) => .ok (k - 1, some k)
  | .nominal none => .error .valueError

/-- src/regressions/ols.py:188-209 `preprocess`. -/
noncomputable def preprocess (g : RegSchema) (targets : Vals) (inputs : Option Vals) :
    Except Exn (Option ℝ × List (Option ℝ)) :=
  match inputs with
  | none => .error .typeError
  | some ins =>
    if ins.has g.output then .error .valueError
    else
      let x : Except Exn (Option ℝ) :=
        if targets.isEmpty then .ok none
        else match targets.get? g.output with
          | none => .error .valueError
          | some none => .error .valueError
          | some (some x) => .ok (some x)
      match x with
      | .error e => .error e
      | .ok x =>
        if !g.sameKeys ins then .error .valueError
        else
          let y := g.inputs.map fun i => (ins.get? i).getD none
          if y.any Option.isNone then .error .valueError
          else
            match dummyCode y g.discretes with
            | .error e => .error e
            | .ok y => if y.length ≠ g.p - 1 then .error .assertion else .ok (x, y)

/-- src/regressions/ols.py:73-75: what `incorporate` stores. -/
noncomputable def prep (g : RegSchema) (obs : Vals) (inputs : Option Vals) :
    Except Exn (ℝ × List (Option ℝ)) :=
  if !obs.has g.output then .error .valueError
  else
    match preprocess g obs inputs with
    | .error e => .error e
    | .ok (some x, y) => .ok (x, y)
    | .ok (none, _) => .error .valueError

end Ols

/-! ### Random forest -/
namespace Forest

/-- src/regressions/forest.py:40-54: the attributes set by the constructor; `p` is the number of
inputs. -/
structure Schema where
  output : Col
  inputs : List Col
  k : Nat
  p : Nat

/-- src/regressions/forest.py:40-54: the assertions of the constructor. -/
def new (output : Col) (inputs : List Col) (ntypes k : Nat) : Except Exn Schema :=
  if inputs.isEmpty then .error .assertion
  else if inputs.contains output then .error .assertion
  else if ntypes ≠ inputs.length then .error .assertion
  else .ok { output, inputs, k, p := ntypes }

open Classical in
/-- src/regressions/forest.py:187-209 `preprocess`. -/
noncomputable def preprocess (g : Schema) (targets : Vals) (inputs : Option Vals) :
    Except Exn (Nat × List (Option ℝ)) :=
  match inputs with
  | none => .error .typeError
  | some ins =>
    if ins.has g.output then .error .valueError
    else
      match targets.get? g.output with
      | none => .error .valueError
      | some none => .error .valueError
      | some (some x) =>
        if !g.inputs.all ins.has then .error .valueError
        else
          let y := (ins.keys.mergeSort (· ≤ ·)).map fun c => (ins.get? c).getD none
          if y.any Option.isNone then .error .valueError
          else if y.length ≠ g.p then .error .valueError
          else if ¬ (x = (⌊x⌋ : ℝ) ∧ 0 ≤ x ∧ x < g.k) then .error .indexError
          else .ok (⌊x⌋.toNat, y)

/-- A random forest: its rows and `self.counts`. -/
structure Obj where
  rows : RegRows Nat
  counts : List ℤ

/-- src/regressions/forest.py:55-58: no rows. -/
def Obj.empty (g : Schema) : Obj := ⟨.empty, List.replicate g.k 0⟩

/-- src/regressions/forest.py:66-73 `incorporate`. -/
noncomputable def Obj.incorporate (g : Schema) (o : Obj) (r : Row) (obs : Vals)
    (inputs : Option Vals) : Out Obj :=
  match o.rows.incorporate r (preprocess g obs inputs) with
  | .err e rows => .err e { o with rows }
  | .ok rows =>
    match preprocess g obs inputs with
    | .error e => .err e o
    | .ok (x, _) => .ok { rows, counts := o.counts.modify x (· + 1) }

/-- src/regressions/forest.py:75-81 `unincorporate`: `self.counts` keeps the row. -/
def Obj.unincorporate (o : Obj) (r : Row) : Out Obj :=
  (o.rows.unincorporate r).map fun rows => { o with rows }

end Forest

/-! ### Multivariate models -/

/-- The rows of a multivariate model: `self.data` and `self.N`. -/
structure MvRows where
  N : ℤ
  data : Dict Row (List (Option ℝ))

namespace MvRows

/-- No rows. -/
def empty : MvRows := ⟨0, []⟩

/-- src/kde/mvkde.py:93-111 and src/knn/mvknn.py:95-101, 353-366 `incorporate` (with
`latents = []` and `stored = outputs`); src/factor/factor.py:134-155 (with `stored` the observable
outputs). -/
def incorporate (outputs latents stored : List Col) (o : MvRows) (r : Row) (obs inputs : Vals) :
    Out MvRows :=
  if o.data.has r then .err .valueError o
  else if !inputs.isEmpty then .err .valueError o
  else if obs.isEmpty then .err .valueError o
  else if obs.keys.any fun q => !outputs.contains q then .err .valueError o
  else if obs.keys.any latents.contains then .err .valueError o
  else .ok { data := o.data.set r (stored.map fun q => (obs.get? q).getD none), N := o.N + 1 }

/-- src/kde/mvkde.py:113-118, src/knn/mvknn.py:103-106, 368-370 and src/factor/factor.py:157-162
`unincorporate`. -/
def unincorporate (o : MvRows) (r : Row) : Out MvRows :=
  if o.data.has r then .ok { data := o.data.erase r, N := o.N - 1 } else .err .valueError o

end MvRows

/-! ### Histories -/

/-- A call: `incorporate` or `unincorporate`. -/
inductive RowOp (O : Type)
  | inc (r : Row) (o : O)
  | unc (r : Row)

/-- A history of calls, exceptions being caught by the client. -/
def runRows {σ O : Type} (inc : σ → Row → O → Out σ) (unc : σ → Row → Out σ) (s : σ)
    (ops : List (RowOp O)) : σ :=
  ops.foldl (fun s op => match op with
    | .inc r o => (inc s r o).state
    | .unc r => (unc s r).state) s

namespace LinReg
/-- A history of calls on a linear regression. -/
noncomputable def run (g : RegSchema) (ops : List (RowOp (Vals × Option Vals))) : RegRows ℝ :=
  runRows (fun s r o => s.incorporate r (prep g o.1 o.2)) RegRows.unincorporate .empty ops
end LinReg

namespace Ols
/-- A history of calls on an ordinary least squares regression. -/
noncomputable def run (g : RegSchema) (ops : List (RowOp (Vals × Option Vals))) : RegRows ℝ :=
  runRows (fun s r o => s.incorporate r (prep g o.1 o.2)) RegRows.unincorporate .empty ops
end Ols

namespace Forest
/-- A history of calls on a random forest. -/
noncomputable def run (g : Schema) (ops : List (RowOp (Vals × Option Vals))) : Obj :=
  runRows (fun s r o => s.incorporate g r o.1 o.2) Obj.unincorporate (.empty g) ops
end Forest

namespace MvRows
/-- A history of calls on a multivariate model. -/
def run (outputs latents stored : List Col) (ops : List (RowOp (Vals × Vals))) : MvRows :=
  runRows (fun s r o => s.incorporate outputs latents stored r o.1 o.2) MvRows.unincorporate
    .empty ops
end MvRows

end Cgpm
