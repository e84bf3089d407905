import Verif.Model.View
import Verif.Model.Network

/-
Model of the queries on a View: View.logpdf (src/mixtures/view.py:275-329), which goes through
an importance network made of the view's Crp and its Dims, and the direct computation of
src/crosscat/sampling.py:70-116.

Simplifications, global to this file:
* `z` is `view.outputs[0]`, the name of the cluster variable; it is an argument of the queries
  (the View structure does not store it).
* A rowid is `some r` with `r : Nat`, or `none`, which stands for `None` and for the negative
  integers: both are hypothetical rows.
* What the components return from `simulate` is given by a `Simulator`, an arbitrary function
  of the outcome of the draws and of the arguments; this file is about densities.
-/
namespace Cgpm

/-- A value of a variable of the network of a view: a cluster or a cell. -/
inductive Val (C : Cat)
  | tab (k : Tab)
  | cell (x : C.Cell)

/-- What the components of a view return from `simulate`. -/
structure Simulator (C : Cat) (Ω : Type) where
  crp : Ω → Option Row → Tab
  dim : Ω → Col → Tab → List C.Cell → C.V

namespace View
variable {C : Cat} {Ω : Type}

/-- The Crp of the view as a component of a network: `self.crp.clusters[0]`
(src/mixtures/view.py:386); `logpdf` is src/primitives/crp.py:61-69, whose assertion on the keys
is the `none` case. -/
noncomputable def crpCgpm (sim : Simulator C Ω) (z : Nat) (crp : Crp) :
    NetCgpm (Option Row) (Val C) Ω where
  outputs := [z]
  inputs := []
  logpdf := fun rowid targets _ =>
    match targets z with
    | some (.tab k) => .ok (crp.logpdf rowid k)
    | some (.cell _) => .error .typeError
    | none => .error .assertion
  simulate := fun ω rowid ts _ _ => .ok (ts.map fun t => (t, .tab (sim.crp ω rowid)))

/-- The cells among the inputs of a Dim, in the order of `self.inputs[1:]`. -/
def cellInputs (ins : Look (Val C)) : List Col → Except Exn (List C.Cell)
  | [] => .ok []
  | i :: t =>
    match ins i with
    | some (.cell x) => (cellInputs ins t).map (x :: ·)
    | some (.tab _) => .error .typeError
    | none => .error .keyError

/-- A Dim as a component of a network: src/mixtures/dim.py:127-132 `logpdf`, with `preprocess`
(L239-255) taking the cluster out of the inputs. -/
def dimCgpm (sim : Simulator C Ω) (z : Nat) (d : Dim C) : NetCgpm (Option Row) (Val C) Ω where
  outputs := [d.index]
  inputs := z :: d.inputs
  logpdf := fun rowid targets ins =>
    match ins z with
    | some (.tab k) =>
      match cellInputs ins d.inputs with
      | .error e => .error e
      | .ok is =>
        match targets d.index with
        | some (.cell x) => d.logpdf rowid k x is
        | some (.tab _) => .error .typeError
        | none => .error .keyError
    | some (.cell _) => .error .typeError
    | none => .error .valueError
  simulate := fun ω _ ts _ ins =>
    match ins z with
    | some (.tab k) =>
      match cellInputs ins d.inputs with
      | .error e => .error e
      | .ok is => .ok (ts.map fun t => (t, .cell (some (sim.dim ω d.index k is))))
    | some (.cell _) => .error .typeError
    | none => .error .valueError

/-- src/mixtures/view.py:384-388 `build_network`. -/
noncomputable def buildNetwork (ord : PyOrder) (sim : Simulator C Ω) (z : Nat) (v : View C) :
    Except Exn (Net.Network (Option Row) (Val C) Ω) :=
  Net.build ord (crpCgpm sim z v.crp :: v.dims.vals.map (dimCgpm sim z)) (some 1)

/-- src/mixtures/view.py:452-453 `hypothetical`. -/
def hypothetical (v : View C) (rowid : Option Row) : Bool :=
  match rowid with
  | none => true
  | some r => !decide (r < v.crp.data.length)

/-- The outcomes of the draws made by the networks during one query: for the call number, the
sample and the component. -/
abbrev Draws (Ω : Type) := Nat → Nat → Nat → Ω

/-- One call of `network.logpdf` (src/network/importance.py:56-77); `n` numbers the call. -/
noncomputable def netLogpdf (ord : PyOrder) (ω : Draws Ω) (n : Nat) (rowid : Option Row)
    (net : Net.Network (Option Row) (Val C) Ω) (targets constraints inputs : Dict Nat (Val C)) :
    Except Exn Fl :=
  Net.logpdf ord (ω (2 * n)) (ω (2 * n + 1)) rowid net targets constraints inputs

/-- src/mixtures/view.py:316-329: marginalise over the cluster by enumeration. -/
noncomputable def logpdfEnum (ord : PyOrder) (ω : Draws Ω) (v : View C) (z : Nat)
    (net : Net.Network (Option Row) (Val C) Ω) (rowid : Option Row)
    (targets constraints inputs : Dict Nat (Val C)) : Except Exn Fl :=
  match v.crp.gibbsTables none 1 with
  | .error e => .error e
  | .ok K =>
    let consts := K.map fun k => constraints.update [(z, .tab k)]
    match Net.collect (fun p : Dict Nat (Val C) × Nat =>
        netLogpdf ord ω p.2 rowid net p.1 [] inputs) consts.zipIdx with
    | .error e => .error e
    | .ok unorm =>
      match logNormalize unorm with
      | .error e => .error e
      | .ok lpc =>
        match Net.collect (fun p : Dict Nat (Val C) × Nat =>
            netLogpdf ord ω (K.length + p.2) rowid net targets p.1 inputs) consts.zipIdx with
        | .error e => .error e
        | .ok lpt => logsumexp (List.zipWith Fl.add lpc lpt)

/-- src/mixtures/view.py:287-329: the body of `logpdf`, once the constraints are known.  L307
passes `inputs` in the place of the constraints.  The recursive call of L313 is for a
hypothetical row and has no constraints, so it comes to the last branch. -/
noncomputable def logpdfCore (ord : PyOrder) (sim : Simulator C Ω) (ω : Draws Ω) (v : View C)
    (z : Nat) (rowid : Option Row) (targets constraints inputs : Dict Nat (Val C)) :
    Except Exn Fl :=
  match v.buildNetwork ord sim z with
  | .error e => .error e
  | .ok net =>
    if constraints.has z then netLogpdf ord ω 0 rowid net targets constraints inputs
    else
      match targets.get? z with
      | some k =>
        let targetsNumer := Dict.update (targets.erase z) constraints
        match netLogpdf ord ω 0 rowid net [(z, k)] inputs [] with
        | .error e => .error e
        | .ok lpCluster =>
          match if targetsNumer.isEmpty then .ok (Fl.fin 0)
                else netLogpdf ord ω 1 rowid net targetsNumer [(z, k)] inputs with
          | .error e => .error e
          | .ok lpNumer =>
            match if constraints.isEmpty then .ok (Fl.fin 0)
                  else logpdfEnum ord (fun n => ω (n + 4)) v z net rowid constraints [] [] with
            | .error e => .error e
            | .ok lpDenom => .ok ((lpCluster.add lpNumer).sub lpDenom)
      | none => logpdfEnum ord ω v z net rowid targets constraints inputs

/-- src/mixtures/view.py:510-514 `good_constraints`: the cell is not observed, or the constraint
agrees with it up to the tolerance of `np.allclose` (`close`; false when the constraint is NaN). -/
def goodConstraint (close : C.V → C.V → Bool) (X : C.Tbl) (v : View C) (r : Row) (e : Col)
    (x : Val C) : Bool :=
  if v.dims.has e then
    match X e r, x with
    | none, _ => true
    | some y, .cell (some w) => close y w
    | some _, _ => false
  else true

/-- src/mixtures/view.py:496-518 `_validate_cgpm_query` (duplicates among the targets, which
only `simulate` checks for, cannot occur in the dict given to `logpdf`). -/
def validateQuery (close : C.V → C.V → Bool) (X : C.Tbl) (v : View C) (z : Nat)
    (rowid : Option Row) (targets : List Nat) (constraints : Dict Nat (Val C)) :
    Except Exn Unit :=
  if targets.any fun t => constraints.has t then .error .valueError
  else
    match v.hypothetical rowid, rowid with
    | false, some r =>
      if targets.contains z || constraints.has z then .error .valueError
      else if constraints.any fun p => !goodConstraint close X v r p.1 p.2 then
        .error .valueError
      else .ok ()
    | _, _ => .ok ()

/-- src/mixtures/view.py:455-475 `_populate_constraints`. -/
def populateConstraints (close : C.V → C.V → Bool) (X : C.Tbl) (v : View C) (z : Nat)
    (rowid : Option Row) (targets : List Nat) (constraints : Dict Nat (Val C)) :
    Except Exn (Dict Nat (Val C)) :=
  match validateQuery close X v z rowid targets constraints with
  | .error e => .error e
  | .ok () =>
    match v.hypothetical rowid, rowid with
    | false, some r =>
      let data : Dict Nat (Val C) := (v.dims.keys.filter fun c =>
        !targets.contains c && !constraints.has c && (X c r).isSome).map fun c => (c, .cell (X c r))
      match v.seat r with
      | none => .error .keyError
      | some k => .ok (Dict.update constraints (data ++ [(z, .tab k)]))
    | _, _ => .ok constraints

/-- src/mixtures/view.py:275-329 `logpdf`. -/
noncomputable def logpdf (close : C.V → C.V → Bool) (X : C.Tbl) (ord : PyOrder)
    (sim : Simulator C Ω) (ω : Draws Ω) (v : View C) (z : Nat) (rowid : Option Row)
    (targets constraints inputs : Dict Nat (Val C)) : Except Exn Fl :=
  match populateConstraints close X v z rowid targets.keys constraints with
  | .error e => .error e
  | .ok constraints =>
    v.logpdfCore ord sim ω z (if v.hypothetical rowid then rowid else none)
      targets constraints inputs

/-- src/crosscat/sampling.py:102-107 `_logpdf_row` (`sum` starts from 0). -/
def logpdfRow (v : View C) (targets : Dict Col C.Cell) (k : Tab) : Except Exn LogP :=
  targets.foldl (fun acc p =>
    match acc with
    | .error e => .error e
    | .ok s =>
      match v.dims.get? p.1 with
      | none => .error .keyError
      | some d =>
        match d.logpdf none k p.2 [] with
        | .error e => .error e
        | .ok lp => .ok (s + lp)) (.ok 0)

/-- src/crosscat/sampling.py:70-82 `view_logpdf`. -/
noncomputable def fastLogpdf (v : View C) (rowid : Option Row)
    (targets constraints : Dict Col C.Cell) : Except Exn Fl :=
  match v.hypothetical rowid, rowid with
  | false, some r =>
    match v.seat r with
    | none => .error .keyError
    | some k => (v.logpdfRow targets k).map Fl.ofLogP
  | _, _ =>
    match v.crp.gibbsTables none 1 with
    | .error e => .error e
    | .ok K =>
      let lpCrp := K.map fun k =>
        Crp.calcPredictiveLogp k v.crp.data.length v.crp.counts v.crp.alpha
      match Net.collect (v.logpdfRow constraints) K with
      | .error e => .error e
      | .ok lpConstr =>
        if lpConstr.all fun w => w == (⊥ : LogP) then .error .valueError
        else
          match logNormalize (List.zipWith Fl.add (lpCrp.map Fl.fin) (lpConstr.map Fl.ofLogP)) with
          | .error e => .error e
          | .ok lpCluster =>
            match Net.collect (v.logpdfRow targets) K with
            | .error e => .error e
            | .ok lpTargets => logsumexp (List.zipWith Fl.add lpCluster (lpTargets.map Fl.ofLogP))

end View
end Cgpm
