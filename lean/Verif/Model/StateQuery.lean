import Verif.Model.State
import Verif.Model.ViewQuery
import Verif.Model.Ancestors

/-
Model of the structure queries of src/crosscat/state.py: dependence probability, row similarity
and relevance probability.

Simplifications, global to this file:
* A view is a component of the network of a State; what it answers to `logpdf` and `simulate` is
  a parameter (`ViewBehaviour`), the structure queries do not ask.
* A matrix is the function that gives its entries.
-/
namespace Cgpm

/-- What the views of a State answer as components of a network. -/
structure ViewBehaviour (C : Cat) (Ω : Type) where
  logpdf : Nat → View C → Option Row → Look (Val C) → Look (Val C) → Except Exn LogP
  simulate : Nat → View C → Ω → Option Row → List Nat → Look (Val C) → Look (Val C) →
    Except Exn (Dict Nat (Val C))

namespace State
variable {C : Cat} {Ω : Type}

/-- src/crosscat/state.py:143, 149: `self.crp_id_view + v`, the name of the cluster variable of
view `v`. -/
def token (v : Nat) : Nat := 10 ^ 7 + v

/-- A view as a component: its outputs are `[token] + dims` (src/mixtures/view.py:134-147), it has
no inputs (src/crosscat/state.py:150). -/
def viewCgpm (beh : ViewBehaviour C Ω) (v : Nat) (view : View C) :
    NetCgpm (Option Row) (Val C) Ω where
  outputs := token v :: view.dims.keys
  inputs := []
  logpdf := beh.logpdf v view
  simulate := beh.simulate v view

/-- src/crosscat/state.py:426-427 `build_cgpms`. -/
def buildCgpms (beh : ViewBehaviour C Ω) (s : State C)
    (hooked : Dict Nat (NetCgpm (Option Row) (Val C) Ω)) : List (NetCgpm (Option Row) (Val C) Ω) :=
  s.views.map (fun p => viewCgpm beh p.1 p.2) ++ hooked.vals

/-! ### Dependence probability -/

/-- src/crosscat/state.py:562-565: the ancestors of a variable; those of a column of the State are
the columns of its view. -/
def sourcesOf (limit : Nat) (cgpms : List (NetCgpm (Option Row) (Val C) Ω)) (Zv : Dict Col Nat)
    (col : Nat) : Except Exn (List Nat) :=
  match Zv.get? col with
  | none => Net.retrieveAncestors limit cgpms col
  | some v => .ok (Zv.keys.filter fun c => Zv.get? c = some v)

/-- src/crosscat/state.py:556-575 `_dependence_probability_composite`. -/
noncomputable def dependenceComposite (limit : Nat)
    (cgpms : List (NetCgpm (Option Row) (Val C) Ω)) (Zv : Dict Col Nat) (col0 col1 : Nat) :
    Except Exn ℝ :=
  if cgpms.any fun c => c.outputs.contains col0 && c.outputs.contains col1 then .ok 1
  else
    match sourcesOf limit cgpms Zv col0 with
    | .error e => .error e
    | .ok a0 =>
      match sourcesOf limit cgpms Zv col1 with
      | .error e => .error e
      | .ok a1 =>
        if a0.any fun a => a1.contains a then .ok 1
        else if (a0.filterMap Zv.get?).any fun v => (a1.filterMap Zv.get?).contains v then .ok 1
        else .ok 0

/-- An item of `{i: self.Zv(i) for i in self.outputs}` (src/crosscat/state.py:542). -/
def zvItem (s : State C) (i : Col) : Except Exn (Col × Nat) :=
  match s.Zv i with
  | none => .error .keyError
  | some v => .ok (i, v)

/-- src/crosscat/state.py:538-544 `dependence_probability`. -/
noncomputable def dependenceProbability (limit : Nat) (beh : ViewBehaviour C Ω) (s : State C)
    (hooked : Dict Nat (NetCgpm (Option Row) (Val C) Ω)) (col0 col1 : Nat) : Except Exn ℝ :=
  if s.outputs.contains col0 && s.outputs.contains col1 then
    match s.Zv col0, s.Zv col1 with
    | some a, some b => .ok (if a = b then 1 else 0)
    | _, _ => .error .keyError
  else
    match Net.collect s.zvItem s.outputs with
    | .error e => .error e
    | .ok Zv => dependenceComposite limit (s.buildCgpms beh hooked) Zv col0 col1

/-- `itertools.combinations(l, 2)`. -/
def pairsOf {α : Type} : List α → List (α × α)
  | [] => []
  | a :: t => t.map (fun b => (a, b)) ++ pairsOf t

/-- The assignment `D[i, j] = D[j, i] = d`. -/
def setSym {α : Type} (D : Nat → Nat → α) (i j : Nat) (d : α) : Nat → Nat → α :=
  fun a b => if a = j ∧ b = i then d else if a = i ∧ b = j then d else D a b

/-- The loops of src/crosscat/state.py:551-553 and 592-594. -/
def fillPairs {α : Type} (f : Nat → Nat → Except Exn α) (ix : Nat → Nat) :
    List (Nat × Nat) → (Nat → Nat → α) → Except Exn (Nat → Nat → α)
  | [], D => .ok D
  | (i, j) :: t, D =>
    match f i j with
    | .error e => .error e
    | .ok d => fillPairs f ix t (setSym D (ix i) (ix j) d)

/-- src/crosscat/state.py:546-554 `dependence_probability_pairwise` (a column listed twice is known
to `reindex` by its last position). -/
noncomputable def dependencePairwise (limit : Nat) (beh : ViewBehaviour C Ω) (s : State C)
    (hooked : Dict Nat (NetCgpm (Option Row) (Val C) Ω)) (colnos : Option (List Nat)) :
    Except Exn (Nat → Nat → ℝ) :=
  let cols := colnos.getD s.outputs
  let reindex : Dict Nat Nat := Dict.update [] cols.zipIdx
  fillPairs (s.dependenceProbability limit beh hooked) (fun c => (reindex.get? c).getD 0)
    (pairsOf cols) fun i j => if i = j then 1 else 0

/-! ### Row similarity -/

/-- `self.view_for(c)`, with the identifier of the view. -/
def viewFor (s : State C) (c : Col) : Except Exn (Nat × View C) :=
  match s.Zv c with
  | none => .error .keyError
  | some i =>
    match s.views.get? i with
    | none => .error .keyError
    | some v => .ok (i, v)

/-- `set(self.view_for(c) for c in cols)`: a view is the same object exactly if its identifier is
the same; the order is immaterial. -/
def viewSet (s : State C) : List Col → Except Exn (Dict Nat (View C))
  | [] => .ok []
  | c :: cs =>
    match s.viewFor c with
    | .error e => .error e
    | .ok p =>
      match s.viewSet cs with
      | .error e => .error e
      | .ok vs => .ok (if vs.has p.1 then vs else p :: vs)

/-- `v.Zr(row0) == v.Zr(row1)`. -/
def sameCluster (v : View C) (r0 r1 : Row) : Except Exn Bool :=
  match v.seat r0, v.seat r1 with
  | some a, some b => .ok (a == b)
  | _, _ => .error .keyError

/-- `np.mean` of a list of truth values; of the empty list it is NaN. -/
noncomputable def meanBool (l : List Bool) : Fl :=
  if l.isEmpty then .nan else .fin ((l.count true : ℝ) / l.length)

/-- src/crosscat/state.py:580-584 `row_similarity`. -/
noncomputable def rowSimilarity (s : State C) (row0 row1 : Row) (cols : Option (List Col)) :
    Except Exn Fl :=
  match s.viewSet (cols.getD s.outputs) with
  | .error e => .error e
  | .ok vs =>
    match Net.collect (fun v => sameCluster v row0 row1) vs.vals with
    | .error e => .error e
    | .ok l => .ok (meanBool l)

/-- src/crosscat/state.py:586-594 `row_similarity_pairwise`. -/
noncomputable def rowSimilarityPairwise (s : State C) (cols : Option (List Col)) :
    Except Exn (Nat → Nat → Fl) :=
  fillPairs (fun i j => s.rowSimilarity i j (some (cols.getD s.outputs))) (fun r => r)
    (pairsOf (List.range s.nRows)) fun i j => if i = j then .fin 1 else .fin 0

/-! ### Relevance probability -/

/-- src/crosscat/state.py:607-610: the hypothetical rows, restricted to the columns of the view; rows
without any value are dropped. -/
def compatibleRows (v : View C) (hyps : List (Dict Col C.Cell)) : List (Dict Col C.Cell) :=
  (hyps.map fun h => v.dims.map fun p => (p.1, (h.get? p.1).getD none)).filter fun r =>
    !(r.all fun p => p.2.isNone)

/-- src/crosscat/state.py:614-618: the hypothetical rows are added, one by one, to the columns of
the view and to the view; `z r` is the cluster sampled for row `r`. -/
noncomputable def addHypothetical (z : Row → Tab) :
    List (Dict Col C.Cell) → Row → Dict Col (List C.Cell) → View C →
    Out (Dict Col (List C.Cell) × View C)
  | [], _, X, v => .ok (X, v)
  | q :: qs, r, X, v =>
    match pushRow q v.dims.keys X with
    | .err e X' => .err e (X', v)
    | .ok X' =>
      match v.incorporate (tblOf X') r q none (z r) with
      | .err e v' => .err e (X', v')
      | .ok v' => addHypothetical z qs (r + 1) X' v'

/-- src/crosscat/state.py:625-628: the `k` hypothetical rows `n, …, n + k - 1` are removed, the last
one first. -/
def removeHypothetical (n : Row) : Nat → Dict Col (List C.Cell) → View C →
    Out (Dict Col (List C.Cell) × View C)
  | 0, X, v => .ok (X, v)
  | k + 1, X, v =>
    match popRow v.dims.keys X with
    | .err e X' => .err e (X', v)
    | .ok X' =>
      match v.unincorporate (n + k) with
      | .err e v' => .err e (X', v')
      | .ok v' => removeHypothetical n k X' v'

/-- src/crosscat/state.py:620-623: `all(view.Zr(rowid_target) == view.Zr(rq) for rq in rowid_all)`. -/
def allSame (v : View C) (target : Row) : List Row → Except Exn Bool
  | [] => .ok true
  | q :: qs =>
    match sameCluster v target q with
    | .error e => .error e
    | .ok false => .ok false
    | .ok true => allSame v target qs

/-- src/crosscat/state.py:599-629 `relevance_probability`. -/
noncomputable def relevanceProbability (s : State C) (target : Row) (query : List Row) (col : Col)
    (hyps : List (Dict Col C.Cell)) (z : Row → Tab) : Res (State C) Nat :=
  if !s.outputs.contains col then .err .assertion s
  else
    match s.viewFor col with
    | .error e => .err e s
    | .ok (i, v) =>
      let rows := compatibleRows v hyps
      match addHypothetical z rows s.nRows s.X v with
      | .err e (X, v1) => .err e { s with X, views := s.views.set i v1 }
      | .ok (X, v1) =>
        let s1 := { s with X, views := s.views.set i v1 }
        let all := query ++ (List.range rows.length).map (s.nRows + ·)
        match if all.isEmpty then .ok false else allSame v1 target all with
        | .error e => .err e s1
        | .ok b =>
          match removeHypothetical s.nRows rows.length X v1 with
          | .err e (X', v2) => .err e { s1 with X := X', views := s1.views.set i v2 }
          | .ok (X', v2) =>
            .ok (if b then 1 else 0) { s1 with X := X', views := s1.views.set i v2 }

end State
end Cgpm
