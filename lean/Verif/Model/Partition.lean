import Verif.Model.Py

/-
Model of the query partitioning helpers of src/utils/validation.py.
-/
namespace Cgpm
variable {L K V : Type} [DecidableEq L] [DecidableEq K]

/-- The common loop of src/utils/validation.py:124-131 and :142-148: `items` are appended one
by one to the list of their group. -/
def groupLoop {A : Type} (key : A → Option K) : List A → Dict K (List A) → Except Exn (Dict K (List A))
  | [], result => .ok result
  | l :: t, result =>
    match key l with
    | none => .error .keyError
    | some k =>
      match result.get? k with
      | some g => groupLoop key t (result.set k (g ++ [l]))
      | none => groupLoop key t (result.set k [l])

/-- src/utils/validation.py:115-131 `partition_list`. -/
def partitionList (Z : Dict L K) (items : List L) : Except Exn (Dict K (List L)) :=
  groupLoop (fun l => Z.get? l) items []

/-- src/utils/validation.py:133-149 `partition_dict`. The closing `dict(v)` turns the list of
pairs of a group into a dict; the keys of a dict being distinct, this is the same list. -/
def partitionDict (Z : Dict L K) (items : Dict L V) : Except Exn (Dict K (Dict L V)) :=
  groupLoop (fun p => Z.get? p.1) items []

/-- src/utils/validation.py:106-113 `partition_query_evidence`, for a query given as a
list of variables. -/
def partitionQueryEvidence (Z : Dict L K) (query : List L) (evidence : Option (Dict L V)) :
    Except Exn (Dict K (List L) × Dict K (Dict L V)) :=
  let evidences : Except Exn (Dict K (Dict L V)) :=
    match evidence with
    | none => .ok []
    | some e => partitionDict Z e
  match evidences with
  | .error e => .error e
  | .ok ev =>
    match partitionList Z query with
    | .error e => .error e
    | .ok q => .ok (q, ev)

/-- src/utils/validation.py:106-113 `partition_query_evidence`, for a query given as a dict. -/
def partitionQueryEvidenceDict (Z : Dict L K) (query : Dict L V) (evidence : Option (Dict L V)) :
    Except Exn (Dict K (Dict L V) × Dict K (Dict L V)) :=
  let evidences : Except Exn (Dict K (Dict L V)) :=
    match evidence with
    | none => .ok []
    | some e => partitionDict Z e
  match evidences with
  | .error e => .error e
  | .ok ev =>
    match partitionDict Z query with
    | .error e => .error e
    | .ok q => .ok (q, ev)

end Cgpm
