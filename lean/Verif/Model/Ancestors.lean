import Verif.Model.Network

/-
Model of the remaining graph helpers of src/network/helpers.py.
-/
namespace Cgpm
namespace Net
variable {R V Ω : Type}

/-- src/network/helpers.py:64: the parents of a variable, `[]` if no component produces it. -/
def parentsOf (cgpms : List (NetCgpm R V Ω)) (vToC : Dict Nat Nat) (v : Nat) : List Nat :=
  match vToC.get? v with
  | none => []
  | some i => (cgpms[i]?.map NetCgpm.inputs).getD []

/-- src/network/helpers.py:63-66: the recursive function `ancestors`, with `limit` frames left on
the stack (`none`: recursion too deep). -/
def ancestorsGo (cgpms : List (NetCgpm R V Ω)) (vToC : Dict Nat Nat) :
    Nat → Nat → Option (List Nat)
  | 0, _ => none
  | limit + 1, v =>
    ((parentsOf cgpms vToC v).mapM fun p => ancestorsGo cgpms vToC limit p).map fun l =>
      l.flatten ++ parentsOf cgpms vToC v

/-- src/network/helpers.py:58-67 `retrieve_ancestors`; when the recursion is deeper than the
interpreter's `limit` it raises RuntimeError. -/
def retrieveAncestors (limit : Nat) (cgpms : List (NetCgpm R V Ω)) (q : Nat) :
    Except Exn (List Nat) :=
  if (variableToCgpm cgpms).has q then
    match ancestorsGo cgpms (variableToCgpm cgpms) limit q with
    | none => .error .runtime
    | some l => .ok l
  else .error .valueError

/-- src/network/helpers.py:75-76: the children of a variable. -/
def childrenOf (cgpms : List (NetCgpm R V Ω)) (v : Nat) : List Nat :=
  (cgpms.filter fun c => c.inputs.contains v).flatMap NetCgpm.outputs

/-- src/network/helpers.py:74-78: the recursive function `descendents`. -/
def descendentsGo (cgpms : List (NetCgpm R V Ω)) : Nat → Nat → Option (List Nat)
  | 0, _ => none
  | limit + 1, v =>
    ((childrenOf cgpms v).mapM fun c => descendentsGo cgpms limit c).map fun l =>
      l.flatten ++ childrenOf cgpms v

/-- src/network/helpers.py:69-79 `retrieve_descendents`. -/
def retrieveDescendents (limit : Nat) (cgpms : List (NetCgpm R V Ω)) (q : Nat) :
    Except Exn (List Nat) :=
  if (variableToCgpm cgpms).has q then
    match descendentsGo cgpms limit q with
    | none => .error .runtime
    | some l => .ok l
  else .error .valueError

end Net
end Cgpm
