import Verif.Model.LibCat
import Verif.Model.State

namespace Cgpm

/-- `is_collapsed()` of the primitives: False for src/primitives/beta.py:163-164 and
src/primitives/normal_trunc.py:156-157, True for the others (e.g. src/primitives/normal.py:146-147).
None of them is conditional (e.g. src/primitives/normal.py:154-155). -/
def Prim.isCollapsed : Prim → Bool
  | .beta _ => false
  | .normalTrunc _ _ _ _ => false
  | _ => true

/-- The class attributes of the primitives. -/
def libCfg (P : Prim → Prop) : Cfg (catOf P) where
  collapsed := fun i => i.1.isCollapsed
  conditional := fun _ => false

end Cgpm
