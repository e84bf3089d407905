import Verif.Model.Network

/-
Model of the dummy coding of covariates: dummy_code of src/utils/data.py:123-159.

Simplification: a value is a real number or NaN, which is `none`.
-/
namespace Cgpm

open Classical in
/-- src/utils/data.py:146-157 `as_code`.  `int(nan)` raises ValueError; a float equals its
truncation exactly if it equals its floor. -/
noncomputable def asCode (discretes : Dict Nat Nat) (i : Nat) (val : Option ℝ) :
    Except Exn (List (Option ℝ)) :=
  match discretes.get? i, val with
  | none, _ => .ok [val]
  | some _, none => .error .valueError
  | some k, some x =>
    if x ≠ (⌊x⌋ : ℝ) then .error .typeError
    else if ¬ (0 ≤ x ∧ x < k) then .error .valueError
    else .ok (if x < (k : ℝ) - 1 then (List.replicate (k - 1) (some 0)).set ⌊x⌋.toNat (some 1)
      else List.replicate (k - 1) (some 0))

/-- src/utils/data.py:123-159 `dummy_code`. -/
noncomputable def dummyCode (x : List (Option ℝ)) (discretes : Dict Nat Nat) :
    Except Exn (List (Option ℝ)) :=
  if discretes.isEmpty then .ok x
  else (Net.collect (fun p => asCode discretes p.2 p.1) x.zipIdx).map List.flatten

end Cgpm
