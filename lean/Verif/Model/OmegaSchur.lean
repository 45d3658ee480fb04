import Verif.Model.Expansion

/-! # Model of /repo/symmetric.py, `omega_schur_expansion` -/

namespace Verif.Symm

/-- The dict comprehension of symmetric.py:505-508: a later item overwrites an earlier one with the same key. -/
def transposeItems (l : List (List Nat × PolyVal)) (d : Dict (List Nat) PolyVal) : Dict (List Nat) PolyVal :=
  l.foldl (fun d p => d.set (Partition.transpose p.1) p.2) d

/-- symmetric.py:504-509 `omega_schur_expansion(f)`. -/
def omegaSchurExpansion (n fuel : Nat) (f : SymPoly) : Option (Vec (List Nat) PolyVal) :=
  match schurExpansion n fuel f with
  | none => none
  | some u => some (Vec.mk' (transposeItems u.dict.items Dict.empty) none)

end Verif.Symm
