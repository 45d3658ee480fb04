import Verif.Model.MarkedPoly

/-!
# Model of the `doublebar` functions of /repo/symmetric.py
-/

namespace Verif.Symm

open Partition

/-- symmetric.py:305-307, 322-324, 339-341, 356-358: one round of the loop,
`ans += BETA**(sum(nu) - sum(x)) * skew(num_variables, mu, x, degree_bound)`.  `none` is an exception: `sum(None)` for
`x = None`, an exception of `skew`, or `None * skew(...)`. -/
def doublebarStep (skew : List Nat → Option SymPoly) (nu : List Nat) (ans : SymPoly) (x : Option (List Nat)) :
    Option SymPoly :=
  match x with
  | none => none
  | some x =>
    match skew x with
    | none => none
    | some f =>
      match Poly.pow Poly.beta ((nu.sum : Int) - x.sum) with
      | none => none
      | some b => some (Vec.add ans (Vec.smul f (PolyVal.mk b)))

/-- symmetric.py:303-308 `stable_grothendieck_s_doublebar(num_variables, mu, nu, degree_bound)`. -/
def stableGrothendieckSDoublebar (n : Nat) (mu nu : List Nat) (bound : Option Int) : Option SymPoly :=
  if contains mu nu then
    (removeInnerCorners nu).foldlM (doublebarStep (fun x => stableGrothendieckS n mu x bound) nu) (mkSym n Dict.empty)
  else some (mkSym n Dict.empty)

/-- symmetric.py:320-325 `stable_grothendieck_q_doublebar(num_variables, mu, nu, degree_bound)`. -/
def stableGrothendieckQDoublebar (n : Nat) (mu nu : List Nat) (bound : Option Int) : Option SymPoly :=
  if contains mu nu then
    (removeShiftedInnerCorners nu).foldlM (doublebarStep (fun x => stableGrothendieckQ n mu x bound) nu)
      (mkSym n Dict.empty)
  else some (mkSym n Dict.empty)

/-- symmetric.py:337-342 `stable_grothendieck_p_doublebar(num_variables, mu, nu, degree_bound)`. -/
def stableGrothendieckPDoublebar (n : Nat) (mu nu : List Nat) (bound : Option Int) : Option SymPoly :=
  if contains mu nu then
    (removeShiftedInnerCorners nu).foldlM (doublebarStep (fun x => stableGrothendieckP n mu x bound) nu)
      (mkSym n Dict.empty)
  else some (mkSym n Dict.empty)

/-- symmetric.py:354-359 `stable_grothendieck_doublebar(num_variables, mu, nu, degree_bound)`. -/
def stableGrothendieckDoublebar (n : Nat) (mu nu : List Nat) (bound : Option Int) : Option SymPoly :=
  if contains mu nu then
    (removeInnerCorners nu).foldlM (doublebarStep (fun x => stableGrothendieck n mu x bound) nu) (mkSym n Dict.empty)
  else some (mkSym n Dict.empty)

end Verif.Symm
