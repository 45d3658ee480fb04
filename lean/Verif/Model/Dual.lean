import Verif.Model.Expansion
import Verif.Model.Rpp

/-!
# Model of the dual stable Grothendieck polynomials of /repo/symmetric.py
-/

namespace Verif.Symm

/-- symmetric.py:406, 415, 432 `(-BETA)**(sum(mu) - sum(nu)) * _vectorize(num_variables, tableaux, -BETA**-1)`.  `none`
also for `None * _vectorize(...)`, a TypeError. -/
def dualVectorize (n : Nat) (mu nu : List Nat) (tableaux : Dict (List Nat) Int) : Option SymPoly :=
  match Poly.pow Poly.beta (-1) with
  | none => none
  | some b =>
    match vectorize n tableaux (some (PolyVal.mk (Poly.neg b))) none with
    | none => none
    | some f =>
      match Poly.pow (Poly.neg Poly.beta) ((mu.sum : Int) - nu.sum) with
      | none => none
      | some c => some (Vec.smul f (PolyVal.mk c))

/-- symmetric.py:399-406 `dual_stable_grothendieck(num_variables, mu, nu)`. -/
def dualStableGrothendieck (n : Nat) (mu nu : List Nat) : Option SymPoly :=
  dualVectorize n mu nu (Tableaux.countSemistandardRpp nu n mu)

/-- symmetric.py:375-377 `mp_dual_stable_grothendieck(num_variables, mu, nu)`. -/
def mpDualStableGrothendieck (n : Nat) (mu nu : List Nat) : Option SymPoly :=
  (dualStableGrothendieck n mu nu).bind negateBeta

/-- symmetric.py:519-521 `dual_grothendieck_expansion(f)`. -/
def dualGrothendieckExpansion (n fuel : Nat) (f : SymPoly) : Option (Vec (List Nat) PolyVal) :=
  expansion (fun mu => dualStableGrothendieck n mu []) (termFromHighest n) fuel f

/-- symmetric.py:523-525 `mp_dual_grothendieck_expansion(f)`. -/
def mpDualGrothendieckExpansion (n fuel : Nat) (f : SymPoly) : Option (Vec (List Nat) PolyVal) :=
  expansion (fun mu => mpDualStableGrothendieck n mu []) (termFromHighest n) fuel f

end Verif.Symm
