import Verif.Model.Expansion
import Verif.Model.Marked

/-!
# Model of the polynomials of marked tableaux of /repo/symmetric.py
-/

namespace Verif.Symm

open Tableaux

/-- symmetric.py:317, 334, 351 `BETA**(sum(nu) - sum(mu)) * _vectorize(num_variables, tableaux, BETA, degree_bound)`.
`none` also for `None * _vectorize(...)`, a TypeError. -/
def betaVectorize (n : Nat) (mu nu : List Nat) (tableaux : Dict (List Nat) Int) (bound : Option Int) : Option SymPoly :=
  match vectorize n tableaux (some (PolyVal.mk Poly.beta)) bound with
  | none => none
  | some f =>
    match Poly.pow Poly.beta ((nu.sum : Int) - mu.sum) with
    | none => none
    | some b => some (Vec.smul f (PolyVal.mk b))

/-- symmetric.py:275-282 `schur_s(num_variables, mu, nu)`. -/
def schurS (n : Nat) (mu nu : List Nat) : Option SymPoly :=
  vectorize n (countSemistandardMarked false nu n mu) none none

/-- symmetric.py:284-291 `schur_q(num_variables, mu, nu)`. -/
def schurQ (n : Nat) (mu nu : List Nat) : Option SymPoly :=
  (countSemistandardShiftedMarked true false nu n mu).bind (fun d => vectorize n d none none)

/-- symmetric.py:293-300 `schur_p(num_variables, mu, nu)`. -/
def schurP (n : Nat) (mu nu : List Nat) : Option SymPoly :=
  (countSemistandardShiftedMarked false false nu n mu).bind (fun d => vectorize n d none none)

/-- symmetric.py:310-317 `stable_grothendieck_s(num_variables, mu, nu, degree_bound)`. -/
def stableGrothendieckS (n : Nat) (mu nu : List Nat) (bound : Option Int) : Option SymPoly :=
  betaVectorize n mu nu (countSemistandardMarked true nu n mu) bound

/-- symmetric.py:327-334 `stable_grothendieck_q(num_variables, mu, nu, degree_bound)`. -/
def stableGrothendieckQ (n : Nat) (mu nu : List Nat) (bound : Option Int) : Option SymPoly :=
  (countSemistandardShiftedMarked true true nu n mu).bind (fun d => betaVectorize n mu nu d bound)

/-- symmetric.py:344-351 `stable_grothendieck_p(num_variables, mu, nu, degree_bound)`. -/
def stableGrothendieckP (n : Nat) (mu nu : List Nat) (bound : Option Int) : Option SymPoly :=
  (countSemistandardShiftedMarked false true nu n mu).bind (fun d => betaVectorize n mu nu d bound)

/-- symmetric.py:391-393 `mn_stable_grothendieck_p(num_variables, mu, nu)`. -/
def mnStableGrothendieckP (n : Nat) (mu nu : List Nat) : Option SymPoly :=
  (stableGrothendieckP n mu nu none).bind negateBeta

/-- symmetric.py:395-397 `mn_stable_grothendieck_q(num_variables, mu, nu)`. -/
def mnStableGrothendieckQ (n : Nat) (mu nu : List Nat) : Option SymPoly :=
  (stableGrothendieckQ n mu nu none).bind negateBeta

/-- symmetric.py:586-588 `P_expansion(f)`. -/
def PExpansion (n fuel : Nat) (f : SymPoly) : Option (Vec (List Nat) PolyVal) :=
  expansion (fun mu => schurP n mu []) (termFromLowest n) fuel f

/-- symmetric.py:602-604 `Q_expansion(f)`. -/
def QExpansion (n fuel : Nat) (f : SymPoly) : Option (Vec (List Nat) PolyVal) :=
  expansion (fun mu => schurQ n mu []) (termFromLowest n) fuel f

/-- symmetric.py:578-580 `GP_expansion(f)`. -/
def GPExpansion (n fuel : Nat) (f : SymPoly) : Option (Vec (List Nat) PolyVal) :=
  expansion (fun mu => stableGrothendieckP n mu [] none) (termFromLowest n) fuel f

/-- symmetric.py:590-592 `GQ_expansion(f)`. -/
def GQExpansion (n fuel : Nat) (f : SymPoly) : Option (Vec (List Nat) PolyVal) :=
  expansion (fun mu => stableGrothendieckQ n mu [] none) (termFromLowest n) fuel f

/-- symmetric.py:582-584 `mn_GP_expansion(f)`. -/
def mnGPExpansion (n fuel : Nat) (f : SymPoly) : Option (Vec (List Nat) PolyVal) :=
  expansion (fun mu => mnStableGrothendieckP n mu []) (termFromLowest n) fuel f

/-- symmetric.py:598-600 `mn_GQ_expansion(f)`. -/
def mnGQExpansion (n fuel : Nat) (f : SymPoly) : Option (Vec (List Nat) PolyVal) :=
  expansion (fun mu => mnStableGrothendieckQ n mu []) (termFromLowest n) fuel f

/-- symmetric.py:606-608 `S_expansion(f)`. -/
def SExpansion (n fuel : Nat) (f : SymPoly) : Option (Vec (List Nat) PolyVal) :=
  expansion (fun mu => schurS n mu []) (termFromLowest n) fuel f

/-- symmetric.py:594-596 `GS_expansion(f)`. -/
def GSExpansion (n fuel : Nat) (f : SymPoly) : Option (Vec (List Nat) PolyVal) :=
  expansion (fun mu => stableGrothendieckS n mu [] none) (termFromLowest n) fuel f

end Verif.Symm
