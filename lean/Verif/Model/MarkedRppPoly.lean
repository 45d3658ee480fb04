import Verif.Model.MarkedRpp
import Verif.Model.SlowPoly

/-!
# Model of the dual stable Grothendieck P- and Q-polynomials of /repo/symmetric.py
-/

namespace Verif.Symm

open Tableaux Partition

/-- symmetric.py:408-415 `dual_stable_grothendieck_p(num_variables, mu, nu)`. -/
def dualStableGrothendieckP (n : Nat) (mu nu : List Nat) : Option SymPoly :=
  (countSemistandardMarkedRpp false nu n mu).bind (dualVectorize n mu nu)

/-- symmetric.py:417-419, 429-432 `dual_stable_grothendieck_q(num_variables, mu, nu)`. -/
def dualStableGrothendieckQ (n : Nat) (mu nu : List Nat) : Option SymPoly :=
  (countSemistandardMarkedRpp true nu n mu).bind (dualVectorize n mu nu)

/-- symmetric.py:425: `tuple(mu[i] + n - i for i in range(n))`, where `n = len(mu)`. -/
def staircaseMu (mu : List Nat) : List Nat :=
  (List.range mu.length).map (fun i => mu.getD i 0 + mu.length - i)

/-- symmetric.py:426: `tuple((nu[i] if i < len(nu) else 0) + n - i for i in range(n))`, where `n = len(mu)`. -/
def staircaseNu (mu nu : List Nat) : List Nat :=
  (List.range mu.length).map (fun i => (if i < nu.length then nu.getD i 0 else 0) + mu.length - i)

/-- symmetric.py:421-427 `dual_stable_grothendieck_s(num_variables, mu, nu)`. -/
def dualStableGrothendieckS (n : Nat) (mu nu : List Nat) : Option SymPoly :=
  if mu.length = 0 ∨ mu.getD (mu.length - 1) 0 > 0 then dualStableGrothendieckQ n (staircaseMu mu) (staircaseNu mu nu)
  else none

/-- symmetric.py:379-381 `mp_dual_stable_grothendieck_p(num_variables, mu, nu)`. -/
def mpDualStableGrothendieckP (n : Nat) (mu nu : List Nat) : Option SymPoly :=
  (dualStableGrothendieckP n mu nu).bind negateBeta

/-- symmetric.py:383-385 `mp_dual_stable_grothendieck_q(num_variables, mu, nu)`. -/
def mpDualStableGrothendieckQ (n : Nat) (mu nu : List Nat) : Option SymPoly :=
  (dualStableGrothendieckQ n mu nu).bind negateBeta

/-- symmetric.py:547-549 `gp_expansion(f)`. -/
def gpExpansion (n fuel : Nat) (f : SymPoly) : Option (Vec (List Nat) PolyVal) :=
  expansion (fun mu => dualStableGrothendieckP n mu []) (termFromHighest n) fuel f

/-- symmetric.py:551-553 `gq_expansion(f)`. -/
def gqExpansion (n fuel : Nat) (f : SymPoly) : Option (Vec (List Nat) PolyVal) :=
  expansion (fun mu => dualStableGrothendieckQ n mu []) (termFromHighest n) fuel f

/-- symmetric.py:555-557 `gs_expansion(f)`. -/
def gsExpansion (n fuel : Nat) (f : SymPoly) : Option (Vec (List Nat) PolyVal) :=
  expansion (fun mu => dualStableGrothendieckS n mu []) (termFromHighest n) fuel f

/-- symmetric.py:559-561 `mp_gp_expansion(f)`. -/
def mpGpExpansion (n fuel : Nat) (f : SymPoly) : Option (Vec (List Nat) PolyVal) :=
  expansion (fun mu => mpDualStableGrothendieckP n mu []) (termFromHighest n) fuel f

/-- symmetric.py:563-565 `mp_gq_expansion(f)`. -/
def mpGqExpansion (n fuel : Nat) (f : SymPoly) : Option (Vec (List Nat) PolyVal) :=
  expansion (fun mu => mpDualStableGrothendieckQ n mu []) (termFromHighest n) fuel f

/-- symmetric.py:685-699 `_slow_dual_stable_grothendieck_p`, `_slow_dual_stable_grothendieck_q`: `tabs` are the marked reverse
plane partitions, in the order of iteration.  An exception of `weight` is passed on. -/
def slowMarkedDual (n : Nat) (mu nu : List Nat) (tabs : List Tab) : Option SymPoly :=
  match Poly.pow Poly.beta (-1) with
  | none => none
  | some b =>
    if tabs.all (fun T => (markedRppWeight n T).isSome) then
      match slowVectorize n (fun T => (markedRppWeight n T).getD []) tabs (some (PolyVal.mk (Poly.neg b))) with
      | none => none
      | some f =>
        match Poly.pow (Poly.neg Poly.beta) ((mu.sum : Int) - nu.sum) with
        | none => none
        | some c => some (Vec.smul f (PolyVal.mk c))
    else none

end Verif.Symm
