import Verif.Model.MarkedPoly
import Verif.Model.Dual

/-!
# Model of the slow generating functions of /repo/symmetric.py

The set of tableaux is given as a list `tabs`, in the order in which python iterates over it.
-/

namespace Verif.Symm

open Tableaux Partition

/-- partitions.py:206-210 `sort(mu)`. -/
def sortDown (mu : List Nat) : List Nat := (mu.insertionSort (· ≤ ·)).reverse

/-- symmetric.py:612-614: the `dictionary` of `_slow_vectorize`. -/
def slowDictionary (weight : Tab → List Nat) (tabs : List Tab) : Dict (List Nat) Int :=
  tabs.foldl (fun d T => bump d (weight T) 1) Dict.empty

/-- symmetric.py:615-616: the assertion.  A key that is missing from the defaultdict has value 0, as no stored count is 0
the assertion then fails at once. -/
def slowCheck (d : Dict (List Nat) Int) : Bool := d.keys.all (fun alpha => decide (d.getD (sortDown alpha) 0 = d.getD alpha 0))

/-- symmetric.py:618: `signs**sum(alpha) if signs else 1`. -/
def slowSign (signs : Option PolyVal) (alpha : List Nat) : PolyVal :=
  match signs with
  | some s => if s = 0 then 1 else s ^ alpha.sum
  | none => 1

/-- symmetric.py:610-621 `_slow_vectorize(n, tableaux, signs)`; `weight` is the method `weight(n)` of the tableaux.  `none`
is an AssertionError, of L616 or of `SymmetricMonomial`. -/
def slowVectorize (n : Nat) (weight : Tab → List Nat) (tabs : List Tab) (signs : Option PolyVal) : Option SymPoly :=
  let d := slowDictionary weight tabs
  if slowCheck d then
    match (d.items.filter (fun ac => isPartition (ac.1.map (fun a : Nat => (a : Int))))).foldlM
      (fun (e : Dict (List Nat) PolyVal) (ac : List Nat × Int) =>
        (mkMono n ac.1).map (fun key => e.set key ((ac.2 : PolyVal) * slowSign signs ac.1))) Dict.empty with
    | none => none
    | some e => some (mkSym n e)
  else none

/-- symmetric.py:623-643 `_slow_schur`, `_slow_schur_s`, `_slow_schur_q`, `_slow_schur_p`: `tabs` are the tableaux of
`Tableau.semistandard`, `semistandard_marked` or `semistandard_shifted_marked`. -/
def slowSchur (n : Nat) (tabs : List Tab) : Option SymPoly := slowVectorize n (weight n) tabs none

/-- symmetric.py:645-675 `_slow_stable_grothendieck_s`, `_slow_stable_grothendieck_q`, `_slow_stable_grothendieck_p`,
`_slow_stable_grothendieck`: `tabs` are the set-valued tableaux. -/
def slowGrothendieck (n : Nat) (mu nu : List Nat) (tabs : List Tab) : Option SymPoly :=
  match slowVectorize n (weight n) tabs (some (PolyVal.mk Poly.beta)) with
  | none => none
  | some f =>
    match Poly.pow Poly.beta ((nu.sum : Int) - mu.sum) with
    | none => none
    | some b => some (Vec.smul f (PolyVal.mk b))

/-- symmetric.py:677-683 `_slow_dual_stable_grothendieck`: `tabs` are the reverse plane partitions. -/
def slowDual (n : Nat) (mu nu : List Nat) (tabs : List Tab) : Option SymPoly :=
  match Poly.pow Poly.beta (-1) with
  | none => none
  | some b =>
    match slowVectorize n (rppWeight n) tabs (some (PolyVal.mk (Poly.neg b))) with
    | none => none
    | some f =>
      match Poly.pow (Poly.neg Poly.beta) ((mu.sum : Int) - nu.sum) with
      | none => none
      | some c => some (Vec.smul f (PolyVal.mk c))

end Verif.Symm
