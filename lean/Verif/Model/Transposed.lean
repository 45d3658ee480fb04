import Verif.Model.Expansion
import Verif.Model.MarkedRppPoly

/-!
# Model of the transposed dual stable Grothendieck polynomials of /repo/symmetric.py

The set of tableaux is given as a list `tabs`, in the order in which python iterates over it.
-/

namespace Verif.Symm

open Tableaux Partition

/-- symmetric.py:711, 738, 774: `{x for x, y, v in tab if v[0] == i}`.  No box has an empty tuple `v` of entries. -/
def rowsWith (T : Tab) (i : Int) : Finset Nat :=
  ((T.items.filter (fun p => decide (p.2.head? = some i))).map (fun p => p.1.1)).toFinset

/-- symmetric.py:739, 775: `{y for x, y, v in tab if v[0] == i}`. -/
def colsWith (T : Tab) (i : Int) : Finset Nat :=
  ((T.items.filter (fun p => decide (p.2.head? = some i))).map (fun p => p.1.2)).toFinset

/-- symmetric.py:712: `{(x, y) for x, y, v in tab if v[0] == i}`. -/
def cellsWith (T : Tab) (i : Int) : Finset (Nat × Nat) :=
  ((T.items.filter (fun p => decide (p.2.head? = some i))).map (fun p => p.1)).toFinset

/-- symmetric.py:740, 776: `{(x, y) for x, y, v in tab if abs(v[0]) == i}`. -/
def cellsWithAbs (T : Tab) (i : Nat) : Finset (Nat × Nat) :=
  ((T.items.filter (fun p => decide (p.2.head?.map Int.natAbs = some i))).map (fun p => p.1)).toFinset

/-- symmetric.py:711-714: the exponents of `x` and of `x + 1`. -/
def rowExponents (T : Tab) (i : Nat) : Int × Int :=
  ((rowsWith T i).card, ((cellsWith T i).card : Int) - (rowsWith T i).card)

/-- symmetric.py:738-742, 774-778: the exponents of `x` and of `x + 1`. -/
def markExponents (T : Tab) (i : Nat) : Int × Int :=
  (((rowsWith T i).card : Int) + (colsWith T (-(i : Int))).card,
    ((cellsWithAbs T i).card : Int) - (rowsWith T i).card - (colsWith T (-(i : Int))).card)

/-- symmetric.py:713-714, 742, 778: `x**e * (x + 1)**d`; `none` if a power is None. -/
def transFactor (i : Nat) (ed : Int × Int) : Option Poly :=
  (Poly.pow (Poly.x i) ed.1).bind (fun p => (Poly.pow (Poly.addInt (Poly.x i) 1) ed.2).map (fun q => Poly.mul p q))

/-- symmetric.py:709-714, 736-742, 772-778: the product `m` for a tableau.  Python starts with the int 1. -/
def transTerm (n : Nat) (ex : Tab → Nat → Int × Int) (T : Tab) : Option Poly :=
  (List.range n).foldlM (fun m i => (transFactor (i + 1) (ex T (i + 1))).map (fun f => Poly.mul m f)) (Poly.const 1)

/-- symmetric.py:707-715, 734-743, 770-779: the polynomial `p`. -/
def transPoly (n : Nat) (ex : Tab → Nat → Int × Int) (tabs : List Tab) : Option Poly :=
  tabs.foldlM (fun p T => (transTerm n ex T).map (fun m => Poly.add p m)) Poly.zero

/-- symmetric.py:720: `tup[i - 1] = e`; negative indices count from the end, `none` is an IndexError. -/
def setAt (tup : List Int) (ie : Int × Int) : Option (List Int) :=
  if 1 ≤ ie.1 ∧ ie.1 ≤ tup.length then some (tup.set (ie.1 - 1).toNat ie.2)
  else if ie.1 ≤ 0 ∧ -(tup.length : Int) ≤ ie.1 - 1 then some (tup.set ((ie.1 - 1) + tup.length).toNat ie.2)
  else none

/-- symmetric.py:718-720: the list of exponents of a monomial. -/
def expoTuple (n : Nat) (e : Mono) : Option (List Int) := e.items.foldlM setAt (List.replicate n 0)

/-- symmetric.py:716-721, 744-749, 780-785: `dictionary`. -/
def transDict (n : Nat) (p : Poly) : Option (Dict (List Int) Int) :=
  p.keys.foldlM (fun d e => (expoTuple n e).map (fun tup => d.set tup (p.coeff e))) Dict.empty

/-- symmetric.py:716-726, 744-754, 780-790: the result, from the polynomial `p`.  `none` is an exception.  Python evaluates
`beta**-1` only if `p` has a term whose exponents form a partition. -/
def transVectorize (n : Nat) (mu nu : List Nat) (beta p : Poly) : Option SymPoly :=
  match transDict n p, Poly.pow beta (-1) with
  | some d, some b =>
    match ((d.items.filter (fun ac => isPartition ac.1)).map (fun ac => (ac.1.map Int.toNat, ac.2))).foldlM
      (fun (e : Dict (List Nat) PolyVal) (ac : List Nat × Int) =>
        (mkMono n ac.1).map (fun key => e.set key ((ac.2 : PolyVal) * (PolyVal.mk (Poly.neg b)) ^ ac.1.sum))) Dict.empty with
    | none => none
    | some e =>
      match Poly.pow (Poly.neg beta) ((mu.sum : Int) - nu.sum) with
      | none => none
      | some c => some (Vec.smul (mkSym n e) (PolyVal.mk c))
  | _, _ => none

/-- symmetric.py:701-726 `slow_transposed_dual_stable_grothendieck(num_variables, mu, nu, beta)`: `tabs` are the tableaux
of `Tableau.semistandard(num_variables, mu, nu)`. -/
def transposedDual (n : Nat) (mu nu : List Nat) (beta : Poly) (tabs : List Tab) : Option SymPoly :=
  (transPoly n rowExponents tabs).bind (transVectorize n mu nu beta)

/-- symmetric.py:728-754 `slow_transposed_dual_stable_grothendieck_p(num_variables, mu, nu, beta)` and 756-758, 768-790
`slow_transposed_dual_stable_grothendieck_q(num_variables, mu, nu, beta)`: `tabs` are the tableaux of
`Tableau.semistandard_shifted_marked(num_variables, mu, nu)`, without primes on the diagonal in the first case. -/
def transposedDualMarked (n : Nat) (mu nu : List Nat) (beta : Poly) (tabs : List Tab) : Option SymPoly :=
  (transPoly n markExponents tabs).bind (transVectorize n mu nu beta)

/-- symmetric.py:760-766 `slow_transposed_dual_stable_grothendieck_s(num_variables, mu, nu, beta)`: `tabs` are the tableaux
of `Tableau.semistandard_shifted_marked(num_variables, new_mu, new_nu)`. -/
def transposedDualS (n : Nat) (mu nu : List Nat) (beta : Poly) (tabs : List Tab) : Option SymPoly :=
  if mu.length = 0 ∨ mu.getD (mu.length - 1) 0 > 0 then
    transposedDualMarked n (staircaseMu mu) (staircaseNu mu nu) beta tabs
  else none

/-- symmetric.py:527-529 `j_expansion(f)`: `tabs mu` are the tableaux of `Tableau.semistandard(n, mu)`, in the order in
which python iterates over them. -/
def jExpansion (tabs : List Nat → List Tab) (n fuel : Nat) (f : SymPoly) : Option (Vec (List Nat) PolyVal) :=
  expansion (fun mu => transposedDual n mu [] (Poly.neg Poly.beta) (tabs mu)) (termFromHighest n) fuel f

/-- symmetric.py:566-568 `jp_expansion(f)`: the set of tableaux for which `tabs mu` stands raises an AssertionError if `mu`
is not strict. -/
def jpExpansion (tabs : List Nat → List Tab) (n fuel : Nat) (f : SymPoly) : Option (Vec (List Nat) PolyVal) :=
  expansion (fun mu => (semistandardShiftedMarked false false [] n mu).bind (fun _ =>
    transposedDualMarked n mu [] (Poly.neg Poly.beta) (tabs mu))) (termFromHighest n) fuel f

/-- symmetric.py:570-572 `jq_expansion(f)`. -/
def jqExpansion (tabs : List Nat → List Tab) (n fuel : Nat) (f : SymPoly) : Option (Vec (List Nat) PolyVal) :=
  expansion (fun mu => (semistandardShiftedMarked true false [] n mu).bind (fun _ =>
    transposedDualMarked n mu [] (Poly.neg Poly.beta) (tabs mu))) (termFromHighest n) fuel f

/-- symmetric.py:574-576 `js_expansion(f)`: `tabs mu` are the tableaux for the moved shape. -/
def jsExpansion (tabs : List Nat → List Tab) (n fuel : Nat) (f : SymPoly) : Option (Vec (List Nat) PolyVal) :=
  expansion (fun mu => transposedDualS n mu [] (Poly.neg Poly.beta) (tabs mu)) (termFromHighest n) fuel f

end Verif.Symm
