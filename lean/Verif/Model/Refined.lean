import Verif.Model.MarkedRppPoly
import Verif.Model.TabOps

/-!
# Model of the refined dual stable Grothendieck functions (symmetric.py 792-829)
-/

namespace Verif.Symm

open Tableaux Partition

/-- symmetric.py:796-798: the loop of `_diag_vector`, started in the box `(i, i)`; `none` if `abs` is applied to a tuple.
The first argument bounds the number of rounds. -/
def diagFrom (T : Tab) : Nat → Nat → Option (List Nat)
  | 0, _ => some []
  | fuel + 1, i =>
    match T.get? (i, i) with
    | none => some []
    | some [v] => (diagFrom T fuel (i + 1)).map (fun d => v.natAbs :: d)
    | some _ => none

/-- symmetric.py:792-799 `_diag_vector(rpp)`; a box `(i, i)` has `i ≤ max_row()`. -/
def diagVector (T : Tab) : Option (List Nat) := diagFrom T T.maxRow 1

/-- symmetric.py:803-805, 818-820: the tableaux `tabs`, in the order of iteration, by their diagonals. -/
def groupDiag (tabs : List Tab) : Option (Dict (List Nat) (List Tab)) :=
  tabs.foldlM (fun (d : Dict (List Nat) (List Tab)) T => (diagVector T).map (fun key => d.set key (d.getD key [] ++ [T]))) Dict.empty

/-- symmetric.py:610-621 `_slow_vectorize(n, tableaux, signs, check=False)`. -/
def slowVectorizeFree (n : Nat) (weight : Tab → List Nat) (tabs : List Tab) (signs : Option PolyVal) : Option SymPoly :=
  (((slowDictionary weight tabs).items.filter (fun ac => isPartition (ac.1.map (fun a : Nat => (a : Int))))).foldlM
    (fun (e : Dict (List Nat) PolyVal) (ac : List Nat × Int) =>
      (mkMono n ac.1).map (fun key => e.set key ((ac.2 : PolyVal) * slowSign signs ac.1))) Dict.empty).map (mkSym n)

/-- symmetric.py:808-813, 823-828: the value for one diagonal. -/
def refinedTerm (n : Nat) (mu nu : List Nat) (tabs : List Tab) : Option SymPoly :=
  match Poly.pow Poly.beta (-1) with
  | none => none
  | some b =>
    if tabs.all (fun T => (markedRppWeight n T).isSome) then
      match slowVectorizeFree n (fun T => (markedRppWeight n T).getD []) tabs (some (PolyVal.mk (Poly.neg b))) with
      | none => none
      | some f =>
        match Poly.pow (Poly.neg Poly.beta) ((mu.sum : Int) - nu.sum) with
        | none => none
        | some c => some (Vec.smul f (PolyVal.mk c))
    else none

/-- symmetric.py:801-829 `_slow_refined_dual_stable_grothendieck_p`, `_slow_refined_dual_stable_grothendieck_q`: `tabs` are the
marked reverse plane partitions, in the order of iteration.  The constructor `Vector` drops values without terms. -/
def slowRefinedDual (n : Nat) (mu nu : List Nat) (tabs : List Tab) : Option (Dict (List Nat) SymPoly) :=
  (groupDiag tabs).bind (fun d =>
    (d.items.foldlM (fun (e : Dict (List Nat) SymPoly) p => (refinedTerm n mu nu p.2).map (fun f => e.set p.1 f)) Dict.empty).map
      (fun e => e.filter (fun _ f => decide (f.len ≠ 0))))

end Verif.Symm
