import Verif.Model.Rpp
import Verif.Model.Marked

/-!
# Model of the marked reverse plane partitions of /repo/tableaux.py

The letters `1' < 1 < 2' < 2 < ...` are the integers `-1, 1, -2, 2, ...`.  `none` is an AssertionError.
-/

namespace Verif.Tableaux

open Partition

/-- tableaux.py:843 and 892: `any(i == j for i, j in diff)`. -/
def meetsDiagonal (diff : List (Nat × Nat)) : Bool := diff.any (fun b => b.1 == b.2)

/-- tableaux.py:893-898: the loop over the tableaux of the recursive call. -/
def markedRppLayer (n : Nat) (diff1 diff2 : List (Nat × Nat)) (tabs : Finset Tab) : Finset Tab :=
  tabs.image (fun tab => addAll diff2 (-(n : Int)) (addAll diff1 (n : Int) tab))

/-- tableaux.py:883-899 `_semistandard_marked_rpp(max_entry, mu, lam, diagonal_nonprimes)` (and L879-881
`semistandard_marked_rpp`, L875-877 `semistandard_shifted_rpp`, which call it); `none` is the AssertionError of L885, in
this call or one it makes. -/
def semistandardMarkedRpp (diagonalNonprimes : Bool) (lam : List Nat) : Nat → List Nat → Option (Finset Tab)
  | 0, mu =>
    if isStrictPartition mu then
      if mu = lam then some {Tab.empty} else some ∅
    else none
  | n + 1, mu =>
    if isStrictPartition mu then
      if mu = lam then some {Tab.empty}
      else if contains mu lam then do
        let strips1 ← shiftedRppHorizontalStrips mu
        let ans ← strips1.mapM (fun s1 => do
          let strips2 ← shiftedRppVerticalStrips s1.1
          let ans ← strips2.mapM (fun s2 =>
            if diagonalNonprimes || !meetsDiagonal s1.2 then
              (semistandardMarkedRpp diagonalNonprimes lam n s2.1).map (markedRppLayer (n + 1) s1.2 s2.2)
            else some ∅)
          some (unionAll ans))
        some (unionAll ans)
      else some ∅
    else none

/-- tableaux.py:848: `len({j for _, j in diff1}) + len({i for i, _ in diff2})`. -/
def markedRppSize (diff1 diff2 : List (Nat × Nat)) : Nat :=
  (diff1.map Prod.snd).dedup.length + (diff2.map Prod.fst).dedup.length

/-- tableaux.py:835-852 `_count_semistandard_marked_rpp(max_entry, mu, lam, diagonal_nonprimes)` (and L831-833
`count_semistandard_marked_rpp`); `none` is the AssertionError of L837, in this call or one it makes. -/
def countSemistandardMarkedRpp (diagonalNonprimes : Bool) (lam : List Nat) :
    Nat → List Nat → Option (Dict (List Nat) Int)
  | 0, mu =>
    if isStrictPartition mu then
      if mu = lam then some (Dict.empty.set [] 1) else some Dict.empty
    else none
  | n + 1, mu =>
    if isStrictPartition mu then
      if mu = lam then some (Dict.empty.set [] 1)
      else if contains mu lam then do
        let strips1 ← shiftedRppHorizontalStrips mu
        strips1.foldlM (fun ans s1 =>
          if !diagonalNonprimes && meetsDiagonal s1.2 then some ans
          else do
            let strips2 ← shiftedRppVerticalStrips s1.1
            strips2.foldlM (fun ans s2 =>
              if mu = s2.1 then some ans
              else (countSemistandardMarkedRpp diagonalNonprimes lam n s2.1).map (fun d =>
                rppCountLoop (markedRppSize s1.2 s2.2) d.items ans)) ans)
          Dict.empty
      else some Dict.empty
    else none

/-- tableaux.py:1293-1297: the body of the loops of `weight`. -/
def markedRppWeightStep (n : Nat) (b : Nat × Nat) (st : List (Finset Nat) × List (Finset Nat)) (x : Int) :
    Option (List (Finset Nat) × List (Finset Nat)) :=
  if x = 0 then none
  else if n < x.natAbs then none
  else if x > 0 then some (st.1.set (x.natAbs - 1) (insert b.2 (st.1.getD (x.natAbs - 1) ∅)), st.2)
  else some (st.1, st.2.set (x.natAbs - 1) (insert b.1 (st.2.getD (x.natAbs - 1) ∅)))

/-- tableaux.py:1286-1299 `MarkedReversePlanePartition.weight(n)`; `none` is the AssertionError of L1293 or an
IndexError. -/
def markedRppWeight (n : Nat) (T : Tab) : Option (List Nat) :=
  (T.items.foldlM (fun st (p : (Nat × Nat) × List Int) => p.2.foldlM (markedRppWeightStep n p.1) st)
    (List.replicate n ∅, List.replicate n ∅)).map (fun st =>
      (List.range n).map (fun i => (st.1.getD i ∅).card + (st.2.getD i ∅).card))

end Verif.Tableaux
