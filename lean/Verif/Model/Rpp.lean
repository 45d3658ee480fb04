import Verif.Model.Tableau
import Mathlib.Data.Finset.Card

/-!
# Model of the reverse plane partitions of /repo/tableaux.py

Sets are lists without repetition, or finsets; the order in which the code runs through them does not matter to the
results, which are sets and dicts.
-/

namespace Verif.Tableaux

open Partition

/-- tableaux.py:637-643 `remove_all_boxes`, L671-677, L706-712: the queue holds at most one element, so this is the
chain got by applying `remove_box` again and again.  `remove_box` yields at most one partition; each has one box less
than the one before, so `fuel = sum(nu)` rounds suffice. -/
def removeAllBoxes (removeBox : List Nat → Option (List Nat)) : Nat → List Nat → List (List Nat)
  | 0, nu => [nu]
  | fuel + 1, nu => nu :: (match removeBox nu with
    | some nu' => removeAllBoxes removeBox fuel nu'
    | none => [])

/-- tableaux.py:645-653 (and L679-687, L714-722): the loop over the queue of pairs `(nu, i)`; `i + 1` is the argument.
The queue is worked off in the order of decreasing `i`, so all pairs with the same `i` make up one level.  The list
holds the partitions put into `ans`, in the order of the calls of `ans.add`. -/
def removeLoop (removeBox : Nat → List Nat → Option (List Nat)) : Nat → List (List Nat) → List (List Nat)
  | 0, _ => []
  | i + 1, level =>
    let new := level.flatMap (fun nu => removeAllBoxes (removeBox i) nu.sum nu)
    new ++ removeLoop removeBox i new

/-- tableaux.py:628-635 `remove_box(nu, i)` in `_rpp_horizontal_strips`. -/
def rppRemoveBox (lam : List Nat) (i : Nat) (nu : List Nat) : Option (List Nat) :=
  if i < nu.length ∧ nu.getD i 0 > 0 then
    let nu := trim (nu.set i (nu.getD i 0 - 1))
    if (List.range (nu.length - 1)).all (fun j => decide (nu.getD j 0 ≥ nu.getD (j + 1) 0)) then
      if contains nu lam then some nu else none
    else none
  else none

/-- tableaux.py:620-655 `_rpp_horizontal_strips(mu, lam)`. -/
def rppHorizontalStrips (mu lam : List Nat) : List (List Nat × List (Nat × Nat)) :=
  if mu = lam then [(mu, [])]
  else if contains mu lam then
    (removeLoop (rppRemoveBox lam) mu.length [mu]).dedup.map (fun nu => (nu, skew mu nu))
  else []

/-- tableaux.py:612-618 `_rpp_vertical_strips(mu, lam)`. -/
def rppVerticalStrips (mu lam : List Nat) : List (List Nat × List (Nat × Nat)) :=
  (rppHorizontalStrips (transpose mu) (transpose lam)).map (fun s => (transpose s.1, s.2.map Prod.swap))

/-- tableaux.py:862-873 `_semistandard_rpp(max_entry, mu, lam)`. -/
def semistandardRpp (lam : List Nat) : Nat → List Nat → Finset Tab
  | 0, mu => if mu = lam then {Tab.empty} else ∅
  | n + 1, mu =>
    if mu = lam then {Tab.empty}
    else if contains mu lam then
      (rppVerticalStrips mu lam).toFinset.biUnion (fun s =>
        (semistandardRpp lam n s.1).image (addAll s.2 (n + 1)))
    else ∅

/-- tableaux.py:826-828 (and 849-851): `for partition, count in ...items()`. -/
def rppCountLoop (m : Nat) (items : List (List Nat × Int)) (ans : Dict (List Nat) Int) : Dict (List Nat) Int :=
  items.foldl (fun ans pc =>
    if pc.1 ≠ [] ∧ m > pc.1.getLastD 0 then ans else bump ans (pc.1 ++ [m]) pc.2) ans

/-- tableaux.py:816-829 `_count_semistandard_rpp(max_entry, mu, lam)`. -/
def countSemistandardRpp (lam : List Nat) : Nat → List Nat → Dict (List Nat) Int
  | 0, mu => if mu = lam then Dict.empty.set [] 1 else Dict.empty
  | n + 1, mu =>
    if mu = lam then Dict.empty.set [] 1
    else if contains mu lam then
      (rppVerticalStrips mu lam).foldl (fun ans s =>
        if mu = s.1 then ans
        else rppCountLoop (s.2.map Prod.snd).dedup.length (countSemistandardRpp lam n s.1).items ans) Dict.empty
    else Dict.empty

/-- tableaux.py:1276-1283 `ReversePlanePartition.weight(n)`, for entries with `1 ≤ |x| ≤ n`. -/
def rppWeight (n : Nat) (T : Tab) : List Nat :=
  (T.items.foldl (fun (ans : List (Finset Nat)) p => p.2.foldl (fun ans x =>
    ans.set (x.natAbs - 1) (insert p.1.2 (ans.getD (x.natAbs - 1) ∅))) ans) (List.replicate n ∅)).map Finset.card

/-! ### marked (shifted) reverse plane partitions -/

/-- tableaux.py:663-669 `remove_box(nu, i)` in `_shifted_rpp_horizontal_strips`. -/
def shiftedRppRemoveBox (i : Nat) (nu : List Nat) : Option (List Nat) :=
  if i < nu.length ∧ nu.getD i 0 > 0 then
    let nu := trim (nu.set i (nu.getD i 0 - 1))
    if (List.range (nu.length - 1)).all (fun j => decide (nu.getD j 0 > nu.getD (j + 1) 0)) then some nu else none
  else none

/-- tableaux.py:657-689 `_shifted_rpp_horizontal_strips(mu)`; `none` is the AssertionError of L659. -/
def shiftedRppHorizontalStrips (mu : List Nat) : Option (List (List Nat × List (Nat × Nat))) :=
  if isStrictPartition mu then
    if mu = [] then some [(mu, [])]
    else some ((removeLoop shiftedRppRemoveBox mu.length [mu]).dedup.map (fun nu => (nu, skew mu nu true)))
  else none

/-- tableaux.py:697-704 `remove_box(nu, i)` in `_shifted_rpp_vertical_strips`: the last row that ends in column
`i + 1`. -/
def shiftedRppRemoveColumnBox (i : Nat) (nu : List Nat) : Option (List Nat) :=
  match (List.range nu.length).reverse.find? (fun j => decide (j + nu.getD j 0 = i + 1)) with
  | some j => some (trim (nu.set j (nu.getD j 0 - 1)))
  | none => none

/-- tableaux.py:691-724 `_shifted_rpp_vertical_strips(mu)`; `none` is the AssertionError of L693. -/
def shiftedRppVerticalStrips (mu : List Nat) : Option (List (List Nat × List (Nat × Nat))) :=
  if isStrictPartition mu then
    if mu = [] then some [(mu, [])]
    else some ((removeLoop shiftedRppRemoveColumnBox (mu.headD 0) [mu]).dedup.map (fun nu => (nu, skew mu nu true)))
  else none

end Verif.Tableaux
