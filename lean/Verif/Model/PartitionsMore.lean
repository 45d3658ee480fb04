import Verif.Model.Partitions
import Mathlib.Data.List.Sort

/-!
# Model of further parts of /repo/partitions.py

Continues `Verif.Model.Partitions`, with the same conventions.
-/

namespace Verif.Partition

/-- partitions.py:205-210 `sort(mu)` with `trim=False`, on ints. -/
def sortDesc (mu : List Int) : List Int := (mu.insertionSort (· ≤ ·)).reverse

/-- partitions.py:205-210 `sort(mu, trim=True)`, on non-negative ints. -/
def sortDescTrim (mu : List Nat) : List Nat := trim (mu.insertionSort (· ≤ ·)).reverse

/-- partitions.py:228-230 `is_strict(mu)` and 232-234 `is_strict_partition(mu)`, on ints. -/
def isStrictInt (mu : List Int) : Bool :=
  (List.range (mu.length - 1)).all (fun i => decide (mu.getD i 0 > mu.getD (i + 1) 0))

/-- partitions.py:527-530 `union(p, q)`. -/
def union (p q : List Nat) : List Nat :=
  trim ((List.range' 1 (max p.length q.length)).map (fun i => max (get p i) (get q i)))

/-- partitions.py:505-508 `add_box_to_row(p, row)`, for `row ≥ 1`. -/
def addBoxToRow (p : List Nat) (row : Nat) : List Nat :=
  trim ((List.range' 1 (max p.length row)).map (fun i => get p i + (if i = row then 1 else 0)))

/-- partitions.py:141-145: the loop over `i`, filling `dictionary`. -/
def complementDict (n : Nat) (mu : List Nat) : Dict Nat Nat :=
  (List.range n).foldl (fun d i =>
    let start := i + (if i < mu.length then mu.getD i 0 else 0) + 1
    (List.range' start (n + 1 - start)).foldl (fun d j => d.set j (d.getD j 0 + 1)) d) Dict.empty

/-- partitions.py:138-146 `complement(n, mu)`; `none` is the AssertionError of L140 (a comparison of ints, so
`n - i` may be negative). -/
def complement (n : Nat) (mu : List Nat) : Option (List Nat) :=
  if (List.range mu.length).all (fun i => decide ((mu.getD i 0 : Int) ≤ (n : Int) - i)) then
    some (sortDescTrim ((complementDict n mu).items.map Prod.snd))
  else none

/-- partitions.py:94-95 and 104-105: walk down a diagonal while the next box is in the shape, at most `fuel` steps. -/
def walkDiagonal (sh : List (Nat × Nat)) : Nat → Nat × Nat → Nat × Nat
  | 0, b => b
  | fuel + 1, b => if b ∈ sh then walkDiagonal sh fuel (b.1 + 1, b.2 + 1) else b

/-- partitions.py:90-98 `find_shifted_outer_corner(mu, diagonal)`.  The loop is given `sum(mu) + 1` rounds, enough
since each round visits a new box of the shape. -/
def findShiftedOuterCorner (mu : List Nat) (diagonal : Nat) : Option Nat :=
  let sh := shiftedShape mu
  let b := walkDiagonal sh (mu.sum + 1) (1, 1 + diagonal)
  if (b.1 = 1 ∨ (b.1 - 1, b.2) ∈ sh) ∧ (b.1 = b.2 ∨ (b.1, b.2 - 1) ∈ sh) then some b.1 else none

/-- partitions.py:100-110 `find_shifted_inner_corner(mu, diagonal)`.  The loop tests the box after `(i, j)`, so the
box found is the predecessor of the one where `walkDiagonal` stops. -/
def findShiftedInnerCorner (mu : List Nat) (diagonal : Nat) : Option Nat :=
  let sh := shiftedShape mu
  let b := walkDiagonal sh (mu.sum + 1) (1, diagonal + 1)
  let c : Nat × Nat := (b.1 - 1, b.2 - 1)
  if c ∉ sh then none
  else if (c.1 + 1, c.2) ∈ sh ∨ (c.1, c.2 + 1) ∈ sh then none
  else some c.1

/-- partitions.py:267-274 `successors(mu, strict)`; `fuel` bounds the depth of the recursion. -/
def successorsAux (strict : Bool) : Nat → List Nat → List (List Nat)
  | 0, _ => []
  | fuel + 1, mu =>
    let mu := trim mu
    (List.range mu.length).flatMap (fun i =>
      if i = 0 ∨ mu.getD (i - 1) 0 + (if strict then 0 else 1) > mu.getD i 0 + 1 then
        (successorsAux strict fuel (mu.drop (i + 1))).map
          (fun nu => trim (mu.take i ++ (mu.getD i 0 + 1) :: nu))
      else []) ++ [mu]

/-- partitions.py:267-274 `successors(mu, strict)`: each recursive call has a shorter argument. -/
def successors (mu : List Nat) (strict : Bool) : List (List Nat) := successorsAux strict (mu.length + 1) mu

/-- partitions.py:410-415 `decrement_one(nu)`: the `while` loop from index `i`. -/
def decrementIndex (nu : List Nat) : Nat → Nat → Nat
  | 0, i => i
  | fuel + 1, i =>
    if i + 1 < nu.length ∧ (nu.getD i 0 : Int) - 1 ≤ nu.getD (i + 1) 0 then decrementIndex nu fuel (i + 1) else i

/-- partitions.py:410-415 `decrement_one(nu)` for `nu` with positive parts; `none` is the IndexError for `()`. -/
def decrementOne (nu : List Nat) : Option (List Nat) :=
  if nu = [] then none
  else
    let i := decrementIndex nu nu.length 0
    some (trim (nu.set i (nu.getD i 0 - 1)))

/-- partitions.py:421-426: the loop of `decrement_strict` on the part of `mu` from index `i` on; `a` is the entry at
`i`, already decremented. -/
def decrementRun : Nat → List Nat → List Nat
  | a, [] => [a]
  | a, b :: mu => if 0 < a ∧ a = b then a :: decrementRun (b - 1) mu else a :: b :: mu

/-- partitions.py:417-427 `decrement_strict(nu)` for `nu` with positive parts. -/
def decrementStrict (nu : List Nat) : List Nat :=
  if nu = [] then []
  else match trim nu with
    | [] => []
    | a :: mu => trim (decrementRun (a - 1) mu)

/-- partitions.py:435-437: the number of rows ending in the same column as row 0, counted from index `i`. -/
def sameColumn (mu : List Nat) : Nat → Nat → Nat
  | 0, i => i
  | fuel + 1, i => if i < mu.length ∧ mu.getD i 0 + i = mu.getD 0 0 then sameColumn mu fuel (i + 1) else i

/-- partitions.py:429-443 `decompose_shifted_shape_by_vertical_strips(mu)`; `fuel` bounds the depth of the recursion.
The decorator is the subject of C38. -/
def decomposeVerticalAux : Nat → List Nat → List (List Nat)
  | 0, _ => []
  | fuel + 1, mu =>
    let mu := trim mu
    if mu = [] then [[]]
    else
      let i := sameColumn mu mu.length 0
      (List.range (i + 1)).flatMap (fun a =>
        (decomposeVerticalAux fuel (mu.drop i)).map (fun nu =>
          trim (mu.take a ++ (List.range' a (i - a)).map (fun b => mu.getD b 0 - 1) ++ nu)))

/-- partitions.py:429-443 `decompose_shifted_shape_by_vertical_strips(mu)`. -/
def decomposeVertical (mu : List Nat) : List (List Nat) := decomposeVerticalAux (mu.length + 1) mu

/-- partitions.py:445-456 `decompose_shifted_shape_by_rims(mu)`; `fuel` bounds the depth of the recursion. -/
def decomposeRimsAux : Nat → List Nat → List (List Nat)
  | 0, _ => []
  | fuel + 1, mu =>
    let mu := trim mu
    if mu = [] then [[]]
    else
      (decomposeRimsAux fuel (mu.drop 1)).flatMap (fun nu =>
        let a := match nu with
          | [] => 0
          | x :: _ => x + 1
        let b := if mu.length > 1 then mu.getD 1 0 else 0
        (List.range' (max a b) (mu.getD 0 0 + 1 - max a b)).map (fun a => trim (a :: nu)))

/-- partitions.py:445-456 `decompose_shifted_shape_by_rims(mu)`. -/
def decomposeRims (mu : List Nat) : List (List Nat) := decomposeRimsAux (mu.length + 1) mu

/-- partitions.py:378-385 `shifted_ribbon(alpha)`. -/
def shiftedRibbon (alpha : List Nat) : List Nat × List Nat :=
  (trim ((List.range alpha.length).map (fun i => (alpha.drop i).sum)),
    trim ((List.range alpha.length).map (fun i => (alpha.drop (i + 1)).sum)))

end Verif.Partition
