import Verif.Model.Tableau

/-!
# Model of the marked and the standard tableaux of /repo/tableaux.py

A marked entry `i'` is the number `-i`.  Python sets are lists without repetition, or finsets; the order in which the
code runs through them does not matter to the results, which are sets and dicts.  `none` is an AssertionError.
-/

namespace Verif.Tableaux

open Partition

/-- A triple `(nu, diff, corners)`. -/
abbrev Strip := List Nat × List (Nat × Nat) × List (Nat × Nat)

/-- tableaux.py:544-553 `_vertical_strips(mu, lam)`. -/
def verticalStrips (mu lam : List Nat) : List Strip :=
  (horizontalStrips (transpose mu) (transpose lam)).map
    (fun s => (transpose s.1, s.2.1.map Prod.swap, s.2.2.map Prod.swap))

/-- tableaux.py:567-579 and 593-610: the `while level` loop; `none` if it has not ended after `fuel` rounds. -/
def levelLoop (next : List (List Nat) → List (List Nat)) (record : List Nat → Strip) :
    Nat → List (List Nat) → Option (List Strip)
  | 0, _ => none
  | fuel + 1, level =>
    if level.isEmpty then some []
    else (levelLoop next record fuel (next level)).map (fun rest => level.map record ++ rest)

/-- tableaux.py:561-564: `core` in `_shifted_horizontal_strips`. -/
def shiftedHorizontalCore (mu lam : List Nat) : List Nat :=
  (List.range mu.length).map (fun i =>
    let c := if i + 1 < mu.length then mu.getD (i + 1) 0 + 1 else 0
    if i < lam.length then max c (lam.getD i 0) else c)

/-- tableaux.py:570, 596: `diff`, the boxes of the shifted shape `mu/nu`. -/
def shiftedDiff (mu nu : List Nat) : List (Nat × Nat) :=
  (List.range mu.length).flatMap (fun i =>
    (List.range' (nu.getD i 0) (mu.getD i 0 - nu.getD i 0)).map (fun j => (i + 1, i + j + 1)))

/-- tableaux.py:571, 597: `nu if nu and nu[-1] > 0 else nu[:-1]`. -/
def dropZero (nu : List Nat) : List Nat := if nu.getLastD 0 > 0 then nu else nu.dropLast

/-- tableaux.py:570-573: the triple recorded by `_shifted_horizontal_strips`. -/
def shiftedHorizontalRecord (mu core nu : List Nat) : Strip :=
  (dropZero nu, shiftedDiff mu nu,
    ((List.range (dropZero nu).length).filter (fun i => decide (core.getD i 0 < (dropZero nu).getD i 0))).map
      (fun i => (i + 1, i + (dropZero nu).getD i 0)))

/-- tableaux.py:555-579 `_shifted_horizontal_strips(mu, lam)`; the next level (L574-578) is computed as in
`_horizontal_strips`.  `sum(mu) + 2` rounds of the loop suffice, so `none` is the AssertionError of L557. -/
def shiftedHorizontalStrips (mu lam : List Nat) : Option (List Strip) :=
  if isStrictPartition mu then
    if contains mu lam then
      levelLoop (nextLevel mu) (shiftedHorizontalRecord mu (shiftedHorizontalCore mu lam)) (mu.sum + 2)
        [shiftedHorizontalCore mu lam]
    else some []
  else none

/-- tableaux.py:587-590: `core` in `_shifted_vertical_strips` (for positive parts `a`, so that `a - 1 >= 0`). -/
def shiftedVerticalCore (mu lam : List Nat) : List Nat :=
  (List.range mu.length).map (fun i =>
    if i < lam.length then max (mu.getD i 0 - 1) (lam.getD i 0) else mu.getD i 0 - 1)

/-- tableaux.py:603-608: the next level in `_shifted_vertical_strips`. -/
def shiftedVerticalNext (mu : List Nat) (level : List (List Nat)) : List (List Nat) :=
  ((List.range mu.length).flatMap (fun i =>
    (level.filter (fun nu => decide (nu.getD i 0 < mu.getD i 0 ∧ (i = 0 ∨ 1 + nu.getD i 0 < nu.getD (i - 1) 0)))).map
      (fun nu => nu.set i (nu.getD i 0 + 1)))).dedup

/-- tableaux.py:596-602: the triple recorded by `_shifted_vertical_strips`. -/
def shiftedVerticalRecord (mu core nu : List Nat) : Strip :=
  (dropZero nu, shiftedDiff mu nu,
    ((List.range (dropZero nu).length).filter (fun i => decide (core.getD i 0 < (dropZero nu).getD i 0 ∧
      (i = (dropZero nu).length - 1 ∨ 1 + (dropZero nu).getD (i + 1) 0 < (dropZero nu).getD i 0)))).map
      (fun i => (i + 1, i + (dropZero nu).getD i 0)))

/-- tableaux.py:581-610 `_shifted_vertical_strips(mu, lam)`; `none` is the AssertionError of L583. -/
def shiftedVerticalStrips (mu lam : List Nat) : Option (List Strip) :=
  if isStrictPartition mu then
    if contains mu lam then
      levelLoop (shiftedVerticalNext mu) (shiftedVerticalRecord mu (shiftedVerticalCore mu lam)) (mu.sum + 2)
        [shiftedVerticalCore mu lam]
    else some []
  else none

/-- tableaux.py:980-987 (and 1015-1022): the loops over `aug1`, `aug2` and `tab`. -/
def markedLayer (setvalued : Bool) (n : Nat) (s1 s2 : Strip) (tabs : Finset Tab) : Finset Tab :=
  (subsets s1.2.1 s1.2.2 setvalued).toFinset.biUnion (fun aug1 =>
    (subsets s2.2.1 s2.2.2 setvalued).toFinset.biUnion (fun aug2 =>
      tabs.image (fun tab => addAll aug2 (-(n : Int)) (addAll aug1 n tab))))

/-- tableaux.py:972-988 `_semistandard_marked(max_entry, mu, lam, setvalued)`. -/
def semistandardMarked (setvalued : Bool) (lam : List Nat) : Nat → List Nat → Finset Tab
  | 0, mu => if mu = lam then {Tab.empty} else ∅
  | n + 1, mu =>
    if mu = lam then {Tab.empty}
    else if contains mu lam then
      (horizontalStrips mu lam).toFinset.biUnion (fun s1 =>
        (verticalStrips s1.1 lam).toFinset.biUnion (fun s2 =>
          markedLayer setvalued (n + 1) s1 s2 (semistandardMarked setvalued lam n s2.1)))
    else ∅

/-- tableaux.py:1011-1014 (and 795-798): without `diagonal_primes`, strips that meet the diagonal are skipped and the
corners on the diagonal dropped. -/
def diagonalFilter (diagonalPrimes : Bool) (strips : List Strip) : List Strip :=
  if diagonalPrimes then strips
  else (strips.filter (fun s => !s.2.1.any (fun b => decide (b.1 = b.2)))).map
    (fun s => (s.1, s.2.1, s.2.2.filter (fun b => decide (b.1 ≠ b.2))))

/-- Union of the sets of a list. -/
def unionAll (l : List (Finset Tab)) : Finset Tab := l.foldr (· ∪ ·) ∅

/-- tableaux.py:1002-1023 `_semistandard_shifted_marked(max_entry, mu, lam, diagonal_primes, setvalued)`; `none` is the
AssertionError of L1004, in this call or one it makes. -/
def semistandardShiftedMarked (diagonalPrimes setvalued : Bool) (lam : List Nat) :
    Nat → List Nat → Option (Finset Tab)
  | 0, mu =>
    if isStrictPartition mu then
      if mu = lam then some {Tab.empty} else some ∅
    else none
  | n + 1, mu =>
    if isStrictPartition mu then
      if mu = lam then some {Tab.empty}
      else if contains mu lam then do
        let strips1 ← shiftedHorizontalStrips mu lam
        let ans ← strips1.mapM (fun s1 => do
          let strips2 ← shiftedVerticalStrips s1.1 lam
          let ans ← (diagonalFilter diagonalPrimes strips2).mapM (fun s2 =>
            (semistandardShiftedMarked diagonalPrimes setvalued lam n s2.1).map
              (markedLayer setvalued (n + 1) s1 s2))
          some (unionAll ans))
        some (unionAll ans)
      else some ∅
    else none

/-- tableaux.py:767-775 (and 801-809): the loop over `j`. -/
def markedCountInner (maxEntry d k1 k2 i : Nat) (partition : List Nat) (count : Int) :
    List Nat → Dict (List Nat) Int → Dict (List Nat) Int
  | [], ans => ans
  | j :: js, ans =>
    let m := d + i + j
    if m = 0 then markedCountInner maxEntry d k1 k2 i partition count js (bump ans partition count)
    else if partition.length < maxEntry - 1 ∨ (partition ≠ [] ∧ m > partition.getLastD 0) then ans
    else markedCountInner maxEntry d k1 k2 i partition count js
      (bump ans (partition ++ [m]) (count * nchoosek k1 i * nchoosek k2 j))

/-- tableaux.py:765-775 (and 799-809): the loops over the items of the recursive call, over `i` and over `j`. -/
def markedCountLoop (setvalued : Bool) (n : Nat) (s1 s2 : Strip) (items : List (List Nat × Int))
    (ans : Dict (List Nat) Int) : Dict (List Nat) Int :=
  items.foldl (fun ans pc =>
    (List.range (if setvalued then s1.2.2.length + 1 else 1)).foldl (fun ans i =>
      markedCountInner n (s1.2.1.length + s2.2.1.length) s1.2.2.length s2.2.2.length i pc.1 pc.2
        (List.range (if setvalued then s2.2.2.length + 1 else 1)) ans) ans) ans

/-- tableaux.py:757-776 `_count_semistandard_marked(max_entry, mu, lam, setvalued)`. -/
def countSemistandardMarked (setvalued : Bool) (lam : List Nat) : Nat → List Nat → Dict (List Nat) Int
  | 0, mu => if mu = lam then Dict.empty.set [] 1 else Dict.empty
  | n + 1, mu =>
    if mu = lam then Dict.empty.set [] 1
    else if contains mu lam then
      (horizontalStrips mu lam).foldl (fun ans s1 =>
        (verticalStrips s1.1 lam).foldl (fun ans s2 =>
          markedCountLoop setvalued (n + 1) s1 s2 (countSemistandardMarked setvalued lam n s2.1).items ans) ans)
        Dict.empty
    else Dict.empty

/-- tableaux.py:786-810 `_count_semistandard_shifted_marked(max_entry, mu, lam, diagonal_primes, setvalued)`; `none` is
the AssertionError of L788. -/
def countSemistandardShiftedMarked (diagonalPrimes setvalued : Bool) (lam : List Nat) :
    Nat → List Nat → Option (Dict (List Nat) Int)
  | 0, mu =>
    if isStrictPartition mu then
      if mu = lam then some (Dict.empty.set [] 1) else some Dict.empty
    else none
  | n + 1, mu =>
    if isStrictPartition mu then
      if mu = lam then some (Dict.empty.set [] 1)
      else if contains mu lam then do
        let strips1 ← shiftedHorizontalStrips mu lam
        strips1.foldlM (fun ans s1 => do
          let strips2 ← shiftedVerticalStrips s1.1 lam
          (diagonalFilter diagonalPrimes strips2).foldlM (fun ans s2 => do
            let rec ← countSemistandardShiftedMarked diagonalPrimes setvalued lam n s2.1
            some (markedCountLoop setvalued (n + 1) s1 s2 rec.items ans)) ans) Dict.empty
      else some Dict.empty
    else none

/-- tableaux.py:923-938 `_standard(mu, lam)`.  Every call removes a box, so `fuel = sum(mu)` levels suffice.  For
partitions `mu` a part is never 0, so `nu[i] -= 1` is subtraction in `Nat`. -/
def standardLoop (lam : List Nat) : Nat → List Nat → Finset Tab
  | 0, mu => if mu = lam then {Tab.empty} else ∅
  | fuel + 1, mu =>
    if mu = lam then {Tab.empty}
    else if contains mu lam then
      (List.range mu.length).toFinset.biUnion (fun i =>
        let nu := trim (mu.set i (mu.getD i 0 - 1))
        if isPartition (nu.map (fun a : Nat => (a : Int))) then
          (standardLoop lam fuel nu).image (fun tab => tab.add (i + 1, mu.getD i 0) ((mu.sum : Int) - lam.sum))
        else ∅)
    else ∅

/-- tableaux.py:919-921 `standard(mu, nu)`. -/
def standard (mu lam : List Nat) : Finset Tab := standardLoop lam mu.sum mu

/-- tableaux.py:944-962 `_standard_shifted_marked(mu, lam, diagonal_primes)`, after its assertion: the recursive calls
are made for strict partitions only. -/
def standardShiftedLoop (diagonalPrimes : Bool) (lam : List Nat) : Nat → List Nat → Finset Tab
  | 0, mu => if mu = lam then {Tab.empty} else ∅
  | fuel + 1, mu =>
    if mu = lam then {Tab.empty}
    else if contains mu lam then
      (List.range mu.length).toFinset.biUnion (fun i =>
        let nu := trim (mu.set i (mu.getD i 0 - 1))
        if isStrictPartition nu then
          (standardShiftedLoop diagonalPrimes lam fuel nu).biUnion (fun tab =>
            {tab.add (i + 1, i + mu.getD i 0) ((mu.sum : Int) - lam.sum)} ∪
              if diagonalPrimes ∨ i + 1 ≠ i + mu.getD i 0 then
                {tab.add (i + 1, i + mu.getD i 0) (-((mu.sum : Int) - lam.sum))}
              else ∅)
        else ∅)
    else ∅

/-- tableaux.py:940-962 `standard_shifted_marked(mu, nu, diagonal_primes)`; `none` is the AssertionError of L946. -/
def standardShiftedMarked (diagonalPrimes : Bool) (mu lam : List Nat) : Option (Finset Tab) :=
  if isStrictPartition mu then some (standardShiftedLoop diagonalPrimes lam mu.sum mu) else none

end Verif.Tableaux
