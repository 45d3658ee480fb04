import Verif.Model.PartitionsMore
import Verif.Model.Tableau

/-!
# Model of the rims of partitions.py:458-503 and of the KOG and KLG tableaux of tableaux.py:1025-1224

Boxes are pairs (row, column), counted from 1.  The caches of `cached_value` (cached.py) only store the values of these
functions and are left out.
-/

namespace Verif.Partition

/-- partitions.py:458-477 `_rims_helper(border)`; `fuel` bounds the depth of the recursion.  L462 and L471 take the first box
of the rest while its row (its column) is that of `c`. -/
def rimsHelperAux : Nat → List (Nat × Nat) → List (List (Nat × Nat))
  | 0, _ => []
  | _ + 1, [] => [[]]
  | fuel + 1, c :: border =>
    rimsHelperAux fuel (border.dropWhile (fun d => decide (d.1 = c.1))) ++
      (rimsHelperAux fuel (border.dropWhile (fun d => decide (d.2 = c.2)))).map
        (fun bns => (c :: border.takeWhile (fun d => decide (d.2 = c.2))) ++ bns)

/-- partitions.py:458-477 `_rims_helper(border)`. -/
def rimsHelper (border : List (Nat × Nat)) : List (List (Nat × Nat)) := rimsHelperAux (border.length + 1) border

/-- python's `sorted` on pairs. -/
def sortBoxes (l : List (Nat × Nat)) : List (Nat × Nat) :=
  l.insertionSort (fun a b => a.1 < b.1 ∨ (a.1 = b.1 ∧ a.2 ≤ b.2))

/-- partitions.py:482-488: the boxes outside `mu` along its border, from the lower left to the upper right. -/
def border (mu : List Nat) : List (Nat × Nat) :=
  let mu := trim mu ++ [0]
  let mu := mu.getD 0 0 :: mu
  (List.range' 1 (mu.length - 1)).reverse.flatMap (fun i =>
    (List.range (mu.getD (i - 1) 0 - mu.getD i 0)).map (fun j => (i, i + mu.getD i 0 + j))) ++ [(1, 1 + mu.getD 0 0)]

/-- partitions.py:479-494 `rims(mu, first_row_bound)`; `none` is the AssertionError of L481. -/
def rims? (mu : List Nat) (firstRowBound : Nat) : Option (List (List (Nat × Nat))) :=
  if isStrictPartition mu then
    some ((rimsHelper (border mu)).flatMap (fun r =>
      if (1, 1 + (trim mu).getD 0 0) ∈ r then
        (List.range firstRowBound).map (fun i =>
          sortBoxes (r ++ (List.range i).map (fun j => (1, 1 + (trim mu).getD 0 0 + (j + 1)))))
      else [sortBoxes r]))
  else none

/-- partitions.py:498: two boxes in the same row or the same column (the negation of the tests of L499 and L501). -/
def touching (c d : Nat × Nat) : Bool := !(decide (c.1 ≠ d.1) && decide (c.2 ≠ d.2))

/-- partitions.py:496-503 `rim_terminal_part(rim)`. -/
def rimTerminalPart (rim : List (Nat × Nat)) : List (Nat × Nat) :=
  let s := rim.insertionSort (fun a b => b.1 < a.1 ∨ (a.1 = b.1 ∧ a.2 ≤ b.2))
  let t := s.drop (s.length - 3)
  let t := if 2 ≤ t.length ∧ touching (t.getD (t.length - 2) (0, 0)) (t.getD (t.length - 1) (0, 0)) = false then
    t.drop (t.length - 1) else t
  if t.length = 3 ∧ touching (t.getD 0 (0, 0)) (t.getD 1 (0, 0)) = false then t.drop 1 else t

end Verif.Partition

namespace Verif.Tableaux

open Verif.Partition

/-- A filled box `(i, j, a)` of tableaux.py:1025-1224, as `((i, j), a)`. -/
abbrev Cell := (Nat × Nat) × Int

/-- tableaux.py:1035-1043: the boxes that can be filled next in `_KOG_helper`. -/
def kogCorners (cellsFilled : List Cell) (cellsLeft : List (Nat × Nat)) : List (Nat × Nat) :=
  cellsLeft.dedup.filter (fun b =>
    decide ((b.1, b.2 + 1) ∉ cellsLeft) && decide ((b.1 + 1, b.2) ∉ cellsLeft) &&
      !(cellsFilled.any (fun c1 => cellsFilled.any (fun c2 =>
        decide (c1.1.1 ≤ b.1) && decide (b.2 ≤ c1.1.2) && decide (c1.1.1 ≤ c2.1.1) && decide (c2.1.2 ≤ c1.1.2) &&
          decide (c1.2 < c2.2)))))

/-- tableaux.py:1025-1050 `_KOG_helper(n, cells_filled, cells_left)` for `n ≥ 0` (asserted in L1027).  `ord` is the order in
which python lists the set `corners`. -/
def kogHelper (ord : List (Nat × Nat) → List (Nat × Nat)) : Nat → List Cell → List (Nat × Nat) → List (List Cell)
  | 0, cellsFilled, cellsLeft => if cellsLeft.length > 0 then [] else [cellsFilled]
  | n + 1, cellsFilled, cellsLeft =>
    if cellsLeft.length = 0 then []
    else
      let corners := ord (kogCorners cellsFilled cellsLeft)
      (List.range' 1 corners.length).flatMap (fun k => (combinations corners k).flatMap (fun subset =>
        kogHelper ord n (cellsFilled ++ subset.map (fun b => (b, ((n + 1 : Nat) : Int))))
          (sortBoxes (cellsLeft.dedup.filter (fun b => decide (b ∉ subset))))))

/-- tableaux.py:1067, 1162: `Tableau({(i, j): a for (i, j, a) in tab})`. -/
def tabOfCells (cells : List Cell) : Tab := cells.foldl (fun T c => T.set c.1 [c.2]) Tab.empty

/-- tableaux.py:1063-1067 `KOG(content_max, mu)`, run to exhaustion. -/
def kog? (ord : List (Nat × Nat) → List (Nat × Nat)) (contentMax : Nat) (mu : List Nat) : Option (List Tab) :=
  (rims? mu contentMax).map (fun shapes => shapes.flatMap (fun shape =>
    (kogHelper ord contentMax [] shape).map tabOfCells))

/-- tableaux.py:1069-1074 `_add_rim(mu, tab)`, with the boxes of `tab`; `none` is IndexError. -/
def addRim? (mu : List Nat) (boxes : List (Nat × Nat)) : Option (List Nat) :=
  (boxes.foldlM (fun (nu : List Nat) b =>
    if b.1 - 1 < nu.length then some (nu.set (b.1 - 1) (nu.getD (b.1 - 1) 0 + 1)) else none) (mu ++ [0])).map trim

/-- tableaux.py:1076-1082, 1164-1170: the loop of `KOG_by_shape` and `KLG_by_shape`. -/
def byShapeLoop (mu : List Nat) : List Tab → Dict (List Nat) (List Tab) → Option (Dict (List Nat) (List Tab))
  | [], ans => some ans
  | tab :: tabs, ans =>
    match addRim? mu (tab.items.map Prod.fst) with
    | none => none
    | some nu => byShapeLoop mu tabs (ans.set nu ((ans.get? nu).getD [] ++ [tab]))

/-- tableaux.py:1076-1082 `KOG_by_shape(content_max, mu)`. -/
def kogByShape? (ord : List (Nat × Nat) → List (Nat × Nat)) (contentMax : Nat) (mu : List Nat) :
    Option (Dict (List Nat) (List Tab)) :=
  (kog? ord contentMax mu).bind (fun tabs => byShapeLoop mu tabs Dict.empty)

/-- tableaux.py:1089-1115 `_KOG_count_helper(p, rim)`; `none` stands for python's `None` after L1115 and for an exception;
`fuel` bounds the depth of the recursion. -/
def kogCountAux : Nat → Int → List (Nat × Nat) → Option Int
  | 0, _, _ => none
  | fuel + 1, p, rim =>
    if rim.length = 0 then some (if p = 0 then 1 else 0)
    else if p ≤ 0 then some 0
    else
      let term := rimTerminalPart rim
      if term.length = 2 ∧ p = 1 then some 0
      else if term.length = 2 then
        let left := rim.filter (fun a => decide (a ∉ term))
        match kogCountAux fuel p left, kogCountAux fuel (p - 1) left, kogCountAux fuel (p - 2) left with
        | some x, some y, some z =>
          let c := if p > 2 then 2 else 1
          some (x + (1 + c) * y + c * z)
        | _, _, _ => none
      else
        let left := rim.filter (fun a => decide (a ≠ term.getD (term.length - 1) (0, 0)))
        match kogCountAux fuel p left, kogCountAux fuel (p - 1) left with
        | some x, some y =>
          let c := if p > 1 then 2 else 1
          if term.length = 1 then some (c * (x + y))
          else if term.length = 3 ∧ touching (term.getD 0 (0, 0)) (term.getD (term.length - 1) (0, 0)) = false then some (x + y)
          else if term.length = 3 then some y
          else none
        | _, _ => none

/-- tableaux.py:1089-1115 `_KOG_count_helper(p, rim)`. -/
def kogCount? (p : Int) (rim : List (Nat × Nat)) : Option Int := kogCountAux (rim.length + 1) p rim

/-- tableaux.py:1084-1087 `KOG_counts(nu, mu, p)`. -/
def kogCounts? (nu mu : List Nat) (p : Int) : Option Int := kogCount? p (sortBoxes (skew nu mu true))

/-- tableaux.py:1120-1124, 1214-1218: the loop of `KOG_counts_by_shape` and `KLG_counts_by_shape`, for the given values of the
counting function. -/
def countsLoop (count : List (Nat × Nat) → Option Int) (mu : List Nat) :
    List (List (Nat × Nat)) → Dict (List Nat) Int → Option (Dict (List Nat) Int)
  | [], ans => some ans
  | rim :: rims, ans =>
    match count rim with
    | none => none
    | some c =>
      if c ≠ 0 then
        match addRim? mu rim with
        | none => none
        | some nu => countsLoop count mu rims (ans.set nu c)
      else countsLoop count mu rims ans

/-- tableaux.py:1117-1125 `KOG_counts_by_shape(content_max, mu)`. -/
def kogCountsByShape? (contentMax : Nat) (mu : List Nat) : Option (Dict (List Nat) Int) :=
  (rims? mu contentMax).bind (fun shapes => countsLoop (kogCount? contentMax) mu shapes Dict.empty)

/-- The argument `n` in the calls of `_KLG_helper`: starting with `p`, L1154 runs through `p, -p, p - 1, -(p - 1), ..., 0`, here
`klgLabel t` for `t = 2p, 2p - 1, ..., 0`. -/
def klgLabel (t : Nat) : Int := if t % 2 = 0 then ((t / 2 : Nat) : Int) else -(((t + 1) / 2 : Nat) : Int)

/-- tableaux.py:1136-1147: the boxes that can be filled next in `_KLG_helper`. -/
def klgCorners (n : Int) (cellsFilled : List Cell) (cellsLeft : List (Nat × Nat)) : List (Nat × Nat) :=
  cellsLeft.dedup.filter (fun b =>
    decide ((b.1, b.2 + 1) ∉ cellsLeft) && decide ((b.1 + 1, b.2) ∉ cellsLeft) &&
      (decide (b.1 ≠ b.2) || decide (n > 0)) &&
      !(cellsFilled.any (fun c => decide (c.1.1 ≤ b.1) && decide (b.2 ≤ c.1.2) && decide (c.2 < 0))) &&
      (decide (n < 0) || !(cellsFilled.any (fun c => decide (b.1 ≤ c.1.1) && decide (c.1.2 ≤ b.2)))))

/-- tableaux.py:1127-1156 `_KLG_helper(n, cells_filled, cells_left)` for `n = klgLabel t`. -/
def klgHelper (ord : List (Nat × Nat) → List (Nat × Nat)) : Nat → List Cell → List (Nat × Nat) → List (List Cell)
  | 0, cellsFilled, cellsLeft => if cellsLeft.length > 0 then [] else [cellsFilled]
  | t + 1, cellsFilled, cellsLeft =>
    let n := klgLabel (t + 1)
    if cellsLeft.length = 0 ∧ n > 0 then []
    else
      let corners := ord (klgCorners n cellsFilled cellsLeft)
      let s := if n < 0 ∧ cellsFilled.any (fun c => decide (c.2 = -n)) = false then 1 else 0
      (List.range' s (corners.length + 1 - s)).flatMap (fun k => (combinations corners k).flatMap (fun subset =>
        klgHelper ord t (cellsFilled ++ subset.map (fun b => (b, n)))
          (sortBoxes (cellsLeft.dedup.filter (fun b => decide (b ∉ subset))))))

/-- tableaux.py:1158-1162 `KLG(content_max, mu)`, run to exhaustion. -/
def klg? (ord : List (Nat × Nat) → List (Nat × Nat)) (contentMax : Nat) (mu : List Nat) : Option (List Tab) :=
  (rims? mu (contentMax + 1)).map (fun shapes => shapes.flatMap (fun shape =>
    (klgHelper ord (2 * contentMax) [] shape).map tabOfCells))

/-- tableaux.py:1164-1170 `KLG_by_shape(content_max, mu)`. -/
def klgByShape? (ord : List (Nat × Nat) → List (Nat × Nat)) (contentMax : Nat) (mu : List Nat) :
    Option (Dict (List Nat) (List Tab)) :=
  (klg? ord contentMax mu).bind (fun tabs => byShapeLoop mu tabs Dict.empty)

/-- tableaux.py:1172-1209 `_KLG_count_helper(p, rim)`; `none` stands for python's `None` after L1209 and for an exception;
`fuel` bounds the depth of the recursion. -/
def klgCountAux : Nat → Int → List (Nat × Nat) → Option Int
  | 0, _, _ => none
  | fuel + 1, p, rim =>
    if rim.length = 0 then some (if p = 0 then 1 else 0)
    else if p ≤ 0 then some 0
    else
      let term := rimTerminalPart rim
      let t0 := term.getD 0 (0, 0)
      if term.length = 2 then
        let t1 := term.getD 1 (0, 0)
        let left := rim.filter (fun a => decide (a ∉ term))
        match klgCountAux fuel p left, klgCountAux fuel (p - 1) left, klgCountAux fuel (p - 2) left with
        | some x, some y, some z =>
          if p > 2 then some (x + 3 * y + 2 * z)
          else if p = 2 ∧ t0.1 = t0.2 then some 1
          else if p = 2 then some (x + 3 * y + 2 * z)
          else if p = 1 then
            if t0.1 = t0.2 ∧ t0.2 = t1.1 then some 0
            else if t0.1 = t0.2 ∧ t0.2 = t1.2 then some 1
            else some (x + y)
          else none
        | _, _, _ => none
      else
        let left := rim.filter (fun a => decide (a ≠ term.getD (term.length - 1) (0, 0)))
        match klgCountAux fuel p left, klgCountAux fuel (p - 1) left with
        | some x, some y =>
          if term.length = 1 then
            if p = 1 ∧ t0.1 = t0.2 then some 1 else some (2 * x + 2 * y)
          else if term.length = 3 ∧ touching t0 (term.getD (term.length - 1) (0, 0)) = false then some (x + y)
          else if term.length = 3 then some y
          else none
        | _, _ => none

/-- tableaux.py:1172-1209 `_KLG_count_helper(p, rim)`. -/
def klgCount? (p : Int) (rim : List (Nat × Nat)) : Option Int := klgCountAux (rim.length + 1) p rim

/-- tableaux.py:1211-1219 `KLG_counts_by_shape(content_max, mu)`. -/
def klgCountsByShape? (contentMax : Nat) (mu : List Nat) : Option (Dict (List Nat) Int) :=
  (rims? mu (contentMax + 1)).bind (fun shapes => countsLoop (klgCount? contentMax) mu shapes Dict.empty)

/-- tableaux.py:1221-1224 `KLG_counts(nu, mu, p)`. -/
def klgCounts? (nu mu : List Nat) (p : Int) : Option Int := klgCount? p (sortBoxes (skew nu mu true))

end Verif.Tableaux
