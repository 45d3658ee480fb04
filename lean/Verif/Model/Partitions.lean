import Verif.Model.Dict
import Mathlib.Algebra.Order.Ring.Int

/-!
# Model of parts of /repo/partitions.py

Partitions are tuples of non-negative ints, here `List Nat`.  Rows and columns are counted from 1, as in the code.
-/

namespace Verif.Partition

/-- partitions.py:212-214 `get(mu, i)` (`i` counted from 1; 0 outside the range). -/
def get (mu : List Nat) (i : Nat) : Nat := if 1 ≤ i ∧ i - 1 < mu.length then mu.getD (i - 1) 0 else 0

/-- partitions.py:216-218 `isin(mu, i, j, shifted)`. -/
def isin (mu : List Nat) (i j : Int) (shifted : Bool := false) : Bool :=
  decide (1 ≤ j - (if shifted then i - 1 else 0)) &&
    decide (j - (if shifted then i - 1 else 0) ≤ (if 1 ≤ i then get mu i.toNat else 0))

/-- partitions.py:199-203 `trim`. -/
def trim (mu : List Nat) : List Nat := (mu.reverse.dropWhile (· == 0)).reverse

/-- partitions.py:16-25 `add(mu, row)` for `row ≥ 1`; `none` is the exception of L25.  (For `row ≤ 0` python's
negative indices apply; not modelled.) -/
def add (mu : List Nat) (row : Nat) : Option (List Nat) :=
  if row ≤ mu.length then some (mu.set (row - 1) (mu.getD (row - 1) 0 + 1))
  else if row = mu.length + 1 then some (mu ++ [1])
  else none

/-- partitions.py:42-48 `shape(mu)`: the set of boxes, listed row by row; `i` is the number of the first row. -/
def shapeFrom (i : Nat) : List Nat → List (Nat × Nat)
  | [] => []
  | a :: mu => (List.range a).map (fun j => (i, j + 1)) ++ shapeFrom (i + 1) mu

/-- partitions.py:42-48 `shape(mu)`. -/
def shape (mu : List Nat) : List (Nat × Nat) := shapeFrom 1 mu

/-- partitions.py:50-57 `shifted_shape(mu)`: row `i` starts in column `i`. -/
def shiftedShapeFrom (i : Nat) : List Nat → List (Nat × Nat)
  | [] => []
  | a :: mu => (List.range a).map (fun j => (i, i + j)) ++ shiftedShapeFrom (i + 1) mu

/-- partitions.py:50-57 `shifted_shape(mu)`. -/
def shiftedShape (mu : List Nat) : List (Nat × Nat) := shiftedShapeFrom 1 mu

/-- partitions.py:37-39: one step of `from_shape`, for a box in row `i ≥ 1`. -/
def fromShapeStep (ans : List Nat) (b : Nat × Nat) : List Nat :=
  let ans := ans ++ List.replicate (b.1 - ans.length) 0
  ans.set (b.1 - 1) (ans.getD (b.1 - 1) 0 + 1)

/-- partitions.py:33-40 `from_shape(sh)`; the argument lists the set in its iteration order. -/
def fromShape (sh : List (Nat × Nat)) : List Nat := sh.foldl fromShapeStep []

/-- partitions.py:276-284 `skew(mu, nu, shifted)`: boxes row by row, `i` the number of the first row (from 0). -/
def skewFrom (shifted : Bool) (nu : List Nat) (i : Nat) : List Nat → List (Nat × Nat)
  | [] => []
  | part :: mu =>
    (List.range' (nu.getD i 0) (part - nu.getD i 0)).map (fun j => (i + 1, j + 1 + (if shifted then i else 0)))
      ++ skewFrom shifted nu (i + 1) mu

/-- partitions.py:276-284 `skew(mu, nu, shifted)`. -/
def skew (mu nu : List Nat) (shifted : Bool := false) : List (Nat × Nat) := skewFrom shifted nu 0 mu

/-- partitions.py:304-309 `contains(bigger, smaller)`. -/
def contains (bigger smaller : List Nat) : Bool :=
  if smaller.length > bigger.length then false
  else (List.range smaller.length).all (fun i => decide (smaller.getD i 0 ≤ bigger.getD i 0))

/-- partitions.py:224-226 `is_partition(mu)`. -/
def isPartition (mu : List Int) : Bool :=
  (List.range (mu.length - 1)).all (fun i => decide (mu.getD i 0 ≥ mu.getD (i + 1) 0)) &&
    (mu.isEmpty || decide (mu.getLastD 0 ≥ 0))

/-- partitions.py:232-234 `is_strict_partition(mu)`. -/
def isStrictPartition (mu : List Nat) : Bool :=
  (List.range (mu.length - 1)).all (fun i => decide (mu.getD i 0 > mu.getD (i + 1) 0))

/-- partitions.py:236-241 `transpose(mu)`. -/
def transpose (mu : List Nat) : List Nat :=
  match mu with
  | [] => []
  | a :: _ => (List.range a).map
      (fun j => ((List.range mu.length).filter (fun i => decide (mu.getD i 0 > j))).length)

/-- partitions.py:311-319 `compositions(n)`; the loop variable is `i + 1`. -/
def compositions (n : Nat) : List (List Nat) :=
  if h : n = 0 then [[]]
  else (List.range n).flatMap (fun i => (compositions (n - (i + 1))).map (fun e => (i + 1) :: e))
termination_by n
decreasing_by omega

/-- partitions.py:321-323 `peak_compositions(n)`. -/
def peakCompositions (n : Nat) : List (List Nat) :=
  (compositions n).filter (fun alpha => alpha.dropLast.all (fun a => decide (a ≥ 2)))

/-- The keys of the module-level dict `PARTITIONS`: L336 looks up 5-tuples, L349 and L351 use 4-tuples.  Tuples of
different length are never equal. -/
inductive GenKey where
  | five (n : Nat) (maxPart maxRow : Option Nat) (strict even : Bool)
  | four (n : Nat) (maxPart : Option Nat) (strict even : Bool)
deriving DecidableEq

/-- The module-level dict `PARTITIONS` (partitions.py:5). -/
abbrev GenCache := Dict GenKey (List (List Nat))

/-- partitions.py:338-339: `n if b is None or b > n else b`. -/
def capBound (n : Nat) (b : Option Nat) : Nat :=
  match b with
  | none => n
  | some m => if m > n then n else m

/-- partitions.py:331-352 `generate(n, max_part, max_row, strict, even_parts)`, run to exhaustion: the yielded
partitions and the cache afterwards.  `none` stands for a KeyError at L351.  A generator that is not exhausted yields
a prefix of this list.  The loop variable of L341 is `k + 1`. -/
def generate (strict even : Bool) (n : Nat) (maxPart maxRow : Option Nat) (C : GenCache) :
    Option (List (List Nat) × GenCache) :=
  if h : n = 0 then some ([[]], C)
  else if (C.get? (.five n maxPart maxRow strict even)).isSome then
    (C.get? (.four n maxPart strict even)).map (fun l => (l, C))
  else
    let mp := capBound n maxPart
    let mr := capBound n maxRow
    let res : Option (List (List Nat) × GenCache) :=
      if mr > 0 then
        (List.range mp).foldlM (fun (st : List (List Nat) × GenCache) k =>
          if even && (k + 1) % 2 != 0 then some st
          else
            (generate strict even (n - (k + 1)) (some (k + 1)) (some (mr - 1)) st.2).map (fun r =>
              (st.1 ++ (r.1.map (fun mu => (k + 1) :: mu)).filter (fun nu => !strict || isStrictPartition nu),
                r.2))) ([], C)
      else some ([], C)
    res.map (fun r => (r.1, r.2.set (.four n (some mp) strict even) r.1))
termination_by n
decreasing_by omega

/-- partitions.py:325-329 `all(n, ...)`: the concatenation of the lists for `0, ..., n`. -/
def allUpTo (strict even : Bool) (n : Nat) (maxPart maxRow : Option Nat) (C : GenCache) :
    Option (List (List Nat) × GenCache) :=
  (List.range (n + 1)).foldlM (fun (st : List (List Nat) × GenCache) i =>
    (generate strict even i maxPart maxRow st.2).map (fun r => (st.1 ++ r.1, r.2))) ([], C)

/-- partitions.py:358-367 `_subpartitions(mu, strict, i)`. -/
def subpartitionsAux (lowerbound : List Nat) (strict : Bool) : List Nat → Nat → List (List Nat)
  | [], _ => [[]]
  | ub :: mu, i =>
    (subpartitionsAux lowerbound strict mu (i + 1)).flatMap (fun nu =>
      let lb := match nu with
        | [] => 0
        | a :: _ => if a > 0 then a + (if strict then 1 else 0) else 0
      let lb := max lb (get lowerbound i)
      (List.range' lb (ub + 1 - lb)).map (fun a => a :: nu))

/-- partitions.py:354-370 `subpartitions(mu, nu, strict)`. -/
def subpartitions (mu nu : List Nat) (strict : Bool) : List (List Nat) :=
  (subpartitionsAux (trim nu) strict mu 1).map trim

/-- partitions.py:76-88 `remove_inner_corner(mu, row)`; `none` is the exception. -/
def removeInnerCorner (mu : List Nat) (row : Nat) : Option (List Nat) :=
  if row = 1 ∧ mu.length > 1 ∧ mu.getD 1 0 < mu.getD 0 0 then some ((mu.getD 0 0 - 1) :: mu.drop 1)
  else if 1 < row ∧ row < mu.length ∧ mu.getD row 0 < mu.getD (row - 1) 0 then
    some (mu.set (row - 1) (mu.getD (row - 1) 0 - 1))
  else if row = mu.length ∧ mu.getLastD 0 > 1 then some (mu.dropLast ++ [mu.getLastD 0 - 1])
  else if row = mu.length ∧ mu.getLastD 0 = 1 then some mu.dropLast
  else none

/-- `itertools.combinations(rows, k)`. -/
def combinations {α : Type*} : List α → Nat → List (List α)
  | _, 0 => [[]]
  | [], _ + 1 => []
  | x :: xs, k + 1 => (combinations xs k).map (x :: ·) ++ combinations xs (k + 1)

/-- partitions.py:60-74 `remove_inner_corners(mu)`; an exception raised at L73 (`none`) would propagate. -/
def removeInnerCorners (mu : List Nat) : List (Option (List Nat)) :=
  let rows := (List.range' 1 mu.length).filter (fun i => (removeInnerCorner mu i).isSome)
  (List.range (rows.length + 1)).flatMap (fun k =>
    (combinations rows k).map (fun subset => subset.foldlM removeInnerCorner mu))

/-- partitions.py:125-136 `remove_shifted_inner_corner(mu, row)`; `none` is the python None. -/
def removeShiftedInnerCorner (mu : List Nat) (row : Nat) : Option (List Nat) :=
  if row = 1 ∧ mu.length > 1 ∧ mu.getD 1 0 + 1 < mu.getD 0 0 then some ((mu.getD 0 0 - 1) :: mu.drop 1)
  else if 1 < row ∧ row < mu.length ∧ mu.getD row 0 + 1 < mu.getD (row - 1) 0 then
    some (mu.set (row - 1) (mu.getD (row - 1) 0 - 1))
  else if row = mu.length ∧ mu.getLastD 0 > 1 then some (mu.dropLast ++ [mu.getLastD 0 - 1])
  else if row = mu.length ∧ mu.getLastD 0 = 1 then some mu.dropLast
  else none

/-- partitions.py:112-123 `remove_shifted_inner_corners(mu)`.  A None from L122 (`none`) would be passed on to the
next call, which raises. -/
def removeShiftedInnerCorners (mu : List Nat) : List (Option (List Nat)) :=
  let rows := (List.range' 1 mu.length).filter (fun i => (removeShiftedInnerCorner mu i).isSome)
  (List.range (rows.length + 1)).flatMap (fun k =>
    (combinations rows k).map (fun subset => subset.foldlM removeShiftedInnerCorner mu))

/-- partitions.py:685-690: the `while True` loop, from index `k`; `none` if it does not stop within `fuel` rounds.
Values are ints: the python subtraction in L690 may be negative. -/
def growthLoop (rho mu nu : List Nat) : Nat → Nat → Int → Option (List Int)
  | 0, _, _ => none
  | fuel + 1, k, carry =>
    let v : Int := max (get mu k : Int) (get nu k : Int) + carry
    if v = 0 then some []
    else (growthLoop rho mu nu fuel (k + 1) (min (get mu k : Int) (get nu k : Int) - get rho k)).map (v :: ·)

/-- partitions.py:682-691: one entry of the growth diagram.  The loop is given `len(mu) + len(nu) + 2` rounds; that
this is enough in every growth diagram is part of `C22_growth_diagram`.  `trim` (L691) is applied to the ints, which
are then non-negative (`C22`). -/
def growthEntry (rho mu nu : List Nat) (c : Nat) : Option (List Nat) :=
  (growthLoop rho mu nu (mu.length + nu.length + 2) 1 c).map (fun lam => trim (lam.map Int.toNat))

/-- partitions.py:681-691: the inner loop over `j`, given the entries `g[i-1][j-1] = rho`, `g[i][j-1] = nu` and the
remaining entries `g[i-1][j], ...` of the previous row.  `c j` is the matrix entry in column `j` of this row. -/
def growthRow (c : Nat → Nat) : Nat → List Nat → List Nat → List (List Nat) → Option (List (List Nat))
  | _, _, _, [] => some []
  | j, rho, nu, mu :: rest => do
    let lam ← growthEntry rho mu nu (c j)
    let out ← growthRow c (j + 1) mu lam rest
    return lam :: out

/-- partitions.py:680-691: the outer loop; `rows` further rows to compute, starting with row `i`, from the previous
row. -/
def growthRows (c : Nat → Nat → Nat) : Nat → Nat → List (List Nat) → Option (List (List (List Nat)))
  | 0, _, _ => some []
  | rows + 1, i, prev => do
    let row ← growthRow (c i) 1 (prev.headD []) [] prev.tail
    let out ← growthRows c rows (i + 1) ([] :: row)
    return ([] :: row) :: out

/-- partitions.py:674-692 `growth_diagram(dictionary, m, n)` with `n` rows and `m` columns, the dictionary read
through `c i j = dictionary.get((i, j), 0)` (non-negative entries). -/
def growthDiagram (c : Nat → Nat → Nat) (m n : Nat) : Option (List (List (List Nat))) :=
  (growthRows c n 1 (List.replicate (m + 1) [])).map (fun rows => List.replicate (m + 1) [] :: rows)

end Verif.Partition
