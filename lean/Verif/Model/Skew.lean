import Verif.Model.PartitionsMore

/-!
# Model of the functions on skew shapes in /repo/partitions.py and /repo/utils.py

Sets of boxes are lists without repetitions, in the order of iteration.
-/

namespace Verif.Partition

/-- partitions.py:289-301: the `while` loop of `skew_key`; `none` if it takes more than the given number of rounds. -/
def skewKeyLoop (shifted : Bool) : Nat → List (Nat × Nat) → Option (List (Nat × Nat))
  | 0, _ => none
  | fuel + 1, sk =>
    if sk = [] then some sk
    else if sk.all (fun b => decide (1 < b.1) && decide (1 < b.2)) then skewKeyLoop shifted fuel (sk.map (fun b => (b.1 - 1, b.2 - 1)))
    else if sk.all (fun b => decide (1 < b.1)) && !(shifted && sk.any (fun b => decide (b.1 = b.2))) then
      skewKeyLoop shifted fuel (sk.map (fun b => (b.1 - 1, b.2)))
    else if sk.all (fun b => decide (1 < b.2)) && !(shifted && sk.any (fun b => decide (b.1 + 1 = b.2))) then
      skewKeyLoop shifted fuel (sk.map (fun b => (b.1, b.2 - 1)))
    else some sk

/-- The order of python on pairs of numbers. -/
def pairLe (a b : Nat × Nat) : Prop := a.1 < b.1 ∨ a.1 = b.1 ∧ a.2 ≤ b.2

instance : DecidableRel pairLe := fun a b => inferInstanceAs (Decidable (a.1 < b.1 ∨ a.1 = b.1 ∧ a.2 ≤ b.2))

/-- partitions.py:286-302 `skew_key(mu, nu, shifted)`. -/
def skewKey (fuel : Nat) (mu nu : List Nat) (shifted : Bool) : Option (List (Nat × Nat)) :=
  (skewKeyLoop shifted fuel (skew mu nu shifted)).map (fun sk => sk.insertionSort pairLe)

/-- partitions.py:220-222 `isin_shifted(mu, i, j)`. -/
def isinShifted (mu : List Nat) (i j : Int) : Bool := isin mu i j true

/-- partitions.py:27-31 `merge_shifted(mu, shape)` for a tuple `mu`; the argument lists the set `shape`. -/
def mergeShifted (mu : List Nat) (sh : List (Nat × Nat)) : List Nat :=
  fromShape (shiftedShape mu ++ sh.filter (fun b => decide (b ∉ shiftedShape mu)))

/-- partitions.py:510-525 `add_box_to_column(p, col, shift)` for `col ≥ 0`; `none` is the AssertionError of L517 or L519.  The loop of
L521-524 is that of `from_shape`. -/
def addBoxToColumn (p : List Nat) (col : Nat) (shift : Bool) : Option (List Nat) :=
  let shape0 := if shift then shiftedShape p else shape p
  let a := (shape0.filter (fun b => decide (b.2 = col))).map (fun b => b.1)
  let row := if a = [] then 1 else a.foldl max 0 + 1
  let sh := if (row, col) ∈ shape0 then shape0 else shape0 ++ [(row, col)]
  if shift then
    if sh.all (fun b => decide (0 < b.2 ∧ (b.1, b.2 - 1) ∈ sh) || decide (b.1 = b.2)) then some (trim (fromShape sh)) else none
  else
    if sh.all (fun b => decide (0 < b.2 ∧ (b.1, b.2 - 1) ∈ sh) || decide (b.2 = 1)) then some (trim (fromShape sh)) else none

/-- partitions.py:372-376 `shifted_ribbon_complements(mu)`. -/
def shiftedRibbonComplements (mu : List Nat) : List (List Nat) := subpartitions mu (trim (mu.drop 1)) true

/-- utils.py:33-40 `shifted_ribbon(alpha)`; `none` is the IndexError of L39. -/
def utilsShiftedRibbon (alpha : List Nat) : Option (List Nat × List Nat) :=
  if alpha = [] then none
  else some ((List.range' 1 (alpha.length - 1)).map (fun i => (alpha.drop i).sum + alpha.getD (i - 1) 0) ++ [alpha.getLastD 0],
    (List.range' 1 (alpha.length - 1)).map (fun i => (alpha.drop i).sum))

/-- The exceptions of `shifted_ribbons`. -/
inductive RibbonErr where
  | indexError
  | typeError
deriving DecidableEq, Repr

/-- A generator that was run to its end or to an exception: the values before it and the exception. -/
abbrev RibbonGen (α : Type) := List α × Option RibbonErr

/-- `for x in xs: ...` over a list, with a body that yields. -/
def forGen {α β : Type} : List α → (α → RibbonGen β) → RibbonGen β
  | [], _ => ([], none)
  | x :: xs, f =>
    match f x with
    | (ys, some e) => (ys, some e)
    | (ys, none) => (ys ++ (forGen xs f).1, (forGen xs f).2)

/-- partitions.py:389-397 `generate(nu, lam, ub)`, the local function of `shifted_ribbons`.  The arguments `nu` and `lam` are tuples, and so
are the values of L391; adding one of them to a list in L397 is a TypeError.  A value is here a pair and the flag that it consists of
lists. -/
def ribbonGenerate : List Nat → List Nat → Option Int → RibbonGen (List Nat × List Nat × Bool)
  | [], lam, _ => ([([], lam, false)], none)
  | _ :: _, [], _ => ([], some .indexError)
  | n :: nu, lb :: lam, ub =>
    let ub : Int := match ub with
      | none => n
      | some u => min (n : Int) u
    forGen (List.range' lb (ub + 1 - lb).toNat) (fun a =>
      let inner := ribbonGenerate nu lam (some ((a : Int) - 1))
      match forGen inner.1 (fun v => if v.2.2 then ([(n :: v.1, a :: v.2.1, true)], none) else ([], some .typeError)) with
      | (ys, some e) => (ys, some e)
      | (ys, none) => (ys, inner.2))

/-- partitions.py:399-408: the loop over the compositions; `seen` is threaded through. -/
def ribbonsLoop : List (List Nat) → List (List Nat × List Nat) → RibbonGen (List Nat × List Nat)
  | [], _ => ([], none)
  | alpha :: rest, seen =>
    if shiftedRibbon alpha ∈ seen then ribbonsLoop rest seen
    else
      let g := ribbonGenerate (shiftedRibbon alpha).1 (shiftedRibbon alpha).2 none
      let new := ((g.1.map (fun v => (trim v.1, trim v.2.1))).foldl (fun acc x => if x ∈ seen ++ acc then acc else acc ++ [x]) [])
      match g.2 with
      | some e => (new, some e)
      | none => (new ++ (ribbonsLoop rest (seen ++ new)).1, (ribbonsLoop rest (seen ++ new)).2)

/-- partitions.py:387-408 `shifted_ribbons(n)`. -/
def shiftedRibbons (n : Nat) : RibbonGen (List Nat × List Nat) := ribbonsLoop (compositions n) []

/-- partitions.py:199-203 `trim` for tuples of ints. -/
def trimInt (mu : List Int) : List Int := (mu.reverse.dropWhile (· == 0)).reverse

/-- partitions.py:248-254: the entries of `nu` and `mu` for row `i`. -/
def skewRow (positions : List (Int × Int)) (shifted : Bool) (i : Int) : Int × Int :=
  let row := (positions.filter (fun b => decide (b.1 = i))).map (fun b => b.2)
  if row = [] then (-1, -1)
  else (row.max?.getD 0 - (if shifted then i - 1 else 0), row.min?.getD 0 - 1 - (if shifted then i - 1 else 0))

/-- partitions.py:256-261: the entries -1 are replaced from the last row to the first. -/
def skewFill (shifted : Bool) (rows : List (Int × Int)) : List (Int × Int) :=
  rows.foldr (fun r acc =>
    if r.1 = -1 then
      let x := (acc.headD (0, 0)).1 + (if shifted then 1 else 0)
      (x, x) :: acc
    else r :: acc) [(0, 0)]

/-- partitions.py:263-264: the shape is moved to the left; `none` if this takes more than the given number of rounds. -/
def skewLeft : Nat → List Int → List Int → Option (List Int × List Int)
  | 0, _, _ => none
  | fuel + 1, nu, mu =>
    if nu.length = mu.length then skewLeft fuel (trimInt (nu.map (· - 1))) (trimInt (mu.map (· - 1)))
    else some (nu, mu)

/-- partitions.py:243-265 `from_skew(positions, shifted)`; the rows of the loop of L247 are those up to the largest row. -/
def fromSkew (fuel : Nat) (positions : List (Int × Int)) (shifted : Bool) : Option (List Int × List Int) :=
  let last := ((positions.map (fun b : Int × Int => b.1)).max?.getD 0).toNat
  let filled := skewFill shifted ((List.range last).map (fun i : Nat => skewRow positions shifted ((i : Int) + 1)))
  skewLeft fuel (trimInt (filled.map (fun r => r.1))) (trimInt (filled.map (fun r => r.2)))

end Verif.Partition
