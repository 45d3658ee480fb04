import Verif.Model.Partitions

/-!
# Model of /repo/dualops.py

An operator takes a partition or `None` (here `Option (List Nat)`) and returns the same.  The assertion in front of each
operator is the outer `Option`: `none` is the AssertionError.  Arguments are non-negative ints.
-/

namespace Verif.Dualops

open Partition

/-- dualops.py:9-13 and 24-28: the `while` loop; `(i, j)` runs down the diagonal `j = i + a`.  The loop is given `fuel`
rounds; the caller allows one more than there are rows. -/
def diagonalRow (mu : List Nat) (a : Nat) : Nat → Nat → Nat
  | 0, i => i
  | fuel + 1, i => if isin mu i (i + a : Nat) true then diagonalRow mu a fuel (i + 1) else i

/-- dualops.py:7-16: `op` of `sh_horizontal_strip(a, b)` on a partition. -/
def horizontalOp (a b : Nat) (mu : List Nat) : Option (List Nat) :=
  let i := diagonalRow mu a (mu.length + 1) 1
  let j := i + a
  if (i = j ∨ isin mu i ((j : Int) - 1) true) ∧ (i = 1 ∨ isin mu ((i : Int) - 1) ((j : Int) + b - a) true) then
    some (mu.take (i - 1) ++ [get mu i + (b - a) + 1] ++ mu.drop i)
  else none

/-- dualops.py:22-34: `op` of `sh_vertical_strip(a, b)` on a partition.  `h` may be zero or negative. -/
def verticalOp (a b : Nat) (mu : List Nat) : Option (List Nat) :=
  let i := diagonalRow mu a (mu.length + 1) 1
  let j := i + a
  let h : Int := (i : Int) + a - b
  if isin mu h j true then none
  else if (i = j ∨ isin mu i ((j : Int) - 1) true) ∧ (h = 1 ∨ isin mu (h - 1) j true) then
    some (mu.take (h - 1).toNat ++ (List.range' h.toNat (i + 1 - h.toNat)).map (fun k => get mu k + 1) ++ mu.drop i)
  else none

/-- dualops.py:5-17 `sh_horizontal_strip(a, b)`. -/
def shHorizontalStrip (a b : Nat) : Option (Option (List Nat) → Option (List Nat)) :=
  if a ≤ b then some (fun mu => match mu with
    | none => none
    | some mu => horizontalOp a b mu)
  else none

/-- dualops.py:20-35 `sh_vertical_strip(a, b)`. -/
def shVerticalStrip (a b : Nat) : Option (Option (List Nat) → Option (List Nat)) :=
  if a ≤ b then some (fun mu => match mu with
    | none => none
    | some mu => verticalOp a b mu)
  else none

end Verif.Dualops
