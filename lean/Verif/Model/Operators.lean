import Verif.Model.Vector
import Verif.Model.PartitionsMore

/-!
# Model of /repo/operators.py

Coefficients are taken in a commutative ring `R` with decidable equality, as in the model of vectors.py; `beta` (L7) and
the variable `var` are elements of `R`.  Not modelled: `_extract` and the functions `compare*`, which print.

An operator starts its sum with the int `0` and returns this int if nothing is added.  Results are therefore modelled by
`Option`: `none` is the int `0` and `some v` is a vector.  Exceptions are the outer `Option`.
-/

namespace Verif.Operators

open Partition

variable {R : Type*} [CommRing R] [DecidableEq R]

/-- What an operator returns: the int `0` or a vector. -/
abbrev Res (R : Type*) := Option (Vec (List Nat) R)

/-- What an operator is applied to: a tuple, or something that an operator has returned. -/
inductive Arg (R : Type*)
  | tup (mu : List Nat)
  | res (r : Res R)

/-- `Vector({key: value})`. -/
def single (mu : List Nat) (c : R) : Vec (List Nat) R := Vec.mk' (Dict.empty.set mu c) none

/-- operators.py:12-17 `operator_decorator`.  The int `0` has no `items` (AttributeError). -/
def decorate (func : Vec (List Nat) R → Option (Res R)) : Arg R → Option (Res R)
  | .tup mu => func (single mu 1)
  | .res (some v) => func v
  | .res none => none

/-- `ans += v` for a vector `v`, where `ans` is the int `0` or a vector. -/
def plus (ans : Res R) (v : Vec (List Nat) R) : Vec (List Nat) R :=
  match ans with
  | none => v
  | some u => Vec.add u v

/-- operators.py:24-32: one round of the loop in `operator_shifted_add`. -/
def shiftedAddStep (beta : R) (index : Int) (ans : Res R) (item : List Nat × R) : Option (Res R) :=
  match findShiftedInnerCorner item.1 index.natAbs with
  | some _ => some (some (plus ans (single item.1 (beta * item.2))))
  | none =>
    match findShiftedOuterCorner item.1 index.natAbs with
    | none => some ans
    | some row =>
      match Partition.add item.1 row with
      | none => none
      | some nu => some (some (plus ans (single nu item.2)))

/-- operators.py:22-33: the function inside `operator_shifted_add(index)`. -/
def shiftedAddFn (beta : R) (index : Int) (v : Vec (List Nat) R) : Option (Res R) :=
  v.dict.items.foldlM (shiftedAddStep beta index) none

/-- operators.py:20-34 `operator_shifted_add(index)`. -/
def operatorShiftedAdd (beta : R) (index : Int) : Arg R → Option (Res R) := decorate (shiftedAddFn beta index)

/-- `ans += var * r` for a vector `ans`, where `r` is the int `0` or a vector. -/
def plusTimes (var : R) (ans : Vec (List Nat) R) (r : Res R) : Vec (List Nat) R :=
  match r with
  | none => ans
  | some w => Vec.add ans (Vec.smul w var)

/-- operators.py:41-42, 51-52: one round of the loops in `operator_AL` and `operator_AR`. -/
def addLoopStep (beta var : R) (ans : Vec (List Nat) R) (i : Nat) : Option (Vec (List Nat) R) :=
  (operatorShiftedAdd beta i (.res (some ans))).map (plusTimes var ans)

/-- operators.py:37-44 `operator_AL(n, var)`. -/
def operatorAL (beta : R) (n : Nat) (var : R) : Arg R → Option (Res R) :=
  decorate (fun v => ((List.range (n + 1)).foldlM (addLoopStep beta var) v).map some)

/-- operators.py:47-54 `operator_AR(n, var)`. -/
def operatorAR (beta : R) (n : Nat) (var : R) : Arg R → Option (Res R) :=
  decorate (fun v => ((List.range (n + 1)).reverse.foldlM (addLoopStep beta var) v).map some)

/-- operators.py:65-71: the `while` loop in `operator_shifted_row_remove`; the first argument is `i + 1`. -/
def rowRemoveLoop (beta : R) (row : Nat) : Nat → List Nat → Nat → Res R → Res R
  | 0, _, _, ans => ans
  | k + 1, mu, e, ans =>
    match removeShiftedInnerCorner mu row with
    | none => ans
    | some mu => rowRemoveLoop beta row k mu (e + 1) (some (plus ans (single mu ((-beta) ^ e))))

/-- operators.py:61-71: one round of the loop in `operator_shifted_row_remove`.  The coefficient is not used. -/
def rowRemoveStep (beta : R) (index : Int) (ans : Res R) (item : List Nat × R) : Option (Res R) :=
  match findShiftedInnerCorner item.1 index.natAbs with
  | none => some ans
  | some row => some (rowRemoveLoop beta row (index.natAbs + 1) item.1 0 ans)

/-- operators.py:57-73 `operator_shifted_row_remove(index)`. -/
def operatorShiftedRowRemove (beta : R) (index : Int) : Arg R → Option (Res R) :=
  decorate (fun v => v.dict.items.foldlM (rowRemoveStep beta index) none)

/-- operators.py:84-89: the `while` loop in `operator_shifted_column_remove`, with `fuel` rounds; each round removes a box,
so the caller allows one more than there are boxes.  `none` is the exception of `remove_inner_corner` or a loop that does
not end within these rounds. -/
def columnRemoveLoop (beta : R) : Nat → Nat → List Nat → Option Nat → Nat → Res R → Option (Res R)
  | 0, _, _, _, _, _ => none
  | fuel + 1, i, mu, row, e, ans =>
    match row with
    | none => some ans
    | some row =>
      match removeInnerCorner mu row with
      | none => none
      | some mu => columnRemoveLoop beta fuel (i + 1) mu (findShiftedInnerCorner mu (i + 1)) (e + 1)
          (some (plus ans (single mu ((-beta) ^ e))))

/-- operators.py:80-89: one round of the loop in `operator_shifted_column_remove`.  The coefficient is not used. -/
def columnRemoveStep (beta : R) (index : Int) (ans : Res R) (item : List Nat × R) : Option (Res R) :=
  columnRemoveLoop beta (item.1.sum + 1) index.natAbs item.1 (findShiftedInnerCorner item.1 index.natAbs) 0 ans

/-- operators.py:76-91 `operator_shifted_column_remove(index)`. -/
def operatorShiftedColumnRemove (beta : R) (index : Int) : Arg R → Option (Res R) :=
  decorate (fun v => v.dict.items.foldlM (columnRemoveStep beta index) none)

/-- operators.py:98-99, 108-109: one round of the loops in `operator_R` and `operator_C`. -/
def removeLoopStep (op : Int → Arg R → Option (Res R)) (var : R) (ans : Vec (List Nat) R) (i : Nat) :
    Option (Vec (List Nat) R) :=
  (op i (.res (some ans))).map (plusTimes var ans)

/-- operators.py:94-101 `operator_R(n, var)`. -/
def operatorR (beta : R) (n : Nat) (var : R) : Arg R → Option (Res R) :=
  decorate (fun v => ((List.range (n + 1)).foldlM (removeLoopStep (operatorShiftedRowRemove beta) var) v).map some)

/-- operators.py:104-111 `operator_C(n, var)`: the index runs from `n` down to 1. -/
def operatorC (beta : R) (n : Nat) (var : R) : Arg R → Option (Res R) :=
  decorate (fun v =>
    ((List.range' 1 n).reverse.foldlM (removeLoopStep (operatorShiftedColumnRemove beta) var) v).map some)

end Verif.Operators
