import Verif.Model.Vector

/-! Box operators: boxes.py.

A key of the underlying vector, a python tuple `(b, i_1, ..., i_k)`, is modelled as the pair of `b` and the list of the
letters.  Not modelled: printing, `commutator`, and the string operands `'r1'`, `'c1'`. -/

namespace Verif.Boxes

open Verif

/-- A tuple `(b, i_1, ..., i_k)`. -/
abbrev Key := Int × List Int

variable {R : Type*} [CommRing R] [DecidableEq R]

/-- boxes.py:26-31 `box_operator_relations`. (`abs(tup[i]) >= 0` is always true.) -/
def relations (R : Type*) [CommRing R] (tup : List Int) : List (List Int × R) :=
  if (List.range (tup.length - 1)).any (fun i => tup.getD i 0 == tup.getD (i + 1) 0) then []
  else if (List.range (tup.length - 1)).any
      (fun i => tup.getD i 0 == -tup.getD (i + 1) 0 && decide ((tup.getD i 0).natAbs ≥ 0)) then []
  else [(tup, 1)]

/-- boxes.py:20-23 `box_operator_multipler`. -/
def multiplier (a b : Key) : List (Key × R) :=
  (relations R (a.2 ++ b.2)).map (fun t => ((a.1 + b.1, t.1), t.2))

/-- A `BoxOperator`: its attribute `vector`. -/
abbrev BoxOp (R : Type*) := Vec Key R

/-- boxes.py:76-81 `BoxOperator(b, i_1, ..., i_k)`; `none` is the AssertionError. -/
def box (R : Type*) [CommRing R] [DecidableEq R] (b : Int) (l : List Int) : Option (BoxOp R) :=
  if b ≥ 0 then some (Vec.mk' (Dict.empty.set (b, l) 1) (some multiplier)) else none

/-- boxes.py:76-81 `BoxOperator()`. -/
def empty (R : Type*) [CommRing R] [DecidableEq R] : BoxOp R := Vec.mk' Dict.empty (some multiplier)

/-- `BoxOperator(0)`. -/
def one (R : Type*) [CommRing R] [DecidableEq R] : BoxOp R := (box R 0 []).getD (empty R)

/-- boxes.py:5-6 `r(i)`. -/
def r (R : Type*) [CommRing R] [DecidableEq R] (i : Int) : BoxOp R := (box R 0 [i]).getD (empty R)

/-- boxes.py:9-10 `c(i)`. -/
def c (R : Type*) [CommRing R] [DecidableEq R] (i : Int) : BoxOp R := (box R 0 [-i]).getD (empty R)

/-- boxes.py:117-121 `__mul__` by an int or a polynomial. -/
def smul (u : BoxOp R) (x : R) : BoxOp R := Vec.smul u x

/-- boxes.py:87, 94, 101, 108: `BoxOperator(0) * other` for an int or a polynomial `other`. -/
def scalar (x : R) : BoxOp R := smul (one R) x

/-- boxes.py:86-91 `__add__` of box operators. -/
def add (u v : BoxOp R) : BoxOp R := Vec.add u v

/-- boxes.py:100-105 `__sub__` of box operators. -/
def sub (u v : BoxOp R) : BoxOp R := Vec.sub u v

/-- boxes.py:114-115 `__neg__`: `0 - self`, i.e. lines 107-112 `__rsub__`. -/
def neg (u : BoxOp R) : BoxOp R := Vec.sub (scalar 0) u

/-- boxes.py:129-131 `__mul__` of box operators (the multiplier is set, so the product of keys is not used). -/
def mul (u v : BoxOp R) : BoxOp R := Vec.mul (fun a _ => a) u v

/-- boxes.py:146-150 `__eq__` of box operators. -/
def eq (u v : BoxOp R) : Bool := Vec.eq u v

/-- Every vector inside a box operator has been created with the multiplier. -/
inductive IsBoxOp : BoxOp R → Prop where
  | box {b l u} : box R b l = some u → IsBoxOp u
  | empty : IsBoxOp (empty R)
  | smul {u} (x : R) : IsBoxOp u → IsBoxOp (smul u x)
  | add {u v} : IsBoxOp u → IsBoxOp v → IsBoxOp (add u v)
  | sub {u v} : IsBoxOp u → IsBoxOp v → IsBoxOp (sub u v)
  | mul {u v} : IsBoxOp u → IsBoxOp v → IsBoxOp (mul u v)

end Verif.Boxes
