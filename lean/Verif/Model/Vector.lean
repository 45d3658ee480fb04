import Verif.Model.Dict
import Mathlib.Algebra.Ring.Defs

/-!
# Model of /repo/vectors.py

Coefficients are taken in an arbitrary commutative ring `R` with decidable equality.  In python they are ints or
`Polynomial`s (compared with `==`, truthy iff nonzero), both of which are such rings (C01-C03).  The attribute
`printer` is not modelled.
-/

namespace Verif

/-- vectors.py:6-9 `Vector`: the dict of coefficients and the attribute `multiplier` (None or a function). -/
structure Vec (K R : Type*) where
  dict : Dict K R
  multiplier : Option (K → K → List (K × R)) := none

namespace Vec

variable {K R : Type*} [DecidableEq K] [CommRing R] [DecidableEq R]

/-- vectors.py:6-9 `__init__`: zero values are dropped. -/
def mk' (d : Dict K R) (mult : Option (K → K → List (K × R))) : Vec K R :=
  ⟨d.filter (fun _ v => decide (v ≠ 0)), mult⟩

/-- vectors.py:103-105 `base`. -/
def base (key : K) (mult : Option (K → K → List (K × R)) := none) : Vec K R := mk' (Dict.empty.set key 1) mult

/-- vectors.py:136-137 `__getitem__`. -/
def get (u : Vec K R) (k : K) : R := u.dict.getD k 0

/-- vectors.py:127-128 `__len__`. -/
def len (u : Vec K R) : Nat := u.dict.items.length

/-- vectors.py:209-210 `is_zero`. -/
def isZero (u : Vec K R) : Bool := u.len == 0

/-- The key set `self.keys() | other.keys()` (L146, L159): the order of a python set is unspecified; here the keys
of the first vector and then the new ones of the second. -/
def unionKeys (u v : Vec K R) : List K := (u.dict.keys ++ v.dict.keys).dedup

/-- The dict comprehension `{key: f(key) for key in keys}` (L148, L161, L171). -/
def fromKeys (keys : List K) (f : K → R) : Dict K R := keys.foldl (fun d k => d.set k (f k)) Dict.empty

/-- vectors.py:142-153 `__add__` of two vectors.  For a vector, `other == 0` (L143) is `__eq__(other, 0)`, i.e.
`len((other - 0).dictionary) == 0`, true for the vector without entries. -/
def add (u v : Vec K R) : Vec K R :=
  if v.len = 0 then u
  else mk' (fromKeys (unionKeys u v) (fun k => u.get k + v.get k)) (u.multiplier <|> v.multiplier)

/-- vectors.py:155-166 `__sub__` of two vectors. -/
def sub (u v : Vec K R) : Vec K R :=
  if v.len = 0 then u
  else mk' (fromKeys (unionKeys u v) (fun k => u.get k - v.get k)) (u.multiplier <|> v.multiplier)

/-- vectors.py:130-131 `__eq__` of two vectors. -/
def eq (u v : Vec K R) : Bool := (sub u v).len == 0

/-- vectors.py:168-174 `__mul__` by a scalar (int or polynomial). -/
def smul (u : Vec K R) (c : R) : Vec K R := mk' (fromKeys u.dict.keys (fun k => u.get k * c)) u.multiplier

/-- vectors.py:196-197 `__neg__`. -/
def neg (u : Vec K R) : Vec K R := smul u (-1)

/-- vectors.py:179: the terms yielded for a pair of keys, by the multiplier or, without one, by the product `a * b`
of the keys themselves (`keyMul`). -/
def terms (keyMul : K → K → K) (mult : Option (K → K → List (K × R))) (a b : K) : List (K × R) :=
  match mult with
  | some f => f a b
  | none => [(keyMul a b, 1)]

/-- vectors.py:180 `ans[m] = ans.get(m, 0) + x * y * coeff`. -/
def accum (x y : R) (ans : Dict K R) (mc : K × R) : Dict K R := ans.set mc.1 (ans.getD mc.1 0 + x * y * mc.2)

/-- vectors.py:175-185 `__mul__` of two vectors. -/
def mul (keyMul : K → K → K) (u v : Vec K R) : Vec K R :=
  mk' (u.dict.items.foldl (fun ans ax =>
        v.dict.items.foldl (fun ans bx =>
          (terms keyMul u.multiplier ax.1 bx.1).foldl (accum ax.2 bx.2) ans) ans) Dict.empty)
    (u.multiplier <|> v.multiplier)

/-- vectors.py:199-207 `__pow__`; `none` is the AssertionError for exponents that are not positive. -/
def pow (keyMul : K → K → K) (u : Vec K R) (n : Nat) : Option (Vec K R) :=
  if _h0 : n = 0 then none
  else if _h1 : n = 1 then some u
  else
    match pow keyMul u (n / 2) with
    | none => none
    | some x => if n % 2 = 0 then some (mul keyMul x x) else some (mul keyMul (mul keyMul x x) u)
termination_by n
decreasing_by omega

end Vec
end Verif
