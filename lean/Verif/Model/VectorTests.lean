import Verif.Model.Vector
import Mathlib.Algebra.Ring.Int.Defs

/-!
# Model of `is_singleton`, `is_nonnegative`, `is_positive` and `__floordiv__` of /repo/vectors.py

The last three are modelled for vectors with int coefficients.
-/

namespace Verif.Vec

variable {K R : Type*} [DecidableEq K] [CommRing R] [DecidableEq R]

/-- vectors.py:116-119 `is_singleton()`. -/
def isSingleton (u : Vec K R) : Bool :=
  if u.dict.len ≠ 1 then false else decide (u.dict.values[0]? = some 1)

/-- vectors.py:121-122 `is_nonnegative()`. -/
def isNonnegative (u : Vec K ℤ) : Bool := u.dict.values.all (fun v => decide (v > 0))

/-- vectors.py:124-125 `is_positive()`. -/
def isPositive (u : Vec K ℤ) : Bool := !u.isZero && u.isNonnegative

/-- vectors.py:189-191 `__floordiv__`, with python's `//` (rounding down); `none` is the ZeroDivisionError.  The multiplier is not kept. -/
def floordiv (u : Vec K ℤ) (d : ℤ) : Option (Vec K ℤ) :=
  if d = 0 ∧ u.dict.items ≠ [] then none else some (mk' (u.dict.mapVal (fun _ v => Int.fdiv v d)) none)

end Verif.Vec
