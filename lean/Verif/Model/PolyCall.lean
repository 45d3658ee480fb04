import Verif.Model.Poly

/-! # Model of /repo/polynomials.py, `__call__` -/

namespace Verif.Poly

/-- polynomials.py:155: the factor contributed by the variable `je.1` with exponent `je.2`.  `__pow__` returns None for
some negative exponents, and the product with None raises; this is `none`. -/
def callFactor (x : Dict Int Poly) (factor : Poly) (je : Int × Int) : Option Poly :=
  match pow (x.getD je.1 (monomial je.1 1)) je.2 with
  | none => none
  | some q => some (mul factor q)

/-- polynomials.py:150-157 `__call__(x)` for a dict `x` with polynomials as values.  The accumulators `ans`, `factor` start
as ints; the int `c` is here the polynomial `c`, which is `==` to it. -/
def call (p : Poly) (x : Dict Int Poly) : Option Poly :=
  p.keys.foldlM (fun ans ind => (ind.items.foldlM (callFactor x) (mulInt one (p.coeff ind))).map (fun t => add ans t)) Dict.empty

end Verif.Poly
