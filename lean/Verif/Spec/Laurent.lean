import Verif.Model.Poly
import Mathlib.Algebra.MonoidAlgebra.Basic
import Mathlib.Data.Finsupp.Defs
import Mathlib.Data.Finsupp.Basic

/-!
# Specification: the ring of Laurent polynomials

`Laurent` is Mathlib's monoid algebra of the group of exponent vectors `ℤ →₀ ℤ` over `ℤ`, i.e. the ring of Laurent
polynomials with integer coefficients in the variables `x_i` (`i ∈ ℤ`).  `Poly.den p` is the element of it with the
coefficients that python's `p[m]` reads off.
-/

namespace Verif

/-- The ring of integer Laurent polynomials in variables indexed by `ℤ`. -/
abbrev Laurent := AddMonoidAlgebra ℤ (ℤ →₀ ℤ)

/-- The exponent vector of a monomial. -/
noncomputable def Mono.expo (m : Mono) : ℤ →₀ ℤ :=
  (m.items.map (fun p => Finsupp.single p.1 p.2)).sum

/-- The Laurent polynomial with coefficient `c` at the monomial `m`, for every stored term `(m, c)`. -/
noncomputable def Poly.den (p : Poly) : Laurent :=
  (p.items.map (fun t => AddMonoidAlgebra.single t.1.expo t.2)).sum

/-- The monomial `x_i ^ k` of the Laurent polynomial ring. -/
noncomputable def Laurent.xpow (i k : ℤ) : Laurent := AddMonoidAlgebra.single (Finsupp.single i k) 1

/-- No stored coefficient is zero. -/
def Poly.NoZero (p : Poly) : Prop := ∀ m c, p.get? m = some c → c ≠ 0

end Verif

namespace Verif.Laurent

/-- The image of the monomial with exponent vector `v` when `x_i` is replaced by `e` (used when `v i ≥ 0`). -/
noncomputable def substMono (i : ℤ) (e : Laurent) (v : ℤ →₀ ℤ) : Laurent :=
  AddMonoidAlgebra.single (v.erase i) 1 * e ^ (v i).toNat

/-- The image of `z` when `x_i` is replaced by `e`: the additive extension of `substMono`. -/
noncomputable def subst (i : ℤ) (e z : Laurent) : Laurent := z.coeff.sum (fun v c => c • substMono i e v)

/-- `x_i` occurs in `z` with non-negative exponents only. -/
def NonnegIn (i : ℤ) (z : Laurent) : Prop := ∀ v, z.coeff v ≠ 0 → 0 ≤ v i

end Verif.Laurent
