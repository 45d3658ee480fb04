import Mathlib.Algebra.Module.Defs
import Mathlib.Algebra.BigOperators.Finsupp.Basic
import Mathlib.Data.Finsupp.SMul
import Mathlib.Algebra.BigOperators.Ring.Finset

/-!
# Specification: the free module with a product given on basis elements
-/

namespace Verif.FreeMod

variable {K R : Type*} [CommRing R]

/-- The formal linear combination described by a list of (basis element, coefficient) pairs. -/
noncomputable def ofTerms (l : List (K × R)) : K →₀ R := (l.map (fun t => Finsupp.single t.1 t.2)).sum

/-- The bilinear product of formal linear combinations in which the product of the basis elements `a`, `b` is the
linear combination `s a b`. -/
noncomputable def bil (s : K → K → (K →₀ R)) (u v : K →₀ R) : K →₀ R :=
  u.sum (fun a x => v.sum (fun b y => (x * y) • s a b))

/-- The product is associative on basis elements. -/
def Assoc (s : K → K → (K →₀ R)) : Prop :=
  ∀ a b c, bil s (bil s (Finsupp.single a 1) (Finsupp.single b 1)) (Finsupp.single c 1) =
    bil s (Finsupp.single a 1) (bil s (Finsupp.single b 1) (Finsupp.single c 1))

/-- The `(n+1)`-fold product `(((v v) v) ... ) v`. -/
noncomputable def pow (s : K → K → (K →₀ R)) (v : K →₀ R) : ℕ → (K →₀ R)
  | 0 => v
  | n + 1 => bil s (pow s v n) v

end Verif.FreeMod
