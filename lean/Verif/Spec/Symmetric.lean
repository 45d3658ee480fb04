import Verif.Spec.Laurent
import Mathlib.Data.Finset.Interval
import Mathlib.Order.Interval.Finset.Nat

/-!
# Specification: monomial symmetric polynomials

Independent of the model.
-/

namespace Verif.Symm

/-- The exponent vector `e` involves only `x_1, ..., x_n` and its nonzero exponents are the parts of `mu` in some
order. -/
def HasExponents (n : Nat) (mu : List Nat) (e : ℤ →₀ ℤ) : Prop :=
  (∀ j, e j ≠ 0 → 1 ≤ j ∧ j ≤ n) ∧ e.support.val.map e = (mu : Multiset Nat).map (fun a : Nat => (a : ℤ))

/-- `z` does not involve the variables `x_1, ..., x_n`. -/
def FreeOf (n : Nat) (z : Laurent) : Prop := ∀ e, z.coeff e ≠ 0 → ∀ i < n, e ((i : ℤ) + 1) = 0

/-- `z` is a Laurent polynomial in beta (the variable with index 0) alone. -/
def BetaOnly (z : Laurent) : Prop := ∀ e, z.coeff e ≠ 0 → ∃ k, e = Finsupp.single 0 k

/-- The degree of the monomial with exponent vector `e` in `x_1, ..., x_n`. -/
def xDegree (n : Nat) (e : ℤ →₀ ℤ) : ℤ := ∑ i ∈ Finset.range n, e ((i : ℤ) + 1)

/-- The exponent vector `e` with the variables renamed by the permutation `s`. -/
noncomputable def permute (s : Equiv.Perm ℤ) (e : ℤ →₀ ℤ) : ℤ →₀ ℤ := e.mapDomain s

end Verif.Symm
