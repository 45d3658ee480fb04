import Mathlib.LinearAlgebra.Span.Basic
import Mathlib.Data.Rat.Defs
import Mathlib.Algebra.Field.Rat
import Mathlib.Algebra.Module.Pi

/-! Row spaces and echelon form of integer matrices, given as functions that vanish outside the matrix. -/

namespace Verif.LinAlg

/-- The ℚ-span of the rows. -/
def rowSpan (M : ℕ → ℕ → ℤ) : Submodule ℚ (ℕ → ℚ) := Submodule.span ℚ (Set.range (fun t j => (M t j : ℚ)))

/-- Row echelon form with positive leading entries: row `t` starts in column `p t`, these columns increase, and rows from
`k` on are zero. -/
def IsEchelon (M : ℕ → ℕ → ℤ) : Prop :=
  ∃ (k : ℕ) (p : ℕ → ℕ), (∀ s t, s < t → t < k → p s < p t) ∧
    (∀ t, t < k → 0 < M t (p t) ∧ ∀ c, c < p t → M t c = 0) ∧ ∀ t, k ≤ t → ∀ c, M t c = 0

end Verif.LinAlg
