import Verif.Spec.Tableau
import Mathlib.Data.Set.Function
import Mathlib.Order.Interval.Set.Defs

/-!
# Specification: standard tableaux

Independent of the model.
-/

namespace Verif.Part

/-- A filling `f` of the boxes of `D` by the numbers `1..n`, each used exactly once, increasing along rows and down
columns. -/
def IsStandard (n : Nat) (D : Set (Nat × Nat)) (f : Nat × Nat → Int) : Prop :=
  Set.BijOn f D (Set.Icc 1 n) ∧
  (∀ i j, (i, j) ∈ D → (i, j + 1) ∈ D → f (i, j) < f (i, j + 1)) ∧
  (∀ i j, (i, j) ∈ D → (i + 1, j) ∈ D → f (i, j) < f (i + 1, j))

end Verif.Part
