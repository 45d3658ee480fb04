import Verif.Spec.Partitions
import Mathlib.Data.Int.Notation

/-!
# Specification: increasing tableaux, standard set-valued tableaux and admissible records

Independent of the model.
-/

namespace Verif.Part

/-- `f` is strictly increasing along rows and down columns of `D`. -/
def IsIncreasing (D : Set (Nat × Nat)) (f : Nat × Nat → Int) : Prop :=
  (∀ i j, (i, j) ∈ D → (i, j + 1) ∈ D → f (i, j) < f (i, j + 1)) ∧
  (∀ i j, (i, j) ∈ D → (i + 1, j) ∈ D → f (i, j) < f (i + 1, j))

/-- `s` assigns to the boxes of `D` the disjoint nonempty parts, as sorted lists, of `{1, ..., n}`; the numbers of a box are
smaller than those of its right and lower neighbours. -/
def IsStandardSetValued (n : Nat) (D : Set (Nat × Nat)) (s : Nat × Nat → List Int) : Prop :=
  (∀ b ∈ D, s b ≠ [] ∧ (s b).Pairwise (· < ·)) ∧
  (∀ b ∈ D, ∀ x ∈ s b, 1 ≤ x ∧ x ≤ n) ∧
  (∀ x : Int, 1 ≤ x → x ≤ n → ∃! b, b ∈ D ∧ x ∈ s b) ∧
  (∀ i j, (i, j) ∈ D → (i, j + 1) ∈ D → ∀ x ∈ s (i, j), ∀ y ∈ s (i, j + 1), x < y) ∧
  (∀ i j, (i, j) ∈ D → (i + 1, j) ∈ D → ∀ x ∈ s (i, j), ∀ y ∈ s (i + 1, j), x < y)

/-- `record` is as long as `word` and weakly increasing, and increases strictly at every descent of `word` (if `multi`) or at
every weak ascent of `word` (otherwise). -/
def IsRecord (word record : List Int) (multi : Bool) : Prop :=
  word.length = record.length ∧
  ∀ i a b x y, word[i]? = some a → word[i + 1]? = some b → record[i]? = some x → record[i + 1]? = some y →
    x ≤ y ∧ ((if multi then b < a else a ≤ b) → x < y)

end Verif.Part
