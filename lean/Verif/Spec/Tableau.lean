import Verif.Spec.Partitions
import Mathlib.Data.Int.Notation
import Mathlib.Algebra.Order.Group.Abs
import Mathlib.Algebra.Order.Group.Int

/-!
# Specification: semistandard tableaux, reverse plane partitions, marked tableaux

Independent of the model.
-/

namespace Verif.Part

/-- A filling `f` of the boxes of `D` by integers `1..n`, weakly increasing along rows and strictly increasing down
columns. -/
def IsSemistandard (n : Nat) (D : Set (Nat × Nat)) (f : Nat × Nat → Int) : Prop :=
  (∀ b ∈ D, 1 ≤ f b ∧ f b ≤ n) ∧
  (∀ i j, (i, j) ∈ D → (i, j + 1) ∈ D → f (i, j) ≤ f (i, j + 1)) ∧
  (∀ i j, (i, j) ∈ D → (i + 1, j) ∈ D → f (i, j) < f (i + 1, j))

/-- A filling `f` of the boxes of `D` by integers `1..n`, weakly increasing along rows and down columns. -/
def IsReversePlanePartition (n : Nat) (D : Set (Nat × Nat)) (f : Nat × Nat → Int) : Prop :=
  (∀ b ∈ D, 1 ≤ f b ∧ f b ≤ n) ∧
  (∀ i j, (i, j) ∈ D → (i, j + 1) ∈ D → f (i, j) ≤ f (i, j + 1)) ∧
  (∀ i j, (i, j) ∈ D → (i + 1, j) ∈ D → f (i, j) ≤ f (i + 1, j))

/-- The order `1' < 1 < 2' < 2 < ...` of the marked letters; the number `-k` stands for `k'`. -/
def MarkedLT (a b : Int) : Prop := |a| < |b| ∨ (|a| = |b| ∧ a < b)

/-- A filling `f` of the boxes of `D` by the letters `1', 1, ..., n', n`, weakly increasing along rows and down columns
for `MarkedLT`, such that a primed letter occurs at most once in each row and an unprimed letter at most once in each
column.  If `dp = false`, then no primed letter is on the diagonal. -/
def IsMarked (dp : Bool) (n : Nat) (D : Set (Nat × Nat)) (f : Nat × Nat → Int) : Prop :=
  (∀ b ∈ D, 1 ≤ |f b| ∧ |f b| ≤ n) ∧
  (∀ i j, (i, j) ∈ D → (i, j + 1) ∈ D → MarkedLT (f (i, j)) (f (i, j + 1)) ∨ (f (i, j) = f (i, j + 1) ∧ 0 < f (i, j))) ∧
  (∀ i j, (i, j) ∈ D → (i + 1, j) ∈ D → MarkedLT (f (i, j)) (f (i + 1, j)) ∨ (f (i, j) = f (i + 1, j) ∧ f (i, j) < 0)) ∧
  (dp = false → ∀ i, (i, i) ∈ D → 0 < f (i, i))

/-- A filling `f` of the boxes of `D` by the letters `1', 1, ..., n', n`, weakly increasing along rows and down columns
for `MarkedLT`.  If `dn = false`, then only primed letters are on the diagonal. -/
def IsMarkedRPP (dn : Bool) (n : Nat) (D : Set (Nat × Nat)) (f : Nat × Nat → Int) : Prop :=
  (∀ b ∈ D, 1 ≤ |f b| ∧ |f b| ≤ n) ∧
  (∀ i j, (i, j) ∈ D → (i, j + 1) ∈ D → MarkedLT (f (i, j)) (f (i, j + 1)) ∨ f (i, j) = f (i, j + 1)) ∧
  (∀ i j, (i, j) ∈ D → (i + 1, j) ∈ D → MarkedLT (f (i, j)) (f (i + 1, j)) ∨ f (i, j) = f (i + 1, j)) ∧
  (dn = false → ∀ i, (i, i) ∈ D → f (i, i) < 0)

/-- A tableau `T` (a partial map from boxes to tuples) with the boxes `D`, with a nonempty strictly increasing tuple in
each box, and with `P f` for every choice `f` of one entry from each box.  If `sv = false`, then there is only one entry in
each box. -/
def IsTableauOf (sv : Bool) (D : Set (Nat × Nat)) (P : (Nat × Nat → Int) → Prop) (T : Nat × Nat → Option (List Int)) :
    Prop :=
  (∀ b, (T b).isSome ↔ b ∈ D) ∧
  (∀ b s, T b = some s → s ≠ [] ∧ s.Pairwise (· < ·) ∧ (sv = false → s.length = 1)) ∧
  ∀ f : Nat × Nat → Int, (∀ b s, T b = some s → f b ∈ s) → P f

/-- As `IsTableauOf true`, but if `multi` then the tuples are only weakly increasing. -/
def IsMultiTableauOf (multi : Bool) (D : Set (Nat × Nat)) (P : (Nat × Nat → Int) → Prop) (T : Nat × Nat → Option (List Int)) :
    Prop :=
  (∀ b, (T b).isSome ↔ b ∈ D) ∧
  (∀ b s, T b = some s → s ≠ [] ∧ s.Pairwise (· ≤ ·) ∧ (multi = false → s.Pairwise (· < ·))) ∧
  ∀ f : Nat × Nat → Int, (∀ b s, T b = some s → f b ∈ s) → P f

end Verif.Part
