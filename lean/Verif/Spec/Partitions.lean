import Mathlib.Data.Set.Basic
import Mathlib.Data.List.Basic
import Mathlib.Algebra.BigOperators.Group.List.Basic

/-!
# Specification: partitions and diagrams

Independent of the model: what a partition, its diagram, a corner box and a horizontal strip are.
-/

namespace Verif.Part

/-- A partition with positive parts: weakly decreasing positive numbers. -/
def IsPartition (mu : List Nat) : Prop := mu.Pairwise (· ≥ ·) ∧ ∀ a ∈ mu, 0 < a

/-- A strict partition: strictly decreasing positive numbers. -/
def IsStrict (mu : List Nat) : Prop := mu.Pairwise (· > ·) ∧ ∀ a ∈ mu, 0 < a

/-- The diagram of `mu`: boxes `(i, j)`, rows and columns counted from 1, with `j ≤ mu_i`. -/
def Diagram (mu : List Nat) : Set (Nat × Nat) :=
  {b | 1 ≤ b.1 ∧ 1 ≤ b.2 ∧ ∃ a, mu[b.1 - 1]? = some a ∧ b.2 ≤ a}

/-- The shifted diagram of `mu`: boxes `(i, j)` with `i ≤ j < i + mu_i`. -/
def ShiftedDiagram (mu : List Nat) : Set (Nat × Nat) :=
  {b | 1 ≤ b.1 ∧ b.1 ≤ b.2 ∧ ∃ a, mu[b.1 - 1]? = some a ∧ b.2 < b.1 + a}

/-- The corner boxes of a set of boxes: no box to the right and no box below. -/
def Corners (D : Set (Nat × Nat)) : Set (Nat × Nat) :=
  {b | b ∈ D ∧ (b.1 + 1, b.2) ∉ D ∧ (b.1, b.2 + 1) ∉ D}

/-- A set of boxes without two boxes in the same column. -/
def IsHorizontalStrip (D : Set (Nat × Nat)) : Prop :=
  ∀ b ∈ D, ∀ b' ∈ D, b.2 = b'.2 → b = b'

end Verif.Part
