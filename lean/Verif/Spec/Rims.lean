import Verif.Spec.Partitions
import Mathlib.Order.Interval.Set.Basic
import Mathlib.Algebra.Order.Ring.Int

/-!
# Specification: rims, KOG tableaux and KLG tableaux

Independent of the model.  A tableau on a set `D` of boxes is a function from boxes to integers that is 0 outside `D`; the
negative integer `-a` stands for the primed letter `a'`.
-/

namespace Verif.Part

/-- `nu / mu` is a rim: `nu` contains `mu`, and outside `mu` there are no two boxes of `nu` diagonally behind each other. -/
structure IsRim (mu nu : List Nat) : Prop where
  strict : IsStrict nu
  contains : ShiftedDiagram mu ⊆ ShiftedDiagram nu
  thin : ∀ i j, ¬ ((i, j) ∈ ShiftedDiagram nu \ ShiftedDiagram mu ∧ (i + 1, j + 1) ∈ ShiftedDiagram nu \ ShiftedDiagram mu)

/-- `c` is weakly south-west of `b` (rows are counted downwards). -/
def SouthWest (c b : Nat × Nat) : Prop := b.1 ≤ c.1 ∧ c.2 ≤ b.2

/-- A KOG tableau on the boxes `D` with the letters `1, ..., p`: every letter occurs, rows and columns are strictly increasing,
and every box is weakly smaller than all boxes south-west of it or weakly larger than all of them. -/
structure IsKOG (D : Set (Nat × Nat)) (p : Nat) (f : Nat × Nat → Int) : Prop where
  off : ∀ b, b ∉ D → f b = 0
  rows : ∀ i j, (i, j) ∈ D → (i, j + 1) ∈ D → f (i, j) < f (i, j + 1)
  columns : ∀ i j, (i, j) ∈ D → (i + 1, j) ∈ D → f (i, j) < f (i + 1, j)
  southWest : ∀ b ∈ D, (∀ c ∈ D, SouthWest c b → f b ≤ f c) ∨ (∀ c ∈ D, SouthWest c b → f c ≤ f b)
  content : f '' D = Set.Icc 1 (p : Int)

/-- The order of letters: `1' < 1 < 2' < 2 < ...`. -/
def LetterLt (x y : Int) : Prop := |x| < |y| ∨ (|x| = |y| ∧ x < y)

/-- A KLG tableau on the boxes `D` with the letters `1', 1, ..., p', p`: every number occurs, primed or not; rows and columns
are strictly increasing; no box on the main diagonal is primed; a primed box is weakly smaller than all boxes south-west of
it, an unprimed box is weakly larger than all of them. -/
structure IsKLG (D : Set (Nat × Nat)) (p : Nat) (f : Nat × Nat → Int) : Prop where
  off : ∀ b, b ∉ D → f b = 0
  rows : ∀ i j, (i, j) ∈ D → (i, j + 1) ∈ D → LetterLt (f (i, j)) (f (i, j + 1))
  columns : ∀ i j, (i, j) ∈ D → (i + 1, j) ∈ D → LetterLt (f (i, j)) (f (i + 1, j))
  diagonal : ∀ i, (i, i) ∈ D → 0 < f (i, i)
  primed : ∀ b ∈ D, f b < 0 → ∀ c ∈ D, SouthWest c b → ¬ LetterLt (f c) (f b)
  unprimed : ∀ b ∈ D, 0 < f b → ∀ c ∈ D, SouthWest c b → ¬ LetterLt (f b) (f c)
  content : (fun b => |f b|) '' D = Set.Icc 1 (p : Int)

end Verif.Part
