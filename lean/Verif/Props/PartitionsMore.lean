import Verif.Lemmas.PartitionsMore

/-! Properties C45 and C46: recognisers, normal forms and local moves of partitions. -/

namespace Verif.Partition

open Verif.Part

attribute [-simp] List.getD_eq_getElem?_getD

/-! ### C45 -/

/-- C45: `is_partition` accepts exactly the weakly decreasing sequences of non-negative ints (trailing zeros are
allowed), `is_strict_partition` exactly the strictly decreasing sequences of ints. -/
theorem C45_recognisers (mu : List Int) :
    (isPartition mu = true ↔ mu.Pairwise (· ≥ ·) ∧ ∀ a ∈ mu, 0 ≤ a) ∧
      (isStrictInt mu = true ↔ mu.Pairwise (· > ·)) :=
  ⟨isPartition_iff mu, isStrictInt_iff mu⟩

example : isPartition [4, 4, 1, 0, 0] = true ∧ isPartition [2, 3] = false ∧ isPartition [2, -1] = false ∧
    isStrictInt [4, 2, -1] = true ∧ isStrictInt [4, 2, 2] = false := by decide

/-- C45: `sort` is the weakly decreasing rearrangement; with `trim=True` it is the partition with the same multiset
of nonzero entries. -/
theorem C45_sort (mu : List Int) (nu : List Nat) :
    ((sortDesc mu).Perm mu ∧ (sortDesc mu).Pairwise (· ≥ ·)) ∧
      IsPartition (sortDescTrim nu) ∧ (sortDescTrim nu).Perm (nu.filter (· ≠ 0)) :=
  ⟨sortDesc_spec mu, (sortDescTrim_spec nu).2, (sortDescTrim_spec nu).1⟩

example : sortDesc [1, -2, 5, 1] = [5, 1, 1, -2] ∧ sortDescTrim [0, 1, 3, 0, 3] = [3, 3, 1] := by decide +kernel

/-- C45: `trim` removes the trailing zeros and nothing else. -/
theorem C45_trim (mu : List Nat) :
    (∃ k, mu = trim mu ++ List.replicate k 0) ∧ (∀ h : trim mu ≠ [], (trim mu).getLast h ≠ 0) :=
  ⟨⟨_, trim_eq mu⟩, trim_last mu⟩

example : trim [2, 0, 1, 0, 0] = [2, 0, 1] := by decide

/-- C45: the diagram of `union(p, q)` is the union of the diagrams. -/
theorem C45_union {p q : List Nat} (hp : IsPartition p) (hq : IsPartition q) :
    IsPartition (union p q) ∧ Diagram (union p q) = Diagram p ∪ Diagram q := by
  refine ⟨union_isPartition hp hq, ?_⟩
  ext ⟨i, j⟩
  simp only [Set.mem_union, mem_diagram, getD_union]
  omega

example : IsPartition [4, 1] ∧ IsPartition [2, 2, 2] ∧ union [4, 1] [2, 2, 2] = [4, 2, 2] := by
  refine ⟨⟨by decide, by decide⟩, ⟨by decide, by decide⟩, by decide⟩

/-- C45: for a strict partition `mu` with parts at most `n`, `complement(n, mu)` is the strict partition formed by the
numbers `1..n` that are not parts of `mu`; if a part of `mu` exceeds `n` the assertion fails. -/
theorem C45_complement {n : Nat} {mu : List Nat} (h : IsStrict mu) :
    ((∀ a ∈ mu, a ≤ n) → ∃ lam, complement n mu = some lam ∧ IsStrict lam ∧
      ∀ a, a ∈ lam ↔ 1 ≤ a ∧ a ≤ n ∧ a ∉ mu) ∧
    ((∃ a ∈ mu, n < a) → complement n mu = none) :=
  ⟨complement_spec h, complement_none⟩

example : IsStrict [5, 2] ∧ (∀ a ∈ [5, 2], a ≤ 6) ∧ complement 6 [5, 2] = some [6, 4, 3, 1] ∧
    complement 4 [5, 2] = none := by
  refine ⟨⟨by decide, by decide⟩, by decide, by decide +kernel, by decide +kernel⟩

/-! ### C46 -/

/-- C46: `find_shifted_outer_corner(mu, d)` returns `i` exactly when the box `(i, i + d)` on the diagonal `d` can be
added to the shifted diagram of `mu`, `find_shifted_inner_corner(mu, d)` exactly when that box is a corner of it. -/
theorem C46_corners {mu : List Nat} (h : IsStrict mu) (d i : Nat) :
    (findShiftedOuterCorner mu d = some i ↔ (i, i + d) ∉ ShiftedDiagram mu ∧
      ∃ nu, IsStrict nu ∧ ShiftedDiagram nu = ShiftedDiagram mu ∪ {(i, i + d)}) ∧
    (findShiftedInnerCorner mu d = some i ↔ (i, i + d) ∈ Corners (ShiftedDiagram mu)) :=
  ⟨findShiftedOuterCorner_spec h d i, findShiftedInnerCorner_spec h d i⟩

example : IsStrict [4, 2] ∧ findShiftedOuterCorner [4, 2] 0 = some 3 ∧ findShiftedOuterCorner [4, 2] 2 = some 2 ∧
    findShiftedOuterCorner [4, 2] 1 = none ∧ findShiftedInnerCorner [4, 2] 1 = some 2 ∧
    findShiftedInnerCorner [4, 2] 3 = some 1 ∧ findShiftedInnerCorner [4, 2] 0 = none := by
  refine ⟨⟨by decide, by decide⟩, by decide +kernel, by decide +kernel, by decide +kernel, by decide +kernel,
    by decide +kernel, by decide +kernel⟩

/-- C46: `successors(mu)` lists, without repetition, the partitions with as many parts as `mu` whose parts exceed those
of `mu` by 0 or 1; with `strict=True` the strict ones among them. -/
theorem C46_successors {mu : List Nat} :
    (IsPartition mu → (successors mu false).Nodup ∧ ∀ nu, nu ∈ successors mu false ↔ IsPartition nu ∧
      nu.length = mu.length ∧ ∀ i, mu.getD i 0 ≤ nu.getD i 0 ∧ nu.getD i 0 ≤ mu.getD i 0 + 1) ∧
    (IsStrict mu → (successors mu true).Nodup ∧ ∀ nu, nu ∈ successors mu true ↔ IsStrict nu ∧
      nu.length = mu.length ∧ ∀ i, mu.getD i 0 ≤ nu.getD i 0 ∧ nu.getD i 0 ≤ mu.getD i 0 + 1) := by
  constructor
  · intro h
    obtain ⟨h1, h2⟩ := successorsAux_spec false (mu.length + 1) (by omega) (mu := mu) (isPart_zero.2 h)
    refine ⟨h1, fun nu => ?_⟩
    rw [successors, h2]
    exact and_congr_left fun _ => isPart_zero
  · intro h
    obtain ⟨h1, h2⟩ := successorsAux_spec true (mu.length + 1) (by omega) (mu := mu) (isPart_one.2 h)
    refine ⟨h1, fun nu => ?_⟩
    rw [successors, h2]
    exact and_congr_left fun _ => isPart_one

example : IsStrict [3, 2] ∧ successors [3, 2] true = [[4, 3], [4, 2], [3, 2]] ∧
    successors [2, 2] false = [[3, 3], [3, 2], [2, 2]] := by
  refine ⟨⟨by decide, by decide⟩, by decide +kernel, by decide +kernel⟩

/-- C46: `decompose_shifted_shape_by_vertical_strips(mu)` lists, without repetition, the strict partitions inside `mu`
with at most one box less in each row. -/
theorem C46_vertical {mu : List Nat} (h : IsStrict mu) :
    (decomposeVertical mu).Nodup ∧ ∀ nu, nu ∈ decomposeVertical mu ↔
      IsStrict nu ∧ ∀ i, nu.getD i 0 ≤ mu.getD i 0 ∧ mu.getD i 0 ≤ nu.getD i 0 + 1 :=
  decomposeVerticalAux_spec (mu.length + 1) (by omega) h

example : IsStrict [3, 2] ∧ decomposeVertical [3, 2] = [[2, 1], [3, 1], [3, 2]] := by
  refine ⟨⟨by decide, by decide⟩, by decide +kernel⟩

/-- C46: `decompose_shifted_shape_by_rims(mu)` lists, without repetition, the strict partitions `nu` that interlace
with `mu`: `mu_{i+1} ≤ nu_i ≤ mu_i`, so that `mu / nu` has no two boxes on one diagonal. -/
theorem C46_rims {mu : List Nat} (h : IsStrict mu) :
    (decomposeRims mu).Nodup ∧ ∀ nu, nu ∈ decomposeRims mu ↔
      IsStrict nu ∧ ∀ i, mu.getD (i + 1) 0 ≤ nu.getD i 0 ∧ nu.getD i 0 ≤ mu.getD i 0 :=
  decomposeRimsAux_spec (mu.length + 1) (by omega) h

example : IsStrict [3, 1] ∧ decomposeRims [3, 1] = [[1], [2], [3], [2, 1], [3, 1]] := by
  refine ⟨⟨by decide, by decide⟩, by decide +kernel⟩

/-- C46: for a nonempty strict partition `decrement_one` removes from the shifted diagram the corner in the highest
row, and `decrement_strict` removes the last column; `decrement_one(())` raises IndexError. -/
theorem C46_decrement {nu : List Nat} (h : IsStrict nu) :
    (nu ≠ [] → ∃ i j lam, decrementOne nu = some lam ∧ IsStrict lam ∧ (i, j) ∈ Corners (ShiftedDiagram nu) ∧
      (∀ b ∈ Corners (ShiftedDiagram nu), i ≤ b.1) ∧ ShiftedDiagram lam = ShiftedDiagram nu \ {(i, j)}) ∧
    decrementOne [] = none ∧
    IsStrict (decrementStrict nu) ∧
      ShiftedDiagram (decrementStrict nu) = {b ∈ ShiftedDiagram nu | b.2 ≠ nu.getD 0 0} :=
  ⟨decrementOne_spec h, rfl, decrementStrict_spec h⟩

example : IsStrict [4, 3, 1] ∧ decrementOne [4, 3, 1] = some [4, 2, 1] ∧ decrementStrict [4, 3, 1] = [3, 2, 1] := by
  refine ⟨⟨by decide, by decide⟩, by decide +kernel, by decide +kernel⟩

/-- C46: for a composition `alpha`, `shifted_ribbon(alpha)` is a pair of strict partitions `nu`, `lam` with
`alpha_i` boxes in row `i` of `nu / lam` and such that `nu / lam` is a ribbon: `lam_i = nu_{i+1}`. -/
theorem C46_ribbon {alpha : List Nat} (h : ∀ a ∈ alpha, 0 < a) :
    IsStrict (shiftedRibbon alpha).1 ∧ IsStrict (shiftedRibbon alpha).2 ∧
      (∀ i, (shiftedRibbon alpha).1.getD i 0 = (shiftedRibbon alpha).2.getD i 0 + alpha.getD i 0) ∧
      ∀ i, (shiftedRibbon alpha).2.getD i 0 = (shiftedRibbon alpha).1.getD (i + 1) 0 :=
  shiftedRibbon_spec h

example : (∀ a ∈ [2, 1, 3], 0 < a) ∧ shiftedRibbon [2, 1, 3] = ([6, 4, 3], [4, 3]) := by decide

end Verif.Partition
