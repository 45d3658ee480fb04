import Verif.Lemmas.Dualops

/-! Properties C94, C95: the operators of dualops.py. -/

attribute [-simp] List.getD_eq_getElem?_getD

namespace Verif.Dualops

open Verif.Part Partition

variable {a b c d : Nat}

/-! ## C94: what the operators do -/

/-- C94: for `a ≤ b`, `sh_horizontal_strip(a, b)` sends a strict partition `mu` to the strict partition `nu` whose shifted
diagram is that of `mu` and, in one row, new boxes on the diagonals `a, ..., b`; it returns None when there is no such `nu`.
(That there is at most one `nu` follows, as the result is a function of `mu`.)  It sends None to None. -/
theorem C94_horizontal (hab : a ≤ b) : ∃ h, shHorizontalStrip a b = some h ∧ h none = none ∧
    ∀ mu nu, IsStrict mu → (h (some mu) = some nu ↔ IsStrict nu ∧
      ∃ i, 1 ≤ i ∧ (∀ c, a ≤ c → c ≤ b → (i, i + c) ∉ ShiftedDiagram mu) ∧
        ShiftedDiagram nu = ShiftedDiagram mu ∪ {x | ∃ c, a ≤ c ∧ c ≤ b ∧ x = (i, i + c)}) := by
  refine ⟨_, if_pos hab, rfl, fun mu nu hm => ?_⟩
  change horizontalOp a b mu = some nu ↔ IsStrict nu ∧ AddsRow a b mu nu
  rw [← rowMove_iff hab]
  constructor
  · exact horizontalOp_some hm hab
  · rintro ⟨h1, h2⟩
    exact (horizontalOp_iff hm hab).2 ⟨h1, h2.parts hm h1⟩

/-- C94: the same for `sh_vertical_strip(a, b)` and boxes in one column. -/
theorem C94_vertical (hab : a ≤ b) : ∃ v, shVerticalStrip a b = some v ∧ v none = none ∧
    ∀ mu nu, IsStrict mu → (v (some mu) = some nu ↔ IsStrict nu ∧
      ∃ j, b < j ∧ (∀ c, a ≤ c → c ≤ b → (j - c, j) ∉ ShiftedDiagram mu) ∧
        ShiftedDiagram nu = ShiftedDiagram mu ∪ {x | ∃ c, a ≤ c ∧ c ≤ b ∧ x = (j - c, j)}) := by
  refine ⟨_, if_pos hab, rfl, fun mu nu hm => ?_⟩
  change verticalOp a b mu = some nu ↔ IsStrict nu ∧ AddsColumn a b mu nu
  rw [← colMove_iff hab]
  constructor
  · exact verticalOp_some hm hab
  · rintro ⟨h1, h2⟩
    exact (verticalOp_iff hm hab).2 ⟨h1, h2.parts hm h1 hab⟩

/-- C94: `b < a` raises an AssertionError. -/
theorem C94_assertion (h : b < a) : shHorizontalStrip a b = none ∧ shVerticalStrip a b = none :=
  ⟨if_neg (by omega), if_neg (by omega)⟩

/-- C94, in terms of parts: the part `a` becomes `b + 1`, under the condition that no part is in `a + 1, ..., b + 1` for
horizontal strips, and that all of `a, ..., b` but not `b + 1` are parts for vertical strips (0 counts as a part). -/
theorem C94_parts (hab : a ≤ b) {mu nu : List Nat} (hm : IsStrict mu) :
    (shHorizontalStrip a b = some (fun mu => mu.bind (horizontalOp a b)) ∧
      shVerticalStrip a b = some (fun mu => mu.bind (verticalOp a b))) ∧
    (horizontalOp a b mu = some nu ↔ IsStrict nu ∧ ((a = 0 ∨ a ∈ mu) ∧ ∀ t, a < t → t ≤ b + 1 → t ∉ mu) ∧
      ∀ t, t ∈ nu ↔ t = b + 1 ∨ (t ∈ mu ∧ t ≠ a)) ∧
    (verticalOp a b mu = some nu ↔ IsStrict nu ∧ ((∀ t, a ≤ t → t ≤ b → t = 0 ∨ t ∈ mu) ∧ b + 1 ∉ mu) ∧
      ∀ t, t ∈ nu ↔ t = b + 1 ∨ (t ∈ mu ∧ t ≠ a)) := by
  refine ⟨⟨?_, ?_⟩, horizontalOp_iff hm hab, verticalOp_iff hm hab⟩
  · rw [shHorizontalStrip, if_pos hab]
    congr 1
    funext mu
    cases mu <;> rfl
  · rw [shVerticalStrip, if_pos hab]
    congr 1
    funext mu
    cases mu <;> rfl

example : IsStrict [4, 1] ∧ (shHorizontalStrip 1 2).map (fun h => h (some [4, 1])) = some (some [4, 3]) ∧
    (shHorizontalStrip 0 3).map (fun h => h (some [1])) = some none ∧
    (shVerticalStrip 0 2).map (fun h => h (some [2, 1])) = some (some [3, 2, 1]) ∧
    (shVerticalStrip 0 1).map (fun h => h (some [9, 8, 5, 4])) = some none := by
  refine ⟨by simp [IsStrict], by decide, by decide, by decide, by decide⟩

/-! ## C95: relations -/

/-- C95: operators on separated intervals of diagonals (with at least one diagonal between them) commute. -/
theorem C95_separated (hab : a ≤ b) (hcd : c ≤ d) (hs : b + 1 < c ∨ d + 1 < a) :
    ∃ h v h' v', shHorizontalStrip a b = some h ∧ shVerticalStrip a b = some v ∧
      shHorizontalStrip c d = some h' ∧ shVerticalStrip c d = some v' ∧
      ∀ mu : Option (List Nat), (∀ m, mu = some m → IsStrict m) →
        h (h' mu) = h' (h mu) ∧ h (v' mu) = v' (h mu) ∧ v (v' mu) = v' (v mu) := by
  refine ⟨_, _, _, _, if_pos hab, if_pos hab, if_pos hcd, if_pos hcd, fun mu hmu => ?_⟩
  cases mu with
  | none => exact ⟨rfl, rfl, rfl⟩
  | some m =>
    have hm := hmu m rfl
    have key : ∀ {f g : List Nat → Option (List Nat)} {C D : List Nat → Prop}, IsOp C a b f → IsOp D c d g →
        (match (g m) with | none => none | some x => f x) = (match (f m) with | none => none | some x => g x) := by
      intro f g C D hf hg
      have := op_commute hf hg hs hab hcd hm
      cases hg' : g m <;> cases hf' : f m <;> rw [hg', hf'] at this <;> exact this
    exact ⟨key (isOp_h hab) (isOp_h hcd), key (isOp_h hab) (isOp_v hcd), key (isOp_v hab) (isOp_v hcd)⟩

/-- C95: a horizontal strip after a vertical strip on intersecting intervals is zero. -/
theorem C95_horizontal_after_vertical (hab : a ≤ b) (hcd : c ≤ d) (h1 : a ≤ d) (h2 : c ≤ b) :
    ∃ h v, shHorizontalStrip a b = some h ∧ shVerticalStrip c d = some v ∧
      ∀ mu, IsStrict mu → h (v (some mu)) = none := by
  refine ⟨_, _, if_pos hab, if_pos hcd, fun mu hm => ?_⟩
  change (match verticalOp c d mu with | none => none | some x => horizontalOp a b x) = none
  cases hv : verticalOp c d mu with
  | none => rfl
  | some x =>
    obtain ⟨x1, x2, x3⟩ := (verticalOp_iff hm hcd).1 hv
    cases hh : horizontalOp a b x with
    | none => exact hh
    | some y =>
      exfalso
      obtain ⟨_, y2, _⟩ := (horizontalOp_iff x1 hab).1 hh
      refine y2.2 (min b d + 1) (by omega) (by omega) ((x3 _).2 ?_)
      by_cases hbd : d ≤ b
      · left
        omega
      · right
        refine ⟨(x2.1 (min b d + 1) (by omega) (by omega)).resolve_left (by omega), by omega⟩

/-- C95: a vertical strip after a horizontal strip on intersecting intervals is zero, except when both intervals start in 0
and exactly one of them is longer than that. -/
theorem C95_vertical_after_horizontal (hab : a ≤ b) (hcd : c ≤ d) (h1 : a ≤ d) (h2 : c ≤ b)
    (h0 : ¬ (a = 0 ∧ c = 0 ∧ ((b = 0 ∧ d ≠ 0) ∨ (b ≠ 0 ∧ d = 0)))) :
    ∃ h v, shHorizontalStrip a b = some h ∧ shVerticalStrip c d = some v ∧
      ∀ mu, IsStrict mu → v (h (some mu)) = none := by
  refine ⟨_, _, if_pos hab, if_pos hcd, fun mu hm => ?_⟩
  change (match horizontalOp a b mu with | none => none | some x => verticalOp c d x) = none
  cases hv : horizontalOp a b mu with
  | none => rfl
  | some x =>
    obtain ⟨x1, x2, x3⟩ := (horizontalOp_iff hm hab).1 hv
    cases hh : verticalOp c d x with
    | none => exact hh
    | some y =>
      exfalso
      obtain ⟨_, y2, _⟩ := (verticalOp_iff x1 hcd).1 hh
      -- no part of `x` is in both intervals
      have hno : ∀ t, a ≤ t → t ≤ b → t ∉ x := by
        intro t t1 t2 ht
        rcases (x3 t).1 ht with h | h
        · omega
        · exact x2.2 t (by omega) (by omega) h.1
      have hz : ∀ t, a ≤ t → t ≤ b → c ≤ t → t ≤ d → t = 0 := by
        intro t t1 t2 t3 t4
        exact (y2.1 t t3 t4).resolve_right (hno t t1 t2)
      have e1 := hz (max a c) (by omega) (by omega) (by omega) (by omega)
      have e2 := hz (min b d) (by omega) (by omega) (by omega) (by omega)
      -- both intervals are `0..0`
      have e3 : b = 0 ∧ d = 0 := by omega
      exact y2.2 ((x3 _).2 (Or.inl (by omega)))

/-- C95: in the cases left out, the composition is not always zero. -/
theorem C95_exceptions :
    ((shHorizontalStrip 0 0).bind (fun h => (shVerticalStrip 0 1).map (fun v => v (h (some []))))) = some (some [2, 1]) ∧
    ((shHorizontalStrip 0 1).bind (fun h => (shVerticalStrip 0 0).map (fun v => v (h (some []))))) = some (some [2, 1]) := by
  decide

example : IsStrict [3, 2] ∧ (shVerticalStrip 2 3).map (fun v => v (some [3, 2])) = some (some [4, 3]) ∧
    (shHorizontalStrip 0 0).map (fun h => h (some [4, 3])) = some (some [4, 3, 1]) ∧
    (shHorizontalStrip 0 0).map (fun h => h (some [3, 2])) = some (some [3, 2, 1]) := by
  refine ⟨by simp [IsStrict], by decide, by decide, by decide⟩

end Verif.Dualops
