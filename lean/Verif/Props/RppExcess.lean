import Verif.Model.RppExcess
import Verif.Lemmas.Tableau

/-! # C129: the excess of a reverse plane partition -/

namespace Verif.Tab

/-- The number of boxes whose value is repeated in the box below. -/
def repeatsBelow (T : Tab) : Nat := T.items.countP (fun p => decide (T.get? (p.1.1 + 1, p.1.2) = some p.2))

theorem rppExcess_single (same : Nat × Nat → Bool) (T : Tab) (h : ∀ b vs, T.get? b = some vs → vs.length = 1) :
    rppExcess same T = some 0 := by
  rw [rppExcess, if_pos]
  rw [List.filter_eq_nil_iff]
  intro b _ hb
  rw [isBelow] at hb
  cases hg : T.get? (b.1 + 1, b.2) with
  | none => rw [hg] at hb; simp at hb
  | some vs =>
    obtain ⟨v, rfl⟩ := List.length_eq_one_iff.1 (h _ _ hg)
    rw [hg] at hb
    simp at hb

/-- C129, the part that holds: `rpp_excess()` is the number of boxes with the same value as the box below, if there
is none.  Missing: the tableaux with such boxes, where it is false (`C129_violated`). -/
theorem C129_rpp_excess_partial (same : Nat × Nat → Bool) (T : Tab) (h : ∀ b vs, T.get? b = some vs → vs.length = 1)
    (h0 : ∀ b vs, T.get? b = some vs → T.get? (b.1 + 1, b.2) ≠ some vs) :
    rppExcess same T = some (repeatsBelow T : Int) := by
  rw [rppExcess_single same T h]
  have : repeatsBelow T = 0 := by
    rw [repeatsBelow, List.countP_eq_zero]
    intro p hp hd
    exact h0 p.1 p.2 (Dict.lookup_of_mem T.keys_nodup hp) (of_decide_eq_true hd)
  rw [this]
  rfl

/-- C129: whenever `rpp_excess()` returns, it returns 0; for one value in each box it always returns. -/
theorem C129_zero (same : Nat × Nat → Bool) (T : Tab) :
    (∀ r, rppExcess same T = some r → r = 0) ∧
      ((∀ b vs, T.get? b = some vs → vs.length = 1) → rppExcess same T = some 0) := by
  refine ⟨fun r h => ?_, rppExcess_single same T⟩
  rw [rppExcess] at h
  split at h
  · exact (Option.some.inj h).symm
  · simp at h

/-- C129 is false: in the column `1, 1, 1` two values are repeated in the box below, but `rpp_excess()` is 0. -/
theorem C129_violated : ∃ T : Tab, (∀ b vs, T.get? b = some vs → vs.length = 1) ∧ repeatsBelow T = 2 ∧
    ∀ same, rppExcess same T = some 0 := by
  have h : ∀ b vs, (((Tab.empty.set (1, 1) [1]).set (2, 1) [1]).set (3, 1) [1]).get? b = some vs → vs.length = 1 := by
    intro b vs hb
    have hm : (b, vs) ∈ [(((1, 1), [1]) : (Nat × Nat) × List Int), ((2, 1), [1]), ((3, 1), [1])] := Dict.lookup_mem hb
    simp only [List.mem_cons, Prod.mk.injEq, List.not_mem_nil, or_false] at hm
    rcases hm with ⟨_, rfl⟩ | ⟨_, rfl⟩ | ⟨_, rfl⟩ <;> rfl
  exact ⟨_, h, by decide +kernel, fun same => rppExcess_single same _ h⟩

/-- The tableau with the column `1, 2` meets the hypotheses of the part that holds. -/
example : (∀ b vs, ((Tab.empty.set (1, 1) [1]).set (2, 1) [2]).get? b = some vs → vs.length = 1 ∧
    ((Tab.empty.set (1, 1) [1]).set (2, 1) [2]).get? (b.1 + 1, b.2) ≠ some vs) := by
  intro b vs hb
  have hm : (b, vs) ∈ [(((1, 1), [1]) : (Nat × Nat) × List Int), ((2, 1), [2])] := Dict.lookup_mem hb
  simp only [List.mem_cons, Prod.mk.injEq, List.not_mem_nil, or_false] at hm
  rcases hm with ⟨rfl, rfl⟩ | ⟨rfl, rfl⟩ <;> exact ⟨rfl, by decide +kernel⟩

end Verif.Tab
