import Verif.Model.Skew
import Mathlib.Data.List.Sort

/-! # The normal form of a skew shape -/

namespace Verif.Partition
attribute [-simp] List.getD_eq_getElem?_getD

/-- The boxes moved up by `p` and to the left by `q`. -/
def moveBy (p q : Nat) (S : List (Nat × Nat)) : List (Nat × Nat) := S.map (fun b => (b.1 - p, b.2 - q))

theorem mem_moveBy {p q : Nat} {S : List (Nat × Nat)} {b : Nat × Nat} : b ∈ moveBy p q S ↔ ∃ x ∈ S, (x.1 - p, x.2 - q) = b := List.mem_map

theorem moveBy_moveBy (p q p' q' : Nat) (S : List (Nat × Nat)) : moveBy p q (moveBy p' q' S) = moveBy (p' + p) (q' + q) S := by
  unfold moveBy
  rw [List.map_map]
  refine List.map_congr_left (fun b _ => ?_)
  simp only [Function.comp_apply, Nat.sub_sub]

theorem moveBy_zero (S : List (Nat × Nat)) : moveBy 0 0 S = S := by simp [moveBy]

/-- One round of the loop. -/
theorem loop_cases {sh : Bool} {f : Nat} {S K : List (Nat × Nat)} (h : skewKeyLoop sh (f + 1) S = some K) :
    (S = [] ∧ K = []) ∨
    (S ≠ [] ∧ (∀ b ∈ S, 1 < b.1 ∧ 1 < b.2) ∧ skewKeyLoop sh f (moveBy 1 1 S) = some K) ∨
    (S ≠ [] ∧ (∀ b ∈ S, 1 < b.1) ∧ (sh = true → ∀ b ∈ S, b.1 ≠ b.2) ∧ skewKeyLoop sh f (moveBy 1 0 S) = some K) ∨
    (S ≠ [] ∧ (∃ b ∈ S, b.1 ≤ 1 ∨ sh = true ∧ ∃ b ∈ S, b.1 = b.2) ∧ (¬ ∀ b ∈ S, 1 < b.1 ∧ 1 < b.2) ∧ (∀ b ∈ S, 1 < b.2) ∧ (sh = true → ∀ b ∈ S, b.1 + 1 ≠ b.2) ∧
      skewKeyLoop sh f (moveBy 0 1 S) = some K) ∨
    (S ≠ [] ∧ K = S ∧ (¬ ∀ b ∈ S, 1 < b.1 ∧ 1 < b.2) ∧ ((∃ b ∈ S, b.1 ≤ 1) ∨ sh = true ∧ ∃ b ∈ S, b.1 = b.2) ∧
      ((∃ b ∈ S, b.2 ≤ 1) ∨ sh = true ∧ ∃ b ∈ S, b.1 + 1 = b.2)) := by
  rw [skewKeyLoop] at h
  by_cases h0 : S = []
  · rw [if_pos h0] at h
    exact .inl ⟨h0, by rw [← Option.some.inj h, h0]⟩
  rw [if_neg h0] at h
  right
  by_cases h1 : ∀ b ∈ S, 1 < b.1 ∧ 1 < b.2
  · rw [if_pos (by simpa using h1)] at h
    exact .inl ⟨h0, h1, h⟩
  rw [if_neg (by rw [List.all_eq_true]; exact fun hc => h1 (fun b hb => by simpa using hc b hb))] at h
  right
  by_cases h2 : (∀ b ∈ S, 1 < b.1) ∧ (sh = true → ∀ b ∈ S, b.1 ≠ b.2)
  · rw [if_pos] at h
    · exact .inl ⟨h0, h2.1, h2.2, h⟩
    · rw [Bool.and_eq_true, List.all_eq_true]
      refine ⟨fun b hb => decide_eq_true (h2.1 b hb), ?_⟩
      cases sh
      · rfl
      · simp only [Bool.true_and, Bool.not_eq_true', List.any_eq_false, decide_eq_true_eq]
        exact h2.2 rfl
  have h2' : (∃ b ∈ S, b.1 ≤ 1) ∨ sh = true ∧ ∃ b ∈ S, b.1 = b.2 := by
    by_contra hc
    push Not at hc
    exact h2 ⟨hc.1, hc.2⟩
  rw [if_neg] at h
  swap
  · rw [Bool.and_eq_true, List.all_eq_true]
    rintro ⟨h3, h4⟩
    refine h2 ⟨fun b hb => of_decide_eq_true (h3 b hb), fun hs => ?_⟩
    subst hs
    simpa only [Bool.true_and, Bool.not_eq_true', List.any_eq_false, decide_eq_true_eq] using h4
  right
  by_cases h3 : (∀ b ∈ S, 1 < b.2) ∧ (sh = true → ∀ b ∈ S, b.1 + 1 ≠ b.2)
  · rw [if_pos] at h
    · refine .inl ⟨h0, ?_, h1, h3.1, h3.2, h⟩
      rcases h2' with ⟨b, hb, hb1⟩ | ⟨hs, b, hb, hb1⟩
      · exact ⟨b, hb, .inl hb1⟩
      · exact ⟨b, hb, .inr ⟨hs, b, hb, hb1⟩⟩
    · rw [Bool.and_eq_true, List.all_eq_true]
      refine ⟨fun b hb => decide_eq_true (h3.1 b hb), ?_⟩
      cases sh
      · rfl
      · simp only [Bool.true_and, Bool.not_eq_true', List.any_eq_false, decide_eq_true_eq]
        exact h3.2 rfl
  rw [if_neg] at h
  swap
  · rw [Bool.and_eq_true, List.all_eq_true]
    rintro ⟨h4, h5⟩
    refine h3 ⟨fun b hb => of_decide_eq_true (h4 b hb), fun hs => ?_⟩
    subst hs
    simpa only [Bool.true_and, Bool.not_eq_true', List.any_eq_false, decide_eq_true_eq] using h5
  refine .inr ⟨h0, (Option.some.inj h).symm, h1, h2', ?_⟩
  by_contra hc
  push Not at hc
  exact h3 ⟨hc.1, hc.2⟩

theorem pos_moveBy {p q : Nat} {S : List (Nat × Nat)} (h : ∀ b ∈ S, p < b.1 ∧ q < b.2) : ∀ b ∈ moveBy p q S, 0 < b.1 ∧ 0 < b.2 := by
  intro b hb
  obtain ⟨x, hx, rfl⟩ := mem_moveBy.1 hb
  have := h x hx
  dsimp only
  omega

/-- Composition of moves. -/
theorem move_trans {p q p' q' : Nat} {S : List (Nat × Nat)} (h : ∀ b ∈ moveBy p q S, p' < b.1 ∧ q' < b.2) :
    ∀ b ∈ S, p + p' < b.1 ∧ q + q' < b.2 := by
  intro b hb
  have := h _ (mem_moveBy.2 ⟨b, hb, rfl⟩)
  dsimp only at this
  omega

/-- Without shift, the first row and the first column of the normal form are used. -/
theorem loop_plain {f : Nat} : ∀ {S K : List (Nat × Nat)}, (∀ b ∈ S, 0 < b.1 ∧ 0 < b.2) → skewKeyLoop false f S = some K →
    ∃ p q, (∀ b ∈ S, p < b.1 ∧ q < b.2) ∧ K = moveBy p q S ∧ (S ≠ [] → (∃ b ∈ K, b.1 = 1) ∧ ∃ b ∈ K, b.2 = 1) := by
  induction f with
  | zero => intro S K _ h; cases h
  | succ f ih =>
    intro S K hS h
    have step : ∀ {p q : Nat}, (∀ b ∈ S, p < b.1 ∧ q < b.2) → skewKeyLoop false f (moveBy p q S) = some K → S ≠ [] →
        ∃ p q, (∀ b ∈ S, p < b.1 ∧ q < b.2) ∧ K = moveBy p q S ∧ (S ≠ [] → (∃ b ∈ K, b.1 = 1) ∧ ∃ b ∈ K, b.2 = 1) := by
      intro p q h1 h2 h0
      obtain ⟨p', q', h3, h4, h5⟩ := ih (pos_moveBy h1) h2
      exact ⟨p + p', q + q', move_trans h3, by rw [h4, moveBy_moveBy], fun _ => h5 (by simpa [moveBy] using h0)⟩
    rcases loop_cases h with ⟨rfl, rfl⟩ | ⟨h0, h1, h2⟩ | ⟨h0, h1, -, h2⟩ | ⟨h0, -, -, h1, -, h2⟩ | ⟨h0, rfl, -, h1, h2⟩
    · exact ⟨0, 0, by simp, rfl, fun h => absurd rfl h⟩
    · exact step h1 h2 h0
    · exact step (fun b hb => ⟨h1 b hb, (hS b hb).2⟩) h2 h0
    · exact step (fun b hb => ⟨(hS b hb).1, h1 b hb⟩) h2 h0
    · refine ⟨0, 0, hS, (moveBy_zero _).symm, fun _ => ⟨?_, ?_⟩⟩
      · rcases h1 with ⟨b, hb, h3⟩ | ⟨h3, -⟩
        · exact ⟨b, hb, by have := hS b hb; omega⟩
        · cases h3
      · rcases h2 with ⟨b, hb, h3⟩ | ⟨h3, -⟩
        · exact ⟨b, hb, by have := hS b hb; omega⟩
        · cases h3

/-- A shape off the diagonal. -/
theorem loop_off {f : Nat} : ∀ {S K : List (Nat × Nat)}, (∀ b ∈ S, 0 < b.1 ∧ b.1 < b.2) → skewKeyLoop true f S = some K →
    ∃ p q, (∀ b ∈ S, p < b.1 ∧ q < b.2) ∧ K = moveBy p q S ∧ (∀ b ∈ K, b.1 < b.2) ∧
      (S ≠ [] → (∃ b ∈ K, b.1 = 1) ∧ ∃ b ∈ K, b.2 = b.1 + 1) := by
  induction f with
  | zero => intro S K _ h; cases h
  | succ f ih =>
    intro S K hS h
    have step : ∀ {p q : Nat}, (∀ b ∈ S, p < b.1 ∧ q < b.2) → (∀ b ∈ S, b.1 - p < b.2 - q) → skewKeyLoop true f (moveBy p q S) = some K →
        S ≠ [] → ∃ p q, (∀ b ∈ S, p < b.1 ∧ q < b.2) ∧ K = moveBy p q S ∧ (∀ b ∈ K, b.1 < b.2) ∧
          (S ≠ [] → (∃ b ∈ K, b.1 = 1) ∧ ∃ b ∈ K, b.2 = b.1 + 1) := by
      intro p q h1 h6 h2 h0
      obtain ⟨p', q', h3, h4, h5, h7⟩ := ih (fun b hb => by
        obtain ⟨x, hx, rfl⟩ := mem_moveBy.1 hb
        have := h1 x hx
        have := h6 x hx
        exact ⟨by dsimp only; omega, this⟩) h2
      exact ⟨p + p', q + q', move_trans h3, by rw [h4, moveBy_moveBy], h5, fun _ => h7 (by simpa [moveBy] using h0)⟩
    rcases loop_cases h with ⟨rfl, rfl⟩ | ⟨h0, h1, h2⟩ | ⟨h0, h1, -, h2⟩ | ⟨h0, -, -, h1, h3, h2⟩ | ⟨h0, rfl, -, h1, h2⟩
    · exact ⟨0, 0, by simp, rfl, by simp, fun h => absurd rfl h⟩
    · exact step h1 (fun b hb => by have := hS b hb; have := h1 b hb; omega) h2 h0
    · exact step (fun b hb => ⟨h1 b hb, by have := hS b hb; omega⟩) (fun b hb => by have := hS b hb; omega) h2 h0
    · exact step (fun b hb => ⟨(hS b hb).1, h1 b hb⟩) (fun b hb => by have := hS b hb; have := h3 rfl b hb; omega) h2 h0
    · refine ⟨0, 0, fun b hb => ?_, (moveBy_zero _).symm, fun b hb => (hS b hb).2, fun _ => ⟨?_, ?_⟩⟩
      · have := hS b hb; omega
      · rcases h1 with ⟨b, hb, h3⟩ | ⟨-, b, hb, h3⟩
        · exact ⟨b, hb, by have := hS b hb; omega⟩
        · have := hS b hb; omega
      · rcases h2 with ⟨b, hb, h3⟩ | ⟨-, b, hb, h3⟩
        · have := hS b hb; omega
        · exact ⟨b, hb, h3.symm⟩

/-- A shape in the first row is only moved to the left. -/
theorem loop_left {f : Nat} : ∀ {S K : List (Nat × Nat)}, (∀ b ∈ S, 0 < b.1 ∧ 0 < b.2) → (∃ b ∈ S, b.1 = 1) → skewKeyLoop true f S = some K →
    ∃ q, (∀ b ∈ S, q < b.2) ∧ K = moveBy 0 q S ∧ (∀ r < q, ∀ b ∈ S, r + 1 < b.2 ∧ b.1 + 1 + r ≠ b.2) ∧
      ∃ b ∈ S, b.2 = q + 1 ∨ b.1 + 1 + q = b.2 := by
  induction f with
  | zero => intro S K _ _ h; cases h
  | succ f ih =>
    intro S K hS ⟨b0, hb0, hb1⟩ h
    rcases loop_cases h with ⟨rfl, rfl⟩ | ⟨h0, h1, h2⟩ | ⟨h0, h1, -, h2⟩ | ⟨h0, -, -, h1, h3, h2⟩ | ⟨h0, rfl, -, h1, h2⟩
    · simp at hb0
    · have := h1 b0 hb0; omega
    · have := h1 b0 hb0; omega
    · obtain ⟨q, h4, h5, h6, b, hb, h7⟩ := ih (pos_moveBy (p := 0) (q := 1) (fun b hb => ⟨(hS b hb).1, h1 b hb⟩))
        ⟨_, mem_moveBy.2 ⟨b0, hb0, rfl⟩, by simpa using hb1⟩ h2
      refine ⟨1 + q, fun b hb => ?_, by rw [h5, moveBy_moveBy], fun r hr b hb => ?_, ?_⟩
      · have := h4 _ (mem_moveBy.2 ⟨b, hb, rfl⟩)
        dsimp only at this
        omega
      · rcases Nat.eq_zero_or_pos r with rfl | hr0
        · exact ⟨h1 b hb, h3 rfl b hb⟩
        · have := h6 (r - 1) (by omega) _ (mem_moveBy.2 ⟨b, hb, rfl⟩)
          dsimp only at this
          omega
      · obtain ⟨x, hx, rfl⟩ := mem_moveBy.1 hb
        have := h1 x hx
        dsimp only at h7
        exact ⟨x, hx, by omega⟩
    · refine ⟨0, fun b hb => (hS b hb).2, (moveBy_zero _).symm, fun r hr => absurd hr (by omega), ?_⟩
      rcases h2 with ⟨b, hb, h3⟩ | ⟨-, b, hb, h3⟩
      · exact ⟨b, hb, by have := hS b hb; omega⟩
      · exact ⟨b, hb, by omega⟩

/-- A shape that meets the diagonal is moved along the diagonal to the first row, and then to the left. -/
theorem loop_on {f : Nat} : ∀ {S K : List (Nat × Nat)}, (∀ b ∈ S, 0 < b.1 ∧ b.1 ≤ b.2) → (∃ b ∈ S, b.1 = b.2) → skewKeyLoop true f S = some K →
    ∃ p q, (∀ b ∈ S, p < b.1 ∧ p + q < b.2) ∧ K = moveBy p (p + q) S ∧ (∃ b ∈ S, b.1 = p + 1) ∧
      (∀ r < q, ∀ b ∈ S, p + r + 1 < b.2 ∧ b.1 + 1 + r ≠ b.2) ∧ ∃ b ∈ S, b.2 = p + q + 1 ∨ b.1 + 1 + q = b.2 := by
  induction f with
  | zero => intro S K _ _ h; cases h
  | succ f ih =>
    intro S K hS ⟨b0, hb0, hb1⟩ h
    by_cases hrow : ∃ b ∈ S, b.1 = 1
    · obtain ⟨q, h1, h2, h3, h4⟩ := loop_left (fun b hb => by have := hS b hb; omega) hrow h
      refine ⟨0, q, fun b hb => ⟨(hS b hb).1, by have := h1 b hb; omega⟩, by rw [h2, Nat.zero_add], by simpa using hrow,
        fun r hr b hb => by simpa using h3 r hr b hb, by simpa using h4⟩
    · have h1 : ∀ b ∈ S, 1 < b.1 ∧ 1 < b.2 := by
        intro b hb
        have := hS b hb
        have h2 : b.1 ≠ 1 := fun hc => hrow ⟨b, hb, hc⟩
        omega
      rcases loop_cases h with ⟨rfl, rfl⟩ | ⟨h0, -, h2⟩ | ⟨h0, -, h3, -⟩ | ⟨h0, -, h3, -⟩ | ⟨h0, rfl, h3, -, -⟩
      · simp at hb0
      · obtain ⟨p, q, h3, h4, ⟨b, hb, h5⟩, h6, ⟨b', hb', h7⟩⟩ := ih (S := moveBy 1 1 S) (fun b hb => by
          obtain ⟨x, hx, rfl⟩ := mem_moveBy.1 hb
          have := h1 x hx
          have := hS x hx
          dsimp only
          omega) ⟨_, mem_moveBy.2 ⟨b0, hb0, rfl⟩, by dsimp only; omega⟩ h2
        refine ⟨1 + p, q, fun b hb => ?_, by rw [h4, moveBy_moveBy, Nat.add_assoc], ?_, fun r hr b hb => ?_, ?_⟩
        · have := h3 _ (mem_moveBy.2 ⟨b, hb, rfl⟩)
          dsimp only at this
          omega
        · obtain ⟨x, hx, rfl⟩ := mem_moveBy.1 hb
          have := h1 x hx
          dsimp only at h5
          exact ⟨x, hx, by omega⟩
        · have := h6 r hr _ (mem_moveBy.2 ⟨b, hb, rfl⟩)
          have := h1 b hb
          dsimp only at *
          omega
        · obtain ⟨x, hx, rfl⟩ := mem_moveBy.1 hb'
          have := h1 x hx
          dsimp only at h7
          exact ⟨x, hx, by omega⟩
      · exact absurd hb1 (h3 rfl b0 hb0)
      · exact absurd h1 h3
      · exact absurd h1 h3

/-- The loop ends. -/
theorem loop_ends (sh : Bool) : ∀ (f : Nat) (S : List (Nat × Nat)), (∀ b ∈ S.head?, b.1 + b.2 < f) → 0 < f → ∃ K, skewKeyLoop sh f S = some K := by
  intro f
  induction f with
  | zero => intro S _ h; omega
  | succ f ih =>
    intro S hS _
    cases S with
    | nil => exact ⟨[], by rw [skewKeyLoop, if_pos rfl]⟩
    | cons b S =>
      have hb := hS b rfl
      rw [skewKeyLoop, if_neg (by simp)]
      split
      · rename_i h1
        rw [List.all_cons, Bool.and_eq_true] at h1
        have h2 : 1 < b.1 ∧ 1 < b.2 := by simpa using h1.1
        exact ih _ (fun c hc => by obtain rfl : (b.1 - 1, b.2 - 1) = c := Option.some.inj hc; dsimp only; omega) (by omega)
      split
      · rename_i h1
        rw [Bool.and_eq_true, List.all_cons, Bool.and_eq_true] at h1
        have h2 : 1 < b.1 := of_decide_eq_true h1.1.1
        exact ih _ (fun c hc => by obtain rfl : (b.1 - 1, b.2) = c := Option.some.inj hc; dsimp only; omega) (by omega)
      split
      · rename_i h1
        rw [Bool.and_eq_true, List.all_cons, Bool.and_eq_true] at h1
        have h2 : 1 < b.2 := of_decide_eq_true h1.1.1
        exact ih _ (fun c hc => by obtain rfl : (b.1, b.2 - 1) = c := Option.some.inj hc; dsimp only; omega) (by omega)
      · exact ⟨_, rfl⟩

end Verif.Partition
