import Verif.Lemmas.Standard

/-! Property C56: standard tableaux. -/

attribute [-simp] List.getD_eq_getElem?_getD

namespace Verif.Tableaux

open Tab Verif.Part Partition

theorem stdTab_iff {sh : Bool} {ok : Nat × Nat → Int → Prop} {lam mu : List Nat} {T : Tab} :
    StdTab sh ok lam mu T ↔ IsTableauOf false (shapeSet sh mu \ shapeSet sh lam)
      (fun f => IsStandard (mu.sum - lam.sum) (shapeSet sh mu \ shapeSet sh lam) (fun b => |f b|) ∧
        ∀ b ∈ shapeSet sh mu \ shapeSet sh lam, ok b (f b)) T.get? := by
  constructor
  · intro h
    refine ⟨h.dom, fun b s hs => ?_, fun f hf => ?_⟩
    · rw [h.single b s hs]
      simp
    · have he : ∀ b ∈ shapeSet sh mu \ shapeSet sh lam, f b = val T b := by
        intro b hb
        obtain ⟨s, hs⟩ := Option.isSome_iff_exists.1 ((h.dom b).2 hb)
        have h1 := hf b s hs
        rw [h.single b s hs] at h1
        simpa using h1
      refine ⟨⟨?_, fun i j h1 h2 => ?_, fun i j h1 h2 => ?_⟩, fun b hb => ?_⟩
      · refine h.std.1.congr (fun b hb => ?_)
        simp only [he b hb]
      · simp only [he _ h1, he _ h2]
        exact h.std.2.1 i j h1 h2
      · simp only [he _ h1, he _ h2]
        exact h.std.2.2 i j h1 h2
      · rw [he b hb]
        exact h.sign b hb
  · rintro ⟨h1, h2, h3⟩
    have hs : ∀ b s, T.get? b = some s → s = [val T b] := by
      intro b s hs
      obtain ⟨a, rfl⟩ := List.length_eq_one_iff.1 ((h2 b s hs).2.2 rfl)
      simp [val, Tab.ent, hs]
    have h4 := h3 (val T) (fun b s h => by rw [hs b s h]; simp)
    exact ⟨h1, hs, h4.1, h4.2⟩

/-- C56: `Tableau.standard(mu, nu)` is the set of all standard tableaux of shape `mu/nu`: one entry in each box, the numbers
`1..|mu| - |nu|` used once each, increasing along rows and columns.  It is empty when `nu` is not contained in `mu`. -/
theorem C56_standard {mu nu : List Nat} (hm : IsPartition mu) (hn : IsPartition nu) (T : Tab) :
    T ∈ standard mu nu ↔ Diagram nu ⊆ Diagram mu ∧
      IsTableauOf false (Diagram mu \ Diagram nu) (IsStandard (mu.sum - nu.sum) (Diagram mu \ Diagram nu)) T.get? := by
  have h1 := mem_stdGen (sh := false) (signs := fun _ => {1}) (by simp) hn mu.sum (mu := mu) hm le_rfl (T := T)
  rw [standard, standardLoop_eq, h1, stdTab_iff]
  refine and_congr_right (fun hc => ?_)
  have hD : shapeSet false mu \ shapeSet false nu = Diagram mu \ Diagram nu := rfl
  rw [hD]
  refine and_congr_right (fun h1 => and_congr_right (fun h2 => forall₂_congr (fun f hf => ?_)))
  constructor
  · rintro ⟨h3, h4⟩
    have he : ∀ b ∈ Diagram mu \ Diagram nu, |f b| = f b := by
      intro b hb
      obtain ⟨s, hs, h⟩ := h4 b hb
      rw [Finset.mem_singleton] at hs
      rw [hs, one_mul] at h
      exact h.symm
    refine ⟨h3.1.congr he, fun i j h1 h2 => ?_, fun i j h1 h2 => ?_⟩
    · have := h3.2.1 i j h1 h2
      simp only [he _ h1, he _ h2] at this
      exact this
    · have := h3.2.2 i j h1 h2
      simp only [he _ h1, he _ h2] at this
      exact this
  · intro h3
    have he : ∀ b ∈ Diagram mu \ Diagram nu, f b = |f b| := by
      intro b hb
      have := h3.1.mapsTo hb
      rw [Set.mem_Icc] at this
      rw [abs_of_pos (by omega)]
    refine ⟨⟨h3.1.congr he, fun i j h1 h2 => ?_, fun i j h1 h2 => ?_⟩, fun b hb => ⟨1, by simp, ?_⟩⟩
    · simp only [← he _ h1, ← he _ h2]
      exact h3.2.1 i j h1 h2
    · simp only [← he _ h1, ← he _ h2]
      exact h3.2.2 i j h1 h2
    · rw [one_mul]
      exact he b hb

/-- C56: for strict partitions `Tableau.standard_shifted_marked(mu, nu, diagonal_primes)` raises no exception and returns
the set of all fillings of the shifted skew shape whose absolute values form a standard tableau, with only positive entries
on the diagonal if `diagonal_primes` is false. -/
theorem C56_standard_shifted_marked (dp : Bool) {mu nu : List Nat} (hm : IsStrict mu) (hn : IsStrict nu) :
    ∃ S, standardShiftedMarked dp mu nu = some S ∧ ∀ T, T ∈ S ↔ ShiftedDiagram nu ⊆ ShiftedDiagram mu ∧
      IsTableauOf false (ShiftedDiagram mu \ ShiftedDiagram nu)
        (fun f => IsStandard (mu.sum - nu.sum) (ShiftedDiagram mu \ ShiftedDiagram nu) (fun b => |f b|) ∧
          (dp = false → ∀ i, (i, i) ∈ ShiftedDiagram mu \ ShiftedDiagram nu → 0 < f (i, i))) T.get? := by
  refine ⟨_, if_pos ((isStrictPartition_iff _).2 hm.1), fun T => ?_⟩
  have h1 := mem_stdGen (sh := true) (signs := fun b => if dp = true ∨ b.1 ≠ b.2 then {1, -1} else {1}) (by
    intro b s hs
    split at hs <;> simp at hs
    · exact hs
    · exact Or.inl hs) hn mu.sum (mu := mu) hm le_rfl (T := T)
  rw [standardShiftedLoop_eq, h1, stdTab_iff]
  refine and_congr_right (fun hc => ?_)
  have hD : shapeSet true mu \ shapeSet true nu = ShiftedDiagram mu \ ShiftedDiagram nu := rfl
  rw [hD]
  refine and_congr_right (fun h1 => and_congr_right (fun h2 => forall₂_congr (fun f hf => and_congr_right (fun h3 => ?_))))
  have hp : ∀ b ∈ ShiftedDiagram mu \ ShiftedDiagram nu, 0 < |f b| := by
    intro b hb
    have := h3.1.mapsTo hb
    simp only [Set.mem_Icc] at this
    omega
  constructor
  · rintro h4 rfl i hi
    obtain ⟨s, hs, h⟩ := h4 _ hi
    have := hp _ hi
    simp at hs
    rw [hs, one_mul] at h
    omega
  · intro h4 b hb
    have := hp _ hb
    by_cases hd : dp = true ∨ b.1 ≠ b.2
    · rw [if_pos hd]
      rcases abs_choice (f b) with h | h
      · exact ⟨1, by simp, by rw [h, one_mul]⟩
      · exact ⟨-1, by simp, by rw [h]; ring⟩
    · rw [if_neg hd]
      push Not at hd
      obtain ⟨i, j⟩ := b
      obtain ⟨hd1, rfl⟩ : ¬ dp = true ∧ i = j := hd
      exact ⟨1, by simp, by rw [one_mul, abs_of_pos (h4 (by simpa using hd1) i hb)]⟩

/-- C56: a shape that is not strict raises an AssertionError. -/
theorem C56_not_strict (dp : Bool) {mu nu : List Nat} (h : ¬ mu.Pairwise (· > ·)) :
    standardShiftedMarked dp mu nu = none := by
  rw [standardShiftedMarked, if_neg]
  rw [isStrictPartition_iff]
  exact h

example : IsPartition [3, 2] ∧ IsPartition [1] ∧ (standard [3, 2] []).card = 5 ∧ (standard [3, 2] [1]).card = 5 := by
  refine ⟨by simp [IsPartition], by simp [IsPartition], by decide +kernel, by decide +kernel⟩

example : IsStrict [3, 1] ∧ (standardShiftedMarked false [3, 1] []).map Finset.card = some 8 ∧
    (standardShiftedMarked true [3, 1] []).map Finset.card = some 32 := by
  refine ⟨by simp [IsStrict], by decide +kernel, by decide +kernel⟩

end Verif.Tableaux
