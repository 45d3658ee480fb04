import Verif.Model.Superstandard
import Verif.Props.Descents

/-! # C128: column superstandard tableaux -/

namespace Verif.Tab

/-- `a` is in an earlier column than `b`, or in the same column and an earlier row. -/
def ColumnBefore (a b : Nat × Nat) : Prop := a.2 < b.2 ∨ (a.2 = b.2 ∧ a.1 < b.1)

instance : DecidableRel ColumnBefore := fun a b => inferInstanceAs (Decidable (a.2 < b.2 ∨ (a.2 = b.2 ∧ a.1 < b.1)))

theorem superLoop_iff (T : Tab) (l : List (Nat × Nat)) (hl : l.Pairwise ColumnBefore) : ∀ c : Int,
    superLoop T l c = true ↔ ∀ b ∈ l, T.entry b = some (c + (l.countP (fun a => decide (ColumnBefore a b)) : Nat)) := by
  induction l with
  | nil => intro c; simp [superLoop]
  | cons b l ih =>
    intro c
    rw [List.pairwise_cons] at hl
    have h0 : (b :: l).countP (fun a => decide (ColumnBefore a b)) = 0 := by
      rw [List.countP_eq_zero]
      intro a ha
      rcases List.mem_cons.1 ha with rfl | ha
      · simp [ColumnBefore]
      · have := hl.1 a ha
        simp only [ColumnBefore] at this
        intro hc
        have hc := of_decide_eq_true hc
        simp only [ColumnBefore] at hc
        omega
    have h1 : ∀ b' ∈ l, ((b :: l).countP (fun a => decide (ColumnBefore a b')) : Nat) =
        l.countP (fun a => decide (ColumnBefore a b')) + 1 := by
      intro b' hb'
      rw [List.countP_cons_of_pos (by simpa using hl.1 b' hb')]
    have hs : superLoop T (b :: l) c = true ↔ T.entry b = some c ∧ superLoop T l (c + 1) = true := by
      rw [superLoop]
      by_cases he : T.entry b = some c
      · simp [he]
      · by_cases hd : b.1 = b.2 <;> simp [he, hd]
    rw [hs, ih hl.2 (c + 1)]
    constructor
    · rintro ⟨e1, e2⟩ b' hb'
      rcases List.mem_cons.1 hb' with rfl | hb'
      · rw [h0, e1]; simp
      · rw [h1 b' hb', e2 b' hb']
        congr 1
        push_cast
        ring
    · intro h
      refine ⟨?_, fun b' hb' => ?_⟩
      · rw [h b List.mem_cons_self, h0]; simp
      · rw [h b' (List.mem_cons_of_mem _ hb'), h1 b' hb']
        congr 1
        push_cast
        ring

theorem pairwise_columns (T : Tab) : ((T.items.map Prod.fst).insertionSort columnLe).Pairwise ColumnBefore := by
  have h1 : ((T.items.map Prod.fst).insertionSort columnLe).Pairwise columnLe := by
    have : Std.Total columnLe := ⟨fun a b => by simp only [columnLe]; omega⟩
    have : IsTrans (Nat × Nat) columnLe := ⟨fun a b c h h' => by simp only [columnLe] at *; omega⟩
    exact List.pairwise_insertionSort columnLe _
  have h2 : ((T.items.map Prod.fst).insertionSort columnLe).Nodup :=
    (List.perm_insertionSort columnLe _).nodup_iff.2 T.keys_nodup
  refine (h1.and h2).imp ?_
  rintro ⟨a, b⟩ ⟨c, d⟩ ⟨h, hne⟩
  simp only [columnLe] at h
  simp only [ColumnBefore]
  have : ¬ (a = c ∧ b = d) := fun hh => hne (by rw [hh.1, hh.2])
  omega

/-- C128: `is_shifted_column_superstandard` accepts a tableau exactly when every box contains one number, which is the
position of the box when the boxes are read column by column from top to bottom. -/
theorem C128_superstandard (T : Tab) :
    isShiftedColumnSuperstandard T = true ↔
      ∀ b vs, T.get? b = some vs → vs = [1 + ((T.items.countP (fun q => decide (ColumnBefore q.1 b)) : Nat) : Int)] := by
  have hc : ∀ b, ((T.items.map Prod.fst).insertionSort columnLe).countP (fun a => decide (ColumnBefore a b)) =
      T.items.countP (fun q => decide (ColumnBefore q.1 b)) := by
    intro b
    rw [(List.perm_insertionSort columnLe _).countP_eq, List.countP_map]
    rfl
  have hmem : ∀ b, b ∈ (T.items.map Prod.fst).insertionSort columnLe ↔ ∃ vs, T.get? b = some vs := by
    intro b
    rw [(List.perm_insertionSort columnLe _).mem_iff]
    constructor
    · intro h
      obtain ⟨p, hp, rfl⟩ := List.mem_map.1 h
      exact ⟨p.2, Dict.lookup_of_mem T.keys_nodup hp⟩
    · rintro ⟨vs, h⟩
      exact List.mem_map.2 ⟨(b, vs), Dict.lookup_mem h, rfl⟩
  have hent : ∀ b vs v, T.get? b = some vs → (T.entry b = some v ↔ vs = [v]) := by
    intro b vs v h
    rw [entry, h]
    match vs with
    | [] => simp
    | [w] => simp
    | _ :: _ :: _ => simp
  rw [isShiftedColumnSuperstandard]
  split
  · rename_i h
    refine ⟨fun hf => absurd hf (by simp), fun hf => ?_⟩
    rw [List.any_eq_true] at h
    obtain ⟨p, hp, h⟩ := h
    have := hf p.1 p.2 (Dict.lookup_of_mem T.keys_nodup hp)
    rw [this] at h
    simp at h
  · rw [superLoop_iff T _ (pairwise_columns T)]
    constructor
    · intro h b vs hb
      have := h b ((hmem b).2 ⟨vs, hb⟩)
      rw [hc] at this
      exact (hent b vs _ hb).1 this
    · intro h b hb
      obtain ⟨vs, hvs⟩ := (hmem b).1 hb
      rw [hc]
      exact (hent b vs _ hvs).2 (h b vs hvs)

/-- The tableau with the rows `1 2 4`, ` 3 5` of the shifted shape `(3, 2)` is accepted; its transposed filling is not. -/
example : isShiftedColumnSuperstandard (((((Tab.empty.set (1, 1) [1]).set (1, 2) [2]).set (2, 2) [3]).set (1, 3) [4]).set (2, 3) [5]) = true ∧
    isShiftedColumnSuperstandard (((((Tab.empty.set (1, 1) [1]).set (1, 2) [2]).set (1, 3) [3]).set (2, 2) [4]).set (2, 3) [5]) = false := by
  decide +kernel

end Verif.Tab
