import Verif.Lemmas.ShiftedInverse

/-! The bumping path of `FState`. -/

namespace Verif.FInsertion

open Tab Lines
open Insertion hiding nextF nextF_other nextF_le nextT nextInc

variable {T T' : Tab} {E H : Nat → Nat} {f f' : Nat → Nat → Int} {i j x t : Nat} {a a' b : Int}

/-- Diagonal transition D1 applies. -/
def IsD1 (E : Nat → Nat) (f : Nat → Nat → Int) (i x : Nat) (a : Int) : Prop :=
  ¬ Fit loR f f i x a ∧ x = i + 1 ∧ E (i + 1) = i + 1

/-- Row transitions R2 and R3 lead from the insertion of `a` into row `i` of `T` to the insertion of `a'` into row `t` of `T'`. -/
inductive RowSteps (E H : Nat → Nat) : Tab → (Nat → Nat → Int) → Nat → Int → Tab → (Nat → Nat → Int) → Nat → Int → Prop
  | refl {T : Tab} {f : Nat → Nat → Int} {i : Nat} {a : Int} (h : SInc T E H f) (hr : RReady E f i a) : RowSteps E H T f i a T f i a
  | head {T T' : Tab} {f f' : Nat → Nat → Int} {i t x : Nat} {a a' : Int} (h : SInc T E H f) (hr : RReady E f i a)
      (hp : Pos loR E f i a x) (hx : x < E i) (hix : i < x) (hd : ¬ IsD1 E f i x a)
      (hs : RowSteps E H (nextT T f i x a) (nextF loR f i x a) (i + 1) (f i x) T' f' t a') : RowSteps E H T f i a T' f' t a'

theorem RowSteps.inc (h : RowSteps E H T f i a T' f' t a') : SInc T' E H f' := by
  induction h with
  | refl h => exact h
  | head _ _ _ _ _ _ _ ih => exact ih

theorem RowSteps.ready (h : RowSteps E H T f i a T' f' t a') : RReady E f' t a' := by
  induction h with
  | refl _ hr => exact hr
  | head _ _ _ _ _ _ _ ih => exact ih

theorem RowSteps.le (h : RowSteps E H T f i a T' f' t a') : i ≤ t := by
  induction h with
  | refl => exact le_refl _
  | head _ _ _ _ _ _ _ ih => omega

/-- The last row: no further box, a diagonal box, or D1. -/
def RowEnd (E : Nat → Nat) (f : Nat → Nat → Int) (t x : Nat) (a : Int) : Prop :=
  x = E t ∨ (x = t ∧ t < E t) ∨ (t < x ∧ x < E t ∧ IsD1 E f t x a)

theorem rowSteps_exists (h : SInc T E H f) (hr : RReady E f i a) :
    ∃ T' f' t a' x, RowSteps E H T f i a T' f' t a' ∧ Pos loR E f' t a' x ∧ RowEnd E f' t x a' := by
  suffices key : ∀ d (T : Tab) f i a, SInc T E H f → RReady E f i a → T.maxRow + 1 ≤ i + d →
      ∃ T' f' t a' x, RowSteps E H T f i a T' f' t a' ∧ Pos loR E f' t a' x ∧ RowEnd E f' t x a' from
    key (T.maxRow + 1) T f i a h hr (by omega)
  intro d
  induction d with
  | zero =>
    intro T f i a h hr hd
    have h1 := hr.le_maxRow h
    obtain ⟨x, hp⟩ := exists_pos loR E f i a (h.lo i hr.one)
    refine ⟨T, f, i, a, x, .refl h hr, hp, Or.inl ?_⟩
    have h2 := h.row_iff hr.one
    have h3 := hp.2.1
    have h4 : i ≤ x := hp.1
    omega
  | succ d ih =>
    intro T f i a h hr hd
    obtain ⟨x, hp⟩ := exists_pos loR E f i a (h.lo i hr.one)
    have h3 := hp.2.1
    have h4 : i ≤ x := hp.1
    by_cases hx : x = E i
    · exact ⟨T, f, i, a, x, .refl h hr, hp, Or.inl hx⟩
    · by_cases hxi : x = i
      · exact ⟨T, f, i, a, x, .refl h hr, hp, Or.inr (Or.inl ⟨hxi, by omega⟩)⟩
      · by_cases hd1 : IsD1 E f i x a
        · exact ⟨T, f, i, a, x, .refl h hr, hp, Or.inr (Or.inr ⟨by omega, by omega, hd1⟩)⟩
        · have hinc := nextInc h hr hp (by omega)
          have hready := nextReady h hr hp (by omega) (by omega) hd1
          have hmr := hinc.maxRow_eq h
          obtain ⟨T', f', t, a', x', hs, hp', he⟩ := ih _ _ _ _ hinc hready (by omega)
          exact ⟨T', f', t, a', x', .head h hr hp (by omega) (by omega) hd1 hs, hp', he⟩

theorem next_stR (h : SInc T E H f) (hr : RReady E f i a) :
    next (stR T E i a) = (rowStep (stR T E i a)).map (fun r => (r.1, some r.2)) := by
  rw [next, if_pos (lastColumn_stR h (hr.le_maxRow h))]

theorem next_stC (h : SInc T E H f) (hj : j ≤ E 1) :
    next (stC T T.maxRow j a) = (colStep (stC T T.maxRow j a)).map (fun r => (r.1, some r.2)) := by
  rw [next, if_neg (by rw [lastColumn_stC h hj]; simp), if_pos (lastRow_stC h hj)]

theorem next_none : next ⟨T, none⟩ = some (⟨T, none⟩, none) := by
  simp [next, HState.outerInLastColumn, outerInLastRow]

theorem path_none {fuel : Nat} : path (fuel + 1) ⟨T, none⟩ = some [] := by
  rw [path, next_none]

theorem RowSteps.path (h : RowSteps E H T f i a T' f' t a') :
    ∃ pl : List (HState × (Nat × Nat)), (∀ c ∈ pl, c.2.1 ≠ c.2.2) ∧
      ∀ fuel, FInsertion.path (t - i + fuel) (stR T E i a) = (FInsertion.path fuel (stR T' E t a')).map (pl ++ ·) := by
  induction h with
  | refl => 
    refine ⟨[], by simp, ?_⟩
    intro fuel
    simp
  | @head T T' f f' i t x a a' h hr hp hx hix hd hs ih =>
    obtain ⟨pl, hpl, ih⟩ := ih
    have hle := hs.le
    refine ⟨(stR (nextT T f i x a) E (i + 1) (f i x), (i, x)) :: pl, ?_, ?_⟩
    · intro c hc
      rw [List.mem_cons] at hc
      rcases hc with rfl | hc
      · simp only; omega
      · exact hpl c hc
    · intro fuel
      have hn : next (stR T E i a) = some (stR (nextT T f i x a) E (i + 1) (f i x), some (i, x)) := by
        rw [next_stR h hr, rowStep_st h hr hp, if_neg (by omega), if_pos hix, rowR23_eq h hr hp hx hix hd]
        rfl
      rw [show t - i + fuel = (t - (i + 1) + fuel) + 1 by omega, FInsertion.path, hn]
      simp only
      rw [ih, Option.map_map]
      rfl

theorem rewind_stR (h : SInc T E H f) (hr : RReady E f i a) (h1 : i ≠ 1) (fuel : Nat) :
    rewind (fuel + 1) (stR T E i a) = (inverseRow (stR T E i a)).bind (rewind fuel) := by
  rw [rewind, if_neg (by rw [isInitial_stR]; simpa using h1), previous, if_neg (by rw [isInitial_stR]; simpa using h1),
    if_pos (lastColumn_stR h (hr.le_maxRow h))]

theorem rewind_stC (h : SInc T E H f) (hj : j ≤ E 1) (fuel : Nat) :
    rewind (fuel + 1) (stC T T.maxRow j a) = (inverseCol (stC T T.maxRow j a)).bind (rewind fuel) := by
  rw [rewind, if_neg (by rw [isInitial_stC]; simp), previous, if_neg (by rw [isInitial_stC]; simp),
    if_neg (by rw [lastColumn_stC h hj]; simp), if_pos (lastRow_stC h hj)]

theorem RowSteps.back (h : RowSteps E H T f i a T' f' t a') :
    ∀ fuel, rewind (t - i + fuel) (stR T' E t a') = rewind fuel (stR T E i a) := by
  induction h with
  | refl => intro fuel; simp
  | @head T T' f f' i t x a a' h hr hp hx hix hd hs ih =>
    intro fuel
    have hle := hs.le
    have hone := hr.one
    have hinc := nextInc h hr hp hx
    have hready := nextReady h hr hp hx hix hd
    rw [show t - i + fuel = t - (i + 1) + (fuel + 1) by omega, ih, rewind_stR hinc hready (by omega),
      inverseRow_eq h hr hp hx hix]
    rfl

/-- The trace of the row phase. -/
structure RowTr (E : Nat → Nat) (f F : Nat → Nat → Int) (A : Nat → Int) (X : Nat → Nat) (i t : Nat) : Prop where
  tr : Tr loR E f F A X i t
  off : ∀ k, i ≤ k → k < t → k < X k
  notD1 : ∀ k, i ≤ k → k < t → ¬ (¬ Fit loR f F k (X k) (A k) ∧ X k = k + 1 ∧ E (k + 1) = k + 1)

theorem fit_congr {lo : Nat → Nat} {f F g G : Nat → Nat → Int} {k y : Nat} {c : Int} (h1 : ∀ z, f k z = g k z)
    (h2 : k ≠ 1 → F (k - 1) y = G (k - 1) y) : Fit lo f F k y c ↔ Fit lo g G k y c := by
  unfold Fit
  rw [h1]
  by_cases h : k = 1
  · simp [h]
  · rw [h2 h]

theorem RowSteps.trace (h : RowSteps E H T f i a T' f' t a') (hp : Pos loR E f' t a' x) :
    ∃ A X, RowTr E f (nextF loR f' t x a') A X i t ∧ A i = a ∧ A t = a' ∧ X t = x ∧
      (Fit loR f (nextF loR f' t x a') t x a' ↔ Fit loR f' f' t x a') ∧ ∀ y, f' t y = f t y := by
  suffices key : (∀ k y, t ≤ k → f' k y = f k y) ∧ ∃ A X, RowTr E f (nextF loR f' t x a') A X i t ∧ A i = a ∧ A t = a' ∧ X t = x by
    obtain ⟨hk, A, X, h1, h2, h3, h4⟩ := key
    refine ⟨A, X, h1, h2, h3, h4, ?_, fun y => hk t y (le_refl _)⟩
    have := h.ready.one
    apply fit_congr
    · intro z; exact (hk t z (le_refl _)).symm
    · intro _; exact nextF_ne (by omega)
  induction h with
  | @refl T f i a h hr =>
    refine ⟨fun _ _ _ => rfl, fun _ => a, fun _ => x, ⟨tr_base hr.one hp, ?_, ?_⟩, rfl, rfl, rfl⟩
    · intro k h1 h2; omega
    · intro k h1 h2; omega
  | @head T T' f f' i t y a a' h hr hpy hx hix hd hs ih =>
    obtain ⟨hk, A, X, h1, h2, h3, h4⟩ := ih hp
    have hle := hs.le
    have hone := hr.one
    refine ⟨?_, fun k => if k = i then a else A k, fun k => if k = i then y else X k, ⟨tr_cons hone hpy hx hix h1.tr h2, ?_, ?_⟩, ?_, ?_, ?_⟩
    · intro k z hkt
      rw [hk k z hkt, nextF_ne (by omega)]
    · intro k hk1 hk2
      by_cases hc : k = i
      · simp only [hc, if_true]; exact hix
      · simp only [if_neg hc]; exact h1.off k (by omega) hk2
    · intro k hk1 hk2
      have hout : ∀ k z, k < i + 1 → (nextF loR f' t x a') k z = nextF loR f i y a k z := fun k z hkz => h1.tr.out k z (by omega)
      by_cases hc : k = i
      · subst hc
        simp only [if_true]
        rw [fit_congr (g := f) (G := f) (fun _ => rfl)]
        · exact hd
        · intro _
          rw [hout _ _ (by omega), nextF_ne (by omega)]
      · simp only [if_neg hc]
        rw [fit_congr (g := nextF loR f i y a) (G := nextF loR f' t x a')]
        · exact h1.notD1 k (by omega) hk2
        · intro z; rw [nextF_ne (by omega)]
        · intro _; rfl
    · simp
    · simp only [if_neg (show t ≠ i by omega), h3]
    · simp only [if_neg (show t ≠ i by omega), h4]

/-- Column transitions C2 and C3 lead from the insertion of `a` into column `i` of `T` to the insertion of `a'` into column `t`
of `T'`. -/
inductive ColSteps (E H : Nat → Nat) : Tab → (Nat → Nat → Int) → Nat → Int → Tab → (Nat → Nat → Int) → Nat → Int → Prop
  | refl {T : Tab} {f : Nat → Nat → Int} {j : Nat} {a : Int} (h : SInc T E H f) (hr : CReady H f j a) : ColSteps E H T f j a T f j a
  | head {T T' : Tab} {f f' : Nat → Nat → Int} {j t x : Nat} {a a' : Int} (h : SInc T E H f) (hr : CReady H f j a)
      (hp : Pos loC H (tr f) j a x) (hx : x < H j)
      (hs : ColSteps E H (nextTC T f j x a) (nextC f j x a) (j + 1) (f x j) T' f' t a') : ColSteps E H T f j a T' f' t a'

theorem ColSteps.inc (h : ColSteps E H T f i a T' f' t a') : SInc T' E H f' := by
  induction h with
  | refl h => exact h
  | head _ _ _ _ _ ih => exact ih

theorem ColSteps.ready (h : ColSteps E H T f i a T' f' t a') : CReady H f' t a' := by
  induction h with
  | refl _ hr => exact hr
  | head _ _ _ _ _ ih => exact ih

theorem ColSteps.le (h : ColSteps E H T f i a T' f' t a') : i ≤ t := by
  induction h with
  | refl => exact le_refl _
  | head _ _ _ _ _ ih => omega

theorem colSteps_exists (h : SInc T E H f) (hr : CReady H f j a) :
    ∃ T' f' t a', ColSteps E H T f j a T' f' t a' ∧ Pos loC H (tr f') t a' (H t) := by
  suffices key : ∀ d (T : Tab) f j a, SInc T E H f → CReady H f j a → E 1 ≤ j + d →
      ∃ T' f' t a', ColSteps E H T f j a T' f' t a' ∧ Pos loC H (tr f') t a' (H t) from
    key (E 1) T f j a h hr (by omega)
  intro d
  induction d with
  | zero =>
    intro T f j a h hr hd
    have h1 := hr.le_E h
    obtain ⟨x, hp⟩ := exists_pos loC H (tr f) j a (h.one j)
    have h3 := hp.2.1
    have h4 : 1 ≤ x := hp.1
    have h5 := h.col x j h4
    have : x = H j := by
      by_contra hc
      have h6 := h5.1 (by omega)
      have := h.up' (i := 1) (i' := x) (le_refl 1) h4 h6.1 h6.2
      omega
    rw [this] at hp
    exact ⟨T, f, j, a, .refl h hr, hp⟩
  | succ d ih =>
    intro T f j a h hr hd
    obtain ⟨x, hp⟩ := exists_pos loC H (tr f) j a (h.one j)
    have h3 := hp.2.1
    by_cases hx : x = H j
    · rw [hx] at hp
      exact ⟨T, f, j, a, .refl h hr, hp⟩
    · have hinc := nextIncC h hr hp (by omega)
      have hready := nextReadyC h hr hp (by omega)
      obtain ⟨T', f', t, a', hs, hp'⟩ := ih _ _ _ _ hinc hready (by omega)
      exact ⟨T', f', t, a', .head h hr hp (by omega) hs, hp'⟩

theorem ColSteps.maxRow (h : ColSteps E H T f i a T' f' t a') : T'.maxRow = T.maxRow := by
  cases h with
  | refl => rfl
  | head h _ _ _ hs => exact hs.inc.maxRow_eq h

theorem ColSteps.path (h : ColSteps E H T f i a T' f' t a') :
    ∃ pl : List (HState × (Nat × Nat)),
      ∀ fuel, FInsertion.path (t - i + fuel) (stC T T.maxRow i a) = (FInsertion.path fuel (stC T' T.maxRow t a')).map (pl ++ ·) := by
  induction h with
  | refl =>
    refine ⟨[], ?_⟩
    intro fuel
    simp
  | @head T T' f f' i t x a a' h hr hp hx hs ih =>
    obtain ⟨pl, ih⟩ := ih
    have hle := hs.le
    have hinc := nextIncC h hr hp hx
    rw [hinc.maxRow_eq h] at ih
    refine ⟨(stC (nextTC T f i x a) T.maxRow (i + 1) (f x i), (x, i)) :: pl, ?_⟩
    intro fuel
    have htwo := hr.two
    have hn : next (stC T T.maxRow i a) = some (stC (nextTC T f i x a) T.maxRow (i + 1) (f x i), some (x, i)) := by
      rw [next_stC h (hr.le_E h), colStep_st h (by omega) hp, if_neg (by omega), colC23_eq h hr hp hx]
      rfl
    rw [show t - i + fuel = (t - (i + 1) + fuel) + 1 by omega, FInsertion.path, hn]
    simp only
    rw [ih, Option.map_map]
    rfl

theorem ColSteps.back (h : ColSteps E H T f i a T' f' t a') :
    ∀ fuel, rewind (t - i + fuel) (stC T' T.maxRow t a') = rewind fuel (stC T T.maxRow i a) := by
  induction h with
  | refl => intro fuel; simp
  | @head T T' f f' i t x a a' h hr hp hx hs ih =>
    intro fuel
    have hle := hs.le
    have htwo := hr.two
    have hinc := nextIncC h hr hp hx
    have hready := nextReadyC h hr hp hx
    have hmr := hinc.maxRow_eq h
    have := rewind_stC (a := f x i) hinc (hready.le_E hinc) fuel
    rw [hmr] at this ih
    rw [show t - i + fuel = t - (i + 1) + (fuel + 1) by omega, ih, this, inverseCol_eq h hr hp hx]
    rfl

theorem ColSteps.trace (h : ColSteps E H T f i a T' f' t a') (hp : Pos loC H (tr f') t a' x) :
    ∃ A X, Tr loC H (FInsertion.tr f) (FInsertion.tr (nextC f' t x a')) A X i t ∧ A i = a ∧ A t = a' ∧ X t = x ∧
      (Fit loC (FInsertion.tr f) (FInsertion.tr (nextC f' t x a')) t x a' ↔ Fit loC (FInsertion.tr f') (FInsertion.tr f') t x a') ∧
      ∀ k, i ≤ k → k ≤ t → X k < k := by
  suffices key : (∀ k y, t ≤ k → FInsertion.tr f' k y = FInsertion.tr f k y) ∧ ∃ A X, Tr loC H (FInsertion.tr f) (FInsertion.tr (nextC f' t x a')) A X i t ∧
      A i = a ∧ A t = a' ∧ X t = x ∧ ∀ k, i ≤ k → k ≤ t → X k < k by
    obtain ⟨hk, A, X, h1, h2, h3, h4, h5⟩ := key
    refine ⟨A, X, h1, h2, h3, h4, ?_, h5⟩
    have := h.ready.two
    apply fit_congr
    · intro z; exact (hk t z (le_refl _)).symm
    · intro _; exact nextF_ne (by omega)
  induction h with
  | @refl T f i a h hr =>
    have htwo := hr.two
    refine ⟨fun _ _ _ => rfl, fun _ => a, fun _ => x, tr_base (by omega) hp, rfl, rfl, rfl, ?_⟩
    intro k h1 h2
    have := (hr.lt_above h hp).2.2
    simp only
    omega
  | @head T T' f f' i t y a a' h hr hpy hx hs ih =>
    obtain ⟨hk, A, X, h1, h2, h3, h4, h5⟩ := ih hp
    have hle := hs.le
    have htwo := hr.two
    refine ⟨?_, fun k => if k = i then a else A k, fun k => if k = i then y else X k, tr_cons (by omega) hpy hx hpy.1 h1 h2, ?_, ?_, ?_, ?_⟩
    · intro k z hkt
      rw [hk k z hkt]
      exact nextF_ne (by omega)
    · simp
    · simp only [if_neg (show t ≠ i by omega), h3]
    · simp only [if_neg (show t ≠ i by omega), h4]
    · intro k hk1 hk2
      by_cases hc : k = i
      · simp only [hc, if_true]; exact (hr.lt_above h hpy).2.2
      · simp only [if_neg hc]; exact h5 k (by omega) hk2

end Verif.FInsertion
