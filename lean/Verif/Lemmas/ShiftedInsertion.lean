import Verif.Model.ShiftedInsertion
import Verif.Lemmas.Insertion
import Verif.Lemmas.LineTrace

/-! Shifted increasing tableaux with even entries, and the row transitions of `FState`. -/

namespace Verif.FInsertion

open Tab Lines
open Insertion hiding nextF nextF_other nextF_le nextT nextInc

/-- `T` is an increasing shifted tableau with positive even entries `f`: row `i` consists of the columns `i, ..., E i - 1` and
column `j` of the rows `1, ..., H j - 1`. -/
structure SInc (T : Tab) (E H : Nat → Nat) (f : Nat → Nat → Int) : Prop where
  get : ∀ i j, T.get? (i, j) = if 1 ≤ i ∧ i ≤ j ∧ j < E i then some [f i j] else none
  lo : ∀ i, 1 ≤ i → i ≤ E i
  anti : ∀ i, 1 ≤ i → E (i + 1) = i + 1 ∨ E (i + 1) ≤ E i
  one : ∀ j, 1 ≤ H j
  col : ∀ i j, 1 ≤ i → (i < H j ↔ i ≤ j ∧ j < E i)
  row : ∀ i j, 1 ≤ i → i ≤ j → j + 1 < E i → f i j < f i (j + 1)
  cinc : ∀ i j, 1 ≤ i → i + 1 ≤ j → j < E (i + 1) → f i j < f (i + 1) j
  pos : ∀ i j, 1 ≤ i → i ≤ j → j < E i → 0 < f i j
  even : ∀ i j, 1 ≤ i → i ≤ j → j < E i → f i j % 2 = 0

/-- The first columns of the rows. -/
def loR (i : Nat) : Nat := i

/-- The first rows of the columns. -/
def loC (_ : Nat) : Nat := 1

/-- The entries, column by column. -/
def tr (f : Nat → Nat → Int) (j i : Nat) : Int := f i j

variable {T T' : Tab} {E H : Nat → Nat} {f f' : Nat → Nat → Int} {i j x : Nat} {a b : Int}

theorem SInc.get_some (h : SInc T E H f) (hi : 1 ≤ i) (hj : i ≤ j) (hl : j < E i) : T.get? (i, j) = some [f i j] := by
  rw [h.get, if_pos ⟨hi, hj, hl⟩]

theorem SInc.get_none (h : SInc T E H f) (hl : ¬ (1 ≤ i ∧ i ≤ j ∧ j < E i)) : T.get? (i, j) = none := by
  rw [h.get, if_neg hl]

theorem SInc.has_iff (h : SInc T E H f) (i j : Nat) : T.has (i, j) = true ↔ 1 ≤ i ∧ i ≤ j ∧ j < E i := by
  rw [has, h.get]
  split <;> simp_all

theorem SInc.arrR (h : SInc T E H f) : Arr loR E f := by
  constructor
  · intro i j h1 h2 h3; exact h.row i j h1 h2 h3
  · intro i j h1 _ _ h2 h3; exact h.cinc i j h1 h2 h3

theorem SInc.up (h : SInc T E H f) (hi : 1 ≤ i) (hj : i + 1 ≤ j) (hl : j < E (i + 1)) : j < E i := by
  have := h.anti i hi
  omega

theorem SInc.up' (h : SInc T E H f) {i' : Nat} (hi : 1 ≤ i) (hii : i ≤ i') (hj : i' ≤ j) (hl : j < E i') : j < E i := by
  induction i', hii using Nat.le_induction with
  | base => exact hl
  | succ k hk ih => exact ih (by omega) (h.up (by omega) hj hl)

theorem SInc.arrC (h : SInc T E H f) : Arr loC H (tr f) := by
  constructor
  · intro j i h1 h2 h3
    have := (h.col (i + 1) j (by omega)).1 h3
    exact h.cinc i j h2 this.1 this.2
  · intro j i h1 h2 h3 h4 h5
    have e1 := (h.col i j h2).1 h3
    have e2 := (h.col i (j + 1) h2).1 h5
    exact h.row i j h2 e1.1 e2.2

theorem SInc.colLt (h : SInc T E H f) {i' : Nat} (hi : 1 ≤ i) (hii : i < i') (hj : i' ≤ j) (hl : j < E i') : f i j < f i' j := by
  have h1 := h.up' (i := i) (i' := i') hi (by omega) hj hl
  have h2 := (h.col i' j (by omega)).2 ⟨hj, hl⟩
  have := h.arrC.rowLt (i := j) (j := i) (j' := i') (by omega) hi hii h2
  exact this

theorem SInc.maxColumn (h : SInc T E H f) : T.maxColumn = E 1 - 1 := by
  have h1 := h.lo 1 (le_refl _)
  apply le_antisymm
  · rcases maxColumn_mem T with h0 | ⟨i, hi⟩
    · omega
    · have := (h.has_iff _ _).1 hi
      have := h.up' (i := 1) (i' := i) (le_refl 1) this.1 this.2.1 this.2.2
      omega
  · rcases Nat.eq_or_lt_of_le h1 with h0 | h0
    · omega
    · exact le_maxColumn ((h.has_iff 1 (E 1 - 1)).2 (by omega))

theorem SInc.row_iff (h : SInc T E H f) (hi : 1 ≤ i) : i < E i ↔ i ≤ T.maxRow := by
  constructor
  · intro hl
    exact Tab.le_maxRow ((h.has_iff i i).2 ⟨hi, le_refl _, hl⟩)
  · intro hl
    rcases maxRow_mem T with h0 | ⟨j, hj⟩
    · omega
    · have hm := (h.has_iff _ _).1 hj
      by_contra hc
      have hEi : E i = i := by have := h.lo i hi; omega
      have : ∀ k, i ≤ k → E k = k := by
        intro k hk
        induction k, hk using Nat.le_induction with
        | base => exact hEi
        | succ k hk ih =>
          have h1 := h.anti k (by omega)
          have h2 := h.lo (k + 1) (by omega)
          omega
      have := this _ hl
      omega

theorem SInc.maxRow_eq (h : SInc T E H f) (h' : SInc T' E H f') : T.maxRow = T'.maxRow := by
  have key : ∀ i, 1 ≤ i → (i ≤ T.maxRow ↔ i ≤ T'.maxRow) := by
    intro i hi
    rw [← h.row_iff hi, ← h'.row_iff hi]
  have h1 := key T.maxRow
  have h2 := key T'.maxRow
  omega

theorem SInc.E_le (h : SInc T E H f) (hi : 1 ≤ i) (hm : i ≤ T.maxRow + 1) : E i ≤ E 1 := by
  rcases Nat.lt_or_ge i (E i) with hl | hl
  · have h2 := h.up' (i := 1) (i' := i) (j := E i - 1) (le_refl 1) hi (by omega) (by omega)
    omega
  · have e1 := h.lo i hi
    rcases Nat.eq_or_lt_of_le hi with rfl | h1
    · exact le_refl _
    · have h2 := (h.row_iff (i := i - 1) (by omega)).2 (by omega)
      have h3 := h.up' (i := 1) (i' := i - 1) (j := i - 1) (le_refl 1) (by omega) (le_refl _) h2
      omega

/-- The state with outer box in row `i`, containing `a`. -/
def stR (T : Tab) (E : Nat → Nat) (i : Nat) (a : Int) : HState := ⟨T.set (i, E 1 + 1) [a], some (i, E 1 + 1)⟩

/-- The state with outer box in column `j` and row `m + 2`, containing `a`. -/
def stC (T : Tab) (m j : Nat) (a : Int) : HState := ⟨T.set (m + 2, j) [a], some (m + 2, j)⟩

theorem SInc.outerR_none (h : SInc T E H f) (i : Nat) : T.get? (i, E 1 + 1) = none := by
  apply h.get_none
  rintro ⟨h1, h2, h3⟩
  have := h.up' (i := 1) (i' := i) (le_refl 1) h1 h2 h3
  omega

theorem SInc.outerC_none (h : SInc T E H f) (j : Nat) : T.get? (T.maxRow + 2, j) = none := by
  apply h.get_none
  rintro ⟨h1, h2, h3⟩
  have := (h.row_iff (i := T.maxRow + 2) h1).1 (by omega)
  omega

theorem innerDims_stR (h : SInc T E H f) (hi : i ≤ T.maxRow + 1) :
    innerDims (T.set (i, E 1 + 1) [a]) (some (i, E 1 + 1)) = some (T.maxRow, E 1 - 1) := by
  have h1 : T.maxRow + 2 ≠ i := by omega
  have h0 := h.lo 1 (le_refl _)
  have h3 : E 1 - 1 + 2 = E 1 + 1 := by omega
  have h2 : (T.set (i, E 1 + 1) [a]).has (i, E 1 + 1) = true := by rw [has_set]; simp
  simp only [innerDims, remove?, h2, if_true, del_set (h.outerR_none i), h.maxColumn, h1, h3, decide_false, decide_true]
  rfl

theorem mkState_stR (h : SInc T E H f) (hi : i ≤ T.maxRow + 1) :
    mkState (T.set (i, E 1 + 1) [a]) (some (i, E 1 + 1)) = some (stR T E i a) := by
  rw [mkState, innerDims_stR h hi]; rfl

theorem lastColumn_stR (h : SInc T E H f) (hi : i ≤ T.maxRow + 1) : (stR T E i a).outerInLastColumn = true := by
  have h0 := h.lo 1 (le_refl _)
  simp only [HState.outerInLastColumn, stR, innerDims_stR h hi, decide_eq_true_eq]
  omega

theorem isInitial_stR : (stR T E i a).isInitial = decide (i = 1) := rfl

theorem innerDims_stC (h : SInc T E H f) (hj : j ≤ E 1) :
    innerDims (T.set (T.maxRow + 2, j) [a]) (some (T.maxRow + 2, j)) = some (T.maxRow, E 1 - 1) := by
  have h0 := h.lo 1 (le_refl _)
  have h3 : E 1 - 1 + 2 ≠ j := by omega
  have h2 : (T.set (T.maxRow + 2, j) [a]).has (T.maxRow + 2, j) = true := by rw [has_set]; simp
  simp only [innerDims, remove?, h2, if_true, del_set (h.outerC_none j), h.maxColumn, h3, decide_false, decide_true]
  rfl

theorem mkState_stC (h : SInc T E H f) (hj : j ≤ E 1) :
    mkState (T.set (T.maxRow + 2, j) [a]) (some (T.maxRow + 2, j)) = some (stC T T.maxRow j a) := by
  rw [mkState, innerDims_stC h hj]; rfl

theorem lastColumn_stC (h : SInc T E H f) (hj : j ≤ E 1) : (stC T T.maxRow j a).outerInLastColumn = false := by
  have h0 := h.lo 1 (le_refl _)
  simp only [HState.outerInLastColumn, stC, innerDims_stC h hj, decide_eq_false_iff_not]
  omega

theorem lastRow_stC (h : SInc T E H f) (hj : j ≤ E 1) : outerInLastRow (stC T T.maxRow j a) = true := by
  simp only [outerInLastRow, stC, innerDims_stC h hj, decide_true]

theorem isInitial_stC {m : Nat} : (stC T m j a).isInitial = false := by
  simp [HState.isInitial, stC]

/-- Replacing an entry. -/
theorem SInc.replace (h : SInc T E H f) (h1 : 1 ≤ i) (h2 : i ≤ x) (h3 : x < E i) (ha : 0 < a) (hev : a % 2 = 0) (hlt : a ≤ f i x)
    (hl : x = i ∨ f i (x - 1) < a) (hu : i = 1 ∨ f (i - 1) x < a) : SInc (T.set (i, x) [a]) E H (upd f i x a) := by
  constructor
  · intro i' j'
    rw [get?_set]
    by_cases hc : i' = i ∧ j' = x
    · rw [if_pos (by rw [hc.1, hc.2]), if_pos (by rw [hc.1, hc.2]; omega), upd, if_pos hc]
    · rw [if_neg (by rw [Prod.mk.injEq]; exact hc), h.get, upd, if_neg hc]
  · exact h.lo
  · exact h.anti
  · exact h.one
  · exact h.col
  · intro i' j' e1 e2 e3
    unfold upd
    have := h.row i' j' e1 e2 e3
    by_cases c1 : i' = i ∧ j' = x
    · rw [if_pos c1, if_neg (by omega)]
      obtain ⟨rfl, rfl⟩ := c1
      omega
    · rw [if_neg c1]
      by_cases c2 : i' = i ∧ j' + 1 = x
      · rw [if_pos c2]
        obtain ⟨rfl, rfl⟩ := c2
        rcases hl with h0 | h0
        · omega
        · exact h0
      · rw [if_neg c2]; exact this
  · intro i' j' e1 e2 e3
    unfold upd
    have := h.cinc i' j' e1 e2 e3
    by_cases c1 : i' = i ∧ j' = x
    · rw [if_pos c1, if_neg (by omega)]
      obtain ⟨rfl, rfl⟩ := c1
      omega
    · rw [if_neg c1]
      by_cases c2 : i' + 1 = i ∧ j' = x
      · rw [if_pos c2]
        obtain ⟨rfl, rfl⟩ := c2
        rcases hu with h0 | h0
        · omega
        · exact h0
      · rw [if_neg c2]; exact this
  · intro i' j' e1 e2 e3
    unfold upd
    split
    · exact ha
    · exact h.pos i' j' e1 e2 e3
  · intro i' j' e1 e2 e3
    unfold upd
    split
    · exact hev
    · exact h.even i' j' e1 e2 e3

/-- The shape with a further box at the end of row `i`. -/
def addE (E : Nat → Nat) (i i' : Nat) : Nat := if i' = i then E i + 1 else E i'

theorem SInc.H_eq (h : SInc T E H f) (h1 : 1 ≤ i) (hu : i = 1 ∨ E i < E (i - 1)) : H (E i) = i := by
  have e0 := h.lo i h1
  have e1 := (h.col i (E i) h1)
  have e2 := h.one (E i)
  rcases hu with rfl | hu
  · omega
  · rcases Nat.eq_or_lt_of_le h1 with rfl | h1
    · omega
    · have e3 := (h.col (i - 1) (E i) (by omega))
      omega

/-- Adding a box. -/
theorem SInc.add (h : SInc T E H f) (h1 : 1 ≤ i) (hx : x = E i) (ha : 0 < a) (hev : a % 2 = 0)
    (hl : x = i ∨ f i (x - 1) < a) (hu : i = 1 ∨ (E i < E (i - 1) ∧ f (i - 1) x < a)) :
    SInc (T.set (i, x) [a]) (addE E i) (addE H x) (upd f i x a) := by
  have hH := h.H_eq h1 (hu.imp id And.left)
  rw [← hx] at hH
  have e0 := h.lo i h1
  have eb := h.anti i h1
  constructor
  · intro i' j'
    rw [get?_set]
    by_cases hc : i' = i ∧ j' = x
    · rw [if_pos (by rw [hc.1, hc.2]), if_pos (by rw [hc.1, hc.2, addE, if_pos rfl]; omega), upd, if_pos hc]
    · rw [if_neg (by rw [Prod.mk.injEq]; exact hc), h.get, upd, if_neg hc]
      have : (1 ≤ i' ∧ i' ≤ j' ∧ j' < E i') ↔ (1 ≤ i' ∧ i' ≤ j' ∧ j' < addE E i i') := by
        unfold addE
        split
        · rename_i h1; subst h1; omega
        · rfl
      simp only [this]
  · intro i' hi'
    unfold addE
    split
    · omega
    · exact h.lo i' hi'
  · intro i' hi'
    have := h.anti i' hi'
    unfold addE
    by_cases c1 : i' + 1 = i
    · subst c1
      rw [if_pos rfl, if_neg (by omega)]
      simp only [Nat.add_sub_cancel] at hu
      omega
    · rw [if_neg c1]
      split
      · rename_i c2; subst c2; omega
      · exact this
  · intro j'
    have := h.one j'
    unfold addE
    split
    · omega
    · exact this
  · intro i' j' hi'
    have := h.col i' j' hi'
    unfold addE
    by_cases c1 : i' = i
    · subst c1
      rw [if_pos rfl]
      by_cases c2 : j' = x
      · subst c2; rw [if_pos rfl]; omega
      · rw [if_neg c2]; omega
    · rw [if_neg c1]
      by_cases c2 : j' = x
      · subst c2; rw [if_pos rfl]; omega
      · rw [if_neg c2]; exact this
  · intro i' j' e1 e2 e3
    unfold upd
    have hne : ¬ (i' = i ∧ j' = x) := by
      rintro ⟨rfl, rfl⟩
      rw [addE, if_pos rfl] at e3
      omega
    rw [if_neg hne]
    by_cases c2 : i' = i ∧ j' + 1 = x
    · rw [if_pos c2]
      obtain ⟨rfl, rfl⟩ := c2
      rcases hl with h0 | h0
      · omega
      · exact h0
    · rw [if_neg c2]
      apply h.row i' j' e1 e2
      unfold addE at e3
      split at e3
      · rename_i c3; subst c3; omega
      · exact e3
  · intro i' j' e1 e2 e3
    unfold upd
    have hne : ¬ (i' = i ∧ j' = x) := by
      rintro ⟨rfl, rfl⟩
      rw [addE, if_neg (by omega)] at e3
      omega
    rw [if_neg hne]
    by_cases c2 : i' + 1 = i ∧ j' = x
    · rw [if_pos c2]
      obtain ⟨rfl, rfl⟩ := c2
      rcases hu with h0 | h0
      · omega
      · exact h0.2
    · rw [if_neg c2]
      apply h.cinc i' j' e1 e2
      unfold addE at e3
      split at e3
      · rename_i c3; rw [c3]; omega
      · exact e3
  · intro i' j' e1 e2 e3
    unfold upd
    split
    · exact ha
    · apply h.pos i' j' e1 e2
      unfold addE at e3
      split at e3
      · rename_i c3; subst c3; omega
      · exact e3
  · intro i' j' e1 e2 e3
    unfold upd
    split
    · exact hev
    · apply h.even i' j' e1 e2
      unfold addE at e3
      split at e3
      · rename_i c3; subst c3; omega
      · exact e3

theorem filter_range'_lt {s m L : Nat} (h1 : s ≤ L) (hL : L ≤ s + m) {p : Nat → Bool}
    (hp : ∀ x, s ≤ x → x < s + m → (p x = true ↔ x < L)) : (List.range' s m).filter p = List.range' s (L - s) := by
  obtain ⟨d, rfl⟩ := Nat.exists_eq_add_of_le (show L - s ≤ m by omega)
  rw [← List.range'_append_1, List.filter_append]
  have h1 : (List.range' s (L - s)).filter p = List.range' s (L - s) := by
    rw [List.filter_eq_self]
    intro x hx
    rw [List.mem_range'_1] at hx
    exact (hp x (by omega) (by omega)).2 (by omega)
  have h2 : (List.range' (s + (L - s)) d).filter p = [] := by
    rw [List.filter_eq_nil_iff]
    intro x hx
    rw [List.mem_range'_1] at hx
    intro hc
    have := (hp x (by omega) (by omega)).1 hc
    omega
  rw [h1, h2, List.append_nil]

theorem sort_range' {s m : Nat} {g : Nat → Int} (h : ∀ x y, s ≤ x → x < y → y < s + m → g x ≤ g y) :
    sortInts ((List.range' s m).map g) = (List.range' s m).map g := by
  apply List.Pairwise.insertionSort_eq
  rw [List.pairwise_map]
  refine List.Pairwise.imp_of_mem ?_ List.pairwise_lt_range'
  intro x y hx hy hxy
  rw [List.mem_range'_1] at hx hy
  exact h x y (by omega) hxy (by omega)

/-- What is known when `a` is about to be inserted into row `i`. -/
structure RReady (E : Nat → Nat) (f : Nat → Nat → Int) (i : Nat) (a : Int) : Prop where
  one : 1 ≤ i
  pos : 0 < a
  even : a % 2 = 0
  above : i = 1 ∨ ∃ y, i ≤ y ∧ y < E (i - 1) ∧ f (i - 1) y ≤ a ∧ (y + 1 < E (i - 1) → a < f (i - 1) (y + 1)) ∧
    (y < E i → a < f i y)
  first : i = 1 ∨ f (i - 1) (i - 1) < a
  diag : i = 1 ∨ i < E i ∨ f (i - 1) i < a

theorem RReady.le_maxRow (h : SInc T E H f) (hr : RReady E f i a) : i ≤ T.maxRow + 1 := by
  rcases hr.above with h0 | ⟨y, h1, h2, _⟩
  · omega
  · have := hr.one
    rcases Nat.eq_or_lt_of_le this with h3 | h3
    · omega
    · have := (h.row_iff (i := i - 1) (by omega)).1 (by omega)
      omega

theorem RReady.lt_above (h : SInc T E H f) (hr : RReady E f i a) (hp : Pos loR E f i a x) (h1 : i ≠ 1) :
    x < E (i - 1) ∧ f (i - 1) x ≤ a := by
  rcases hr.above with h0 | ⟨y, hy1, hy2, hy3, hy4, hy5⟩
  · exact absurd h0 h1
  · have hone := hr.one
    have hlo : i ≤ x := hp.1
    have : x ≤ y := by
      by_contra hc
      have e1 := hy5 (by have := hp.2.1; omega)
      have e2 := hp.2.2.1 y hy1 (by omega)
      omega
    refine ⟨by omega, le_trans (h.arrR.rowLe (i := i - 1) (j := x) (j' := y) (by omega) ?_ this hy2) hy3⟩
    show i - 1 ≤ x
    omega

section
variable (h : SInc T E H f) (i : Nat) (a : Int)
include h

theorem get_stR {i' j' : Nat} (h1 : 1 ≤ i') (h2 : i' ≤ j') (h3 : j' < E i') :
    (T.set (i, E 1 + 1) [a]).get? (i', j') = some [f i' j'] := by
  rw [get?_set, if_neg, h.get_some h1 h2 h3]
  intro hc
  have h4 := h.up' (i := 1) (le_refl 1) h1 h2 h3
  have := congrArg Prod.snd hc
  simp only at this
  omega

theorem has_stR {i' j' : Nat} (hj : j' ≠ E 1 + 1) :
    (T.set (i, E 1 + 1) [a]).has (i', j') = true ↔ 1 ≤ i' ∧ i' ≤ j' ∧ j' < E i' := by
  rw [has_set, ← h.has_iff i' j']
  have : (i', j') ≠ (i, E 1 + 1) := by
    intro hc
    have := congrArg Prod.snd hc
    simp only at this
    omega
  simp [this]

end

theorem row_all (hp : Pos loR E f i a x) (hlo : i ≤ E i) :
    (((List.range' i (E i - i)).map (f i)).all (fun y => decide (y ≤ a)) = true) ↔ x = E i := by
  have h1 : i ≤ x := hp.1
  simp only [List.all_map, List.all_eq_true, List.mem_range'_1, Function.comp, decide_eq_true_eq]
  constructor
  · intro hc
    by_contra hne
    have h2 := hp.2.2.2 (by have := hp.2.1; omega)
    have h3 := hc x (by have := hp.2.1; omega)
    omega
  · intro hc y hy
    exact hp.2.2.1 y hy.1 (by omega)

theorem firstGreater_stR (h : SInc T E H f) (h1 : 1 ≤ i) (hp : Pos loR E f i a x) (hx : x < E i) :
    ∀ d y fuel, y + d = x → i ≤ y → d < fuel → firstGreater (T.set (i, E 1 + 1) [a]) i a fuel y = some x := by
  intro d
  induction d with
  | zero =>
    intro y fuel hy hy1 hf
    obtain ⟨fuel, rfl⟩ := Nat.exists_eq_succ_of_ne_zero (show fuel ≠ 0 by omega)
    have hyx : y = x := by omega
    subst hyx
    have := hp.2.2.2 hx
    rw [firstGreater, entry_of_get? (get_stR h i a h1 hy1 hx)]
    simp only
    rw [if_neg (by omega)]
  | succ d ih =>
    intro y fuel hy hy1 hf
    obtain ⟨fuel, rfl⟩ := Nat.exists_eq_succ_of_ne_zero (show fuel ≠ 0 by omega)
    have := hp.2.2.1 y hy1 (by omega)
    rw [firstGreater, entry_of_get? (get_stR h i a h1 hy1 (by omega))]
    simp only
    rw [if_pos this]
    exact ih (y + 1) fuel (by omega) (by omega) (by omega)

theorem rowStep_st (h : SInc T E H f) (hr : RReady E f i a) (hp : Pos loR E f i a x) :
    rowStep (stR T E i a) = if x = E i then
      rowR1 (T.set (i, E 1 + 1) [a]) i (E 1 + 1) a ((List.range' i (E i - i)).map (f i))
      else if i < x then rowR23 (T.set (i, E 1 + 1) [a]) i (E 1 + 1) x a (f i x)
      else rowD2 (T.set (i, E 1 + 1) [a]) i (E 1 + 1) a (f i x) := by
  have hone := hr.one
  have hlo := h.lo i hone
  have hEi := h.E_le hone (hr.le_maxRow h)
  have hix : i ≤ x := hp.1
  have he : (T.set (i, E 1 + 1) [a]).entry (i, E 1 + 1) = some a := entry_of_get? (by rw [get?_set]; simp)
  have hfil : (List.range' i (E 1 + 1 - i)).filter (fun y => (T.set (i, E 1 + 1) [a]).has (i, y)) = List.range' i (E i - i) := by
    apply filter_range'_lt hlo (by omega)
    intro y hy1 hy2
    rw [has_stR h i a (by omega)]
    omega
  have hrow : entriesAt (T.set (i, E 1 + 1) [a]) ((List.range' i (E i - i)).map (fun y => (i, y))) =
      some ((List.range' i (E i - i)).map (f i)) := by
    rw [entriesAt_eq (g := fun b => f b.1 b.2)]
    · rw [List.map_map]; rfl
    · intro b hb
      rw [List.mem_map] at hb
      obtain ⟨y, hy, rfl⟩ := hb
      rw [List.mem_range'_1] at hy
      exact get_stR h i a hone hy.1 (by omega)
  have hsort : sortInts ((List.range' i (E i - i)).map (f i)) = (List.range' i (E i - i)).map (f i) := by
    apply sort_range'
    intro y z hy hyz hz
    exact le_of_lt (h.arrR.rowLt hone hy hyz (by omega))
  simp only [rowStep, stR, he, hfil, hrow, hsort, List.length_map, List.length_range', if_true]
  by_cases hc : x = E i
  · rw [if_pos ((row_all hp hlo).2 hc), if_pos hc]
  · rw [if_neg (fun h => hc ((row_all hp hlo).1 h)), if_neg hc]
    have hx : x < E i := by have := hp.2.1; omega
    rw [firstGreater_stR h hone hp hx (x - i) i (E 1 + 1) (by omega) (le_refl _) (by omega)]
    simp only
    rw [entry_of_get? (get_stR h i a hone hix hx)]

/-- The tableau after the step in row `i`. -/
def nextT (T : Tab) (f : Nat → Nat → Int) (i x : Nat) (a : Int) : Tab :=
  if Fit loR f f i x a then T.set (i, x) [a] else T

theorem nextInc (h : SInc T E H f) (hr : RReady E f i a) (hp : Pos loR E f i a x) (hx : x < E i) :
    SInc (nextT T f i x a) E H (nextF loR f i x a) := by
  unfold nextT nextF
  split
  · rename_i hi
    exact h.replace hr.one hp.1 hx hr.pos hr.even (le_of_lt (hp.2.2.2 hx)) hi.1 hi.2
  · exact h

/-- The shape after row insertion has ended in row `i`. -/
def finE (E : Nat → Nat) (c : Prop) [Decidable c] (i : Nat) : Nat → Nat := if c then addE E i else E

theorem finInc (h : SInc T E H f) (hr : RReady E f i a) (hp : Pos loR E f i a x) (hx : x = E i) :
    SInc (nextT T f i x a) (finE E (Fit loR f f i x a) i) (finE H (Fit loR f f i x a) x) (nextF loR f i x a) := by
  unfold nextT nextF finE
  split
  · rename_i hi
    refine h.add hr.one hx hr.pos hr.even hi.1 ?_
    by_cases h1 : i = 1
    · exact Or.inl h1
    · have := hr.lt_above h hp h1
      rw [hx] at this
      refine Or.inr ⟨this.1, ?_⟩
      rcases hi.2 with h2 | h2
      · exact absurd h2 h1
      · exact h2
  · exact h

theorem rowR1_eq (h : SInc T E H f) (hr : RReady E f i a) (hp : Pos loR E f i a x) (hx : x = E i) :
    rowR1 (T.set (i, E 1 + 1) [a]) i (E 1 + 1) a ((List.range' i (E i - i)).map (f i)) =
      some (⟨nextT T f i x a, none⟩, (i, x)) := by
  have hone := hr.one
  have hlo := h.lo i hone
  have hEi := h.E_le hone (hr.le_maxRow h)
  have hcol : entriesAt (T.set (i, E 1 + 1) [a])
      (((T.set (i, E 1 + 1) [a]).items.map Prod.fst).filter (fun b => decide (b.2 = E i))) =
      some ((((T.set (i, E 1 + 1) [a]).items.map Prod.fst).filter (fun b => decide (b.2 = E i))).map (fun b => f b.1 b.2)) := by
    apply entriesAt_eq
    rintro ⟨i', j'⟩ hb
    rw [List.mem_filter, mem_keys, decide_eq_true_eq] at hb
    simp only at hb
    have := (has_stR h i a (i' := i') (j' := j') (by omega)).1 hb.1
    exact get_stR h i a this.1 this.2.1 this.2.2
  have hcond : allLt ((List.range' i (E i - i)).map (f i))
      ((((T.set (i, E 1 + 1) [a]).items.map Prod.fst).filter (fun b => decide (b.2 = E i))).map (fun b => f b.1 b.2)) a = true ↔
      Fit loR f f i x a := by
    rw [allLt, Bool.and_eq_true, Fit]
    apply and_congr
    · simp only [List.all_map, List.all_eq_true, List.mem_range'_1, Function.comp, decide_eq_true_eq, loR]
      constructor
      · intro hc
        rcases Nat.eq_or_lt_of_le hlo with h0 | h0
        · exact Or.inl (by omega)
        · exact Or.inr (hc (x - 1) (by omega))
      · rintro (h0 | h0) y hy
        · omega
        · exact lt_of_le_of_lt (h.arrR.rowLe hone hy.1 (by omega) (by omega)) h0
    · simp only [List.all_map, List.all_eq_true, List.mem_filter, Function.comp, decide_eq_true_eq, mem_keys]
      constructor
      · intro hc
        by_cases h0 : i = 1
        · exact Or.inl h0
        · have hab := hr.lt_above h hp h0
          right
          exact hc (i - 1, x) ⟨(has_stR h i a (by omega)).2 ⟨by omega, by omega, hab.1⟩, by simp only; omega⟩
      · rintro hc ⟨i', j'⟩ ⟨hb, hj⟩
        simp only at hj
        have hb := (has_stR h i a (i' := i') (j' := j') (by omega)).1 hb
        simp only
        have hir : i' < i := by
          by_contra hir
          have := h.up' (i := i) (i' := i') (j := j') hone (by omega) hb.2.1 hb.2.2
          omega
        rcases hc with rfl | hc
        · omega
        · have hab := hr.lt_above h hp (by omega)
          have hjx : j' = x := by omega
          subst hjx
          rcases Nat.eq_or_lt_of_le (show i' ≤ i - 1 by omega) with rfl | hlt
          · exact hc
          · exact lt_trans (h.colLt hb.1 hlt (by omega) hab.1) hc
  have hnone : T.get? (i, x) = none := h.get_none (by omega)
  have hne : ((i, E 1 + 1) : Nat × Nat) ≠ (i, x) := by
    intro hc
    have := congrArg Prod.snd hc
    simp only at this
    omega
  have hij : i + (E i - i) = E i := by omega
  simp only [rowR1, List.length_map, List.length_range', hij, hcol]
  rw [← hx] at hcond ⊢
  by_cases hi : Fit loR f f i x a
  · rw [if_pos (hcond.2 hi), nextT, if_pos hi]
    have hadd : (T.set (i, E 1 + 1) [a]).add (i, x) a = (T.set (i, x) [a]).set (i, E 1 + 1) [a] := by
      rw [add_of_none, set_comm _ hne]
      rw [get?_set, if_neg (fun h => hne h.symm), hnone]
    rw [hadd, remove?, has_set]
    simp only [decide_true, Bool.true_or, if_true]
    rw [del_set]
    · simp [mkState, innerDims]
    · rw [get?_set, if_neg hne, h.outerR_none]
  · rw [if_neg (fun hc => hi (hcond.1 hc)), nextT, if_neg hi]
    rw [remove?, has_set]
    simp only [decide_true, Bool.true_or, if_true]
    rw [del_set (h.outerR_none i)]
    simp [mkState, innerDims]

theorem rowCond_eq (h : SInc T E H f) (hr : RReady E f i a) (hp : Pos loR E f i a x) (hx : x < E i) (hix : i < x) :
    rowCond (T.set (i, E 1 + 1) [a]) i x a = some (decide (Fit loR f f i x a)) := by
  have hone := hr.one
  have h1 : entryLt (T.set (i, E 1 + 1) [a]) (i, x - 1) a = some (decide (x = loR i ∨ f i (x - 1) < a)) := by
    have hne : x ≠ loR i := by unfold loR; omega
    rw [entryLt, entry_of_get? (get_stR h i a hone (by omega) (by omega))]
    simp [hne]
  have h2 : (if i = 1 then some true else entryLt (T.set (i, E 1 + 1) [a]) (i - 1, x) a) =
      some (decide (i = 1 ∨ f (i - 1) x < a)) := by
    by_cases h0 : i = 1
    · simp [h0]
    · have hab := hr.lt_above h hp h0
      rw [if_neg h0, entryLt, entry_of_get? (get_stR h i a (by omega) (by omega) hab.1)]
      simp [h0]
  rw [rowCond, h1, h2]
  by_cases c1 : x = loR i ∨ f i (x - 1) < a
  · simp only [c1, decide_true, Fit, true_and]
  · simp only [c1, decide_false, Fit, false_and]

/-- The bumped value goes to the next row. -/
theorem nextReady (h : SInc T E H f) (hr : RReady E f i a) (hp : Pos loR E f i a x) (hx : x < E i) (hix : i < x)
    (hd : ¬ (¬ Fit loR f f i x a ∧ x = i + 1 ∧ E (i + 1) = i + 1)) : RReady E (nextF loR f i x a) (i + 1) (f i x) := by
  have hone := hr.one
  have hlt := hp.2.2.2 hx
  refine ⟨by omega, h.pos _ _ hone (by omega) hx, h.even _ _ hone (by omega) hx, Or.inr ?_, Or.inr ?_, ?_⟩
  · rw [Nat.add_sub_cancel]
    refine ⟨x, by omega, hx, nextF_le hp hx, ?_, ?_⟩
    · intro hl
      rw [nextF_other (by omega)]
      exact h.row _ _ hone (by omega) hl
    · intro hl
      rw [nextF_other (by omega)]
      exact h.cinc _ _ hone (by omega) hl
  · rw [Nat.add_sub_cancel, nextF_other (by omega)]
    exact h.arrR.rowLt hone (le_refl _) hix hx
  · by_cases h1 : i + 1 < E (i + 1)
    · exact Or.inr (Or.inl h1)
    · right; right
      have h2 := h.lo (i + 1) (by omega)
      rw [Nat.add_sub_cancel]
      by_cases h3 : x = i + 1
      · have hfit : Fit loR f f i x a := by
          by_contra hc
          exact hd ⟨hc, h3, by omega⟩
        rw [nextF, if_pos hfit, upd, if_pos ⟨rfl, h3.symm⟩]
        exact hlt
      · rw [nextF_other (by omega)]
        exact h.arrR.rowLt hone (Nat.le_succ i) (by omega) hx

theorem rowR23_eq (h : SInc T E H f) (hr : RReady E f i a) (hp : Pos loR E f i a x) (hx : x < E i) (hix : i < x)
    (hd : ¬ (¬ Fit loR f f i x a ∧ x = i + 1 ∧ E (i + 1) = i + 1)) :
    rowR23 (T.set (i, E 1 + 1) [a]) i (E 1 + 1) x a (f i x) = some (stR (nextT T f i x a) E (i + 1) (f i x), (i, x)) := by
  have hone := hr.one
  have hEi := h.E_le hone (hr.le_maxRow h)
  have hlo1 := h.lo (i + 1) (by omega)
  have hne1 : ((i, E 1 + 1) : Nat × Nat) ≠ (i + 1, E 1 + 1) := by
    intro hc; have := congrArg Prod.fst hc; simp only at this; omega
  have hne2 : ((i, E 1 + 1) : Nat × Nat) ≠ (i, x) := by
    intro hc; have := congrArg Prod.snd hc; simp only at this; omega
  have hne3 : ((i + 1, E 1 + 1) : Nat × Nat) ≠ (i, x) := by
    intro hc; have := congrArg Prod.fst hc; simp only at this; omega
  have hinc := nextInc h hr hp hx
  have hready := nextReady h hr hp hx hix hd
  have hadd : (T.set (i, E 1 + 1) [a]).add (i + 1, E 1 + 1) (f i x) =
      (T.set (i + 1, E 1 + 1) [f i x]).set (i, E 1 + 1) [a] := by
    rw [add_of_none, set_comm _ hne1]
    rw [get?_set, if_neg (fun h => hne1 h.symm), h.outerR_none]
  rw [rowR23, rowCond_eq h hr hp hx hix]
  by_cases hi : Fit loR f f i x a
  · simp only [hi, decide_true, hadd]
    rw [replace?, if_pos]
    · simp only
      rw [remove?, if_pos]
      · simp only
        rw [set_comm _ hne2, set_comm _ hne3, del_set, show T.set (i, x) [a] = nextT T f i x a by rw [nextT, if_pos hi],
          mkState_stR hinc (hready.le_maxRow hinc)]
        · rfl
        · rw [get?_set, if_neg hne1, get?_set, if_neg hne2, h.outerR_none]
      · rw [has_set, has_set]; simp
    · rw [has_set, has_set, (h.has_iff i x).2 (by omega)]; simp
  · simp only [hi, decide_false, hadd]
    rw [if_neg]
    · rw [remove?, if_pos]
      · simp only
        rw [del_set]
        · conv_rhs => rw [nextT, if_neg hi]
          have : nextT T f i x a = T := by rw [nextT, if_neg hi]
          rw [this] at hinc
          rw [mkState_stR hinc (hready.le_maxRow hinc)]
          rfl
        · rw [get?_set, if_neg hne1, h.outerR_none]
      · rw [has_set]; simp
    · rintro ⟨c1, c2⟩
      apply hd
      refine ⟨hi, c1, ?_⟩
      by_contra hc
      have : (T.set (i, E 1 + 1) [a]).has (i + 1, i + 1) = true := (has_stR h i a (by omega)).2 (by omega)
      rw [this] at c2
      cases c2

theorem maxRow_stR (hone : 1 ≤ i) (hi : i ≤ T.maxRow) : (T.set (i, E 1 + 1) [a]).maxRow = T.maxRow := by
  apply le_antisymm
  · rcases maxRow_mem (T.set (i, E 1 + 1) [a]) with h0 | ⟨j, hj⟩
    · omega
    · rw [has_set, Bool.or_eq_true, decide_eq_true_eq, Prod.mk.injEq] at hj
      rcases hj with hj | hj
      · omega
      · exact Tab.le_maxRow hj
  · rcases maxRow_mem T with h0 | ⟨j, hj⟩
    · omega
    · have : (T.set (i, E 1 + 1) [a]).has (T.maxRow, j) = true := by rw [has_set, hj]; simp
      exact Tab.le_maxRow this

/-- Diagonal transition D1. -/
theorem rowD1_eq (h : SInc T E H f) (hr : RReady E f i a) (hp : Pos loR E f i a x) (hx : x < E i)
    (hn : ¬ Fit loR f f i x a) (hxi : x = i + 1) (hd : E (i + 1) = i + 1) :
    rowR23 (T.set (i, E 1 + 1) [a]) i (E 1 + 1) x a (f i x) = some (stC T T.maxRow (i + 1) (f i x), (i, x)) := by
  have hone := hr.one
  have hEi := h.E_le hone (hr.le_maxRow h)
  have him := (h.row_iff hone).1 (by omega)
  have hmr : (T.set (i, E 1 + 1) [a]).maxRow = T.maxRow := maxRow_stR hone him
  have hne : ((i, E 1 + 1) : Nat × Nat) ≠ (T.maxRow + 2, i + 1) := by
    intro hc; have := congrArg Prod.fst hc; simp only at this; omega
  have hadd : (T.set (i, E 1 + 1) [a]).add (T.maxRow + 2, i + 1) (f i x) =
      (T.set (T.maxRow + 2, i + 1) [f i x]).set (i, E 1 + 1) [a] := by
    rw [add_of_none, set_comm _ hne]
    rw [get?_set, if_neg (fun h => hne h.symm), h.outerC_none]
  rw [rowR23, rowCond_eq h hr hp hx (by omega)]
  simp only [hn, decide_false, hmr]
  rw [if_pos, hadd]
  · rw [remove?, if_pos]
    · simp only
      rw [del_set]
      · rw [mkState_stC h (by omega)]
        rfl
      · rw [get?_set, if_neg hne, h.outerR_none]
    · rw [has_set]; simp
  · refine ⟨hxi, ?_⟩
    rw [← Bool.not_eq_true, has_stR h i a (by omega)]
    omega

/-- Diagonal transition D2. -/
theorem rowD2_eq (h : SInc T E H f) (hr : RReady E f i a) (hp : Pos loR E f i a i) (hx : i < E i) :
    rowD2 (T.set (i, E 1 + 1) [a]) i (E 1 + 1) a (f i i) =
      some (stC (nextT T f i i a) T.maxRow (i + 1) (f i i), (i, i)) := by
  have hone := hr.one
  have hEi := h.E_le hone (hr.le_maxRow h)
  have him := (h.row_iff hone).1 (by omega)
  have hmr : (T.set (i, E 1 + 1) [a]).maxRow = T.maxRow := maxRow_stR hone him
  have hev := h.even i i hone (le_refl _) hx
  have hinc := nextInc h hr hp hx
  have hmr' := hinc.maxRow_eq h
  have hne : ((i, E 1 + 1) : Nat × Nat) ≠ (T.maxRow + 2, i + 1) := by
    intro hc; have := congrArg Prod.fst hc; simp only at this; omega
  have hne2 : ((i, E 1 + 1) : Nat × Nat) ≠ (i, i) := by
    intro hc; have := congrArg Prod.snd hc; simp only at this; omega
  have h2 : (if i = 1 then some true else entryLt (T.set (i, E 1 + 1) [a]) (i - 1, i) a) =
      some (decide (Fit loR f f i i a)) := by
    by_cases h0 : i = 1
    · simp [h0, Fit, loR]
    · have hab := hr.lt_above h hp h0
      rw [if_neg h0, entryLt, entry_of_get? (get_stR h i a (by omega) (by omega) hab.1)]
      simp [h0, Fit, loR]
  have hmk : ∀ b, mkState ((nextT T f i i a).set (T.maxRow + 2, i + 1) [b]) (some (T.maxRow + 2, i + 1)) =
      some (stC (nextT T f i i a) T.maxRow (i + 1) b) := by
    intro b
    rw [← hmr']
    exact mkState_stC hinc (by omega)
  have hcn : (nextT T f i i a).get? (T.maxRow + 2, i + 1) = none := by rw [← hmr']; exact hinc.outerC_none _
  rw [rowD2, if_pos (by rw [hr.even, hev]), h2]
  by_cases hi : Fit loR f f i i a
  · simp only [hi, decide_true, hmr]
    rw [replace?, if_pos]
    · simp only
      rw [set_comm _ hne2, show T.set (i, i) [a] = nextT T f i i a by rw [nextT, if_pos hi]]
      have hadd : ((nextT T f i i a).set (i, E 1 + 1) [a]).add (T.maxRow + 2, i + 1) (f i i) =
          ((nextT T f i i a).set (T.maxRow + 2, i + 1) [f i i]).set (i, E 1 + 1) [a] := by
        rw [add_of_none, set_comm _ hne]
        rw [get?_set, if_neg (fun h => hne h.symm), hcn]
      rw [hadd, remove?, if_pos]
      · simp only
        rw [del_set]
        · rw [hmk]; rfl
        · rw [get?_set, if_neg hne, hinc.outerR_none]
      · rw [has_set]; simp
    · rw [has_set, (h.has_iff i i).2 (by omega)]; simp
  · simp only [hi, decide_false, hmr]
    have hT : nextT T f i i a = T := by rw [nextT, if_neg hi]
    rw [hT] at hmk hcn ⊢
    have hadd : (T.set (i, E 1 + 1) [a]).add (T.maxRow + 2, i + 1) (f i i) =
        (T.set (T.maxRow + 2, i + 1) [f i i]).set (i, E 1 + 1) [a] := by
      rw [add_of_none, set_comm _ hne]
      rw [get?_set, if_neg (fun h => hne h.symm), hcn]
    rw [hadd, remove?, if_pos]
    · simp only
      rw [del_set]
      · rw [hmk]; rfl
      · rw [get?_set, if_neg hne, h.outerR_none]
    · rw [has_set]; simp

end Verif.FInsertion
