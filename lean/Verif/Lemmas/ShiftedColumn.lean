import Verif.Lemmas.ShiftedInsertion

/-! The column transitions of `FState`. -/

namespace Verif.FInsertion

open Tab Lines
open Insertion hiding nextF nextF_other nextF_le nextT nextInc

variable {T T' : Tab} {E H : Nat → Nat} {f f' : Nat → Nat → Int} {i j x : Nat} {a b : Int}

theorem SInc.H_le (h : SInc T E H f) (j : Nat) : H j ≤ T.maxRow + 1 := by
  have h1 := h.one j
  rcases Nat.eq_or_lt_of_le h1 with h0 | h0
  · omega
  · have e1 := (h.col (H j - 1) j (by omega)).1 (by omega)
    have := (h.row_iff (i := H j - 1) (by omega)).1 (by omega)
    omega

/-- What is known when `a` is about to be inserted into column `j`. -/
structure CReady (H : Nat → Nat) (f : Nat → Nat → Int) (j : Nat) (a : Int) : Prop where
  two : 2 ≤ j
  pos : 0 < a
  even : a % 2 = 0
  above : ∃ y, 1 ≤ y ∧ y < H (j - 1) ∧ f y (j - 1) ≤ a ∧ (y + 1 < H (j - 1) → a < f (y + 1) (j - 1)) ∧
    (y < H j → a < f y j)
  first : f 1 (j - 1) < a

theorem CReady.le_E (h : SInc T E H f) (hr : CReady H f j a) : j ≤ E 1 := by
  obtain ⟨y, h1, h2, _⟩ := hr.above
  have e1 := (h.col y (j - 1) h1).1 h2
  have := h.up' (i := 1) (i' := y) (le_refl 1) h1 e1.1 e1.2
  omega

theorem CReady.lt_above (h : SInc T E H f) (hr : CReady H f j a) (hp : Pos loC H (tr f) j a x) :
    x < H (j - 1) ∧ f x (j - 1) ≤ a ∧ x < j := by
  obtain ⟨y, hy1, hy2, hy3, hy4, hy5⟩ := hr.above
  have htwo := hr.two
  have hlo : 1 ≤ x := hp.1
  have hxy : x ≤ y := by
    by_contra hc
    have e1 := hy5 (by have := hp.2.1; omega)
    have e2 : f y j ≤ a := hp.2.2.1 y hy1 (by omega)
    omega
  have e1 := (h.col y (j - 1) hy1).1 hy2
  refine ⟨by omega, le_trans ?_ hy3, by omega⟩
  exact h.arrC.rowLe (i := j - 1) (j := x) (j' := y) (by omega) hlo hxy hy2

section
variable (h : SInc T E H f) (j : Nat) (a : Int)
include h

theorem get_stC {i' j' : Nat} (h1 : 1 ≤ i') (h2 : i' ≤ j') (h3 : j' < E i') :
    (T.set (T.maxRow + 2, j) [a]).get? (i', j') = some [f i' j'] := by
  rw [get?_set, if_neg, h.get_some h1 h2 h3]
  intro hc
  have h4 := (h.row_iff h1).1 (by omega)
  have := congrArg Prod.fst hc
  simp only at this
  omega

theorem has_stC {i' j' : Nat} (hi : i' ≠ T.maxRow + 2) :
    (T.set (T.maxRow + 2, j) [a]).has (i', j') = true ↔ 1 ≤ i' ∧ i' ≤ j' ∧ j' < E i' := by
  rw [has_set, ← h.has_iff i' j']
  have : (i', j') ≠ (T.maxRow + 2, j) := by
    intro hc
    have := congrArg Prod.fst hc
    simp only at this
    omega
  simp [this]

end

theorem col_all (h : SInc T E H f) (hp : Pos loC H (tr f) j a x) :
    (((List.range' 1 (H j - 1)).map (tr f j)).all (fun y => decide (y ≤ a)) = true) ↔ x = H j := by
  have h1 : 1 ≤ x := hp.1
  have h2 := h.one j
  have h3 := hp.2.1
  simp only [List.all_map, List.all_eq_true, List.mem_range'_1, Function.comp, decide_eq_true_eq]
  constructor
  · intro hc
    by_contra hne
    have h2 := hp.2.2.2 (by omega)
    have h3 := hc x (by omega)
    omega
  · intro hc y hy
    exact hp.2.2.1 y hy.1 (by omega)

theorem firstGreater_stC (h : SInc T E H f) (hp : Pos loC H (tr f) j a x) (hx : x < H j) :
    ∀ d y fuel, y + d = x → 1 ≤ y → d < fuel → firstGreaterCol (T.set (T.maxRow + 2, j) [a]) j a fuel y = some x := by
  have hD : ∀ y, 1 ≤ y → y ≤ x → (T.set (T.maxRow + 2, j) [a]).get? (y, j) = some [f y j] := by
    intro y h1 h2
    have := (h.col y j h1).1 (by omega)
    exact get_stC h j a h1 this.1 this.2
  intro d
  induction d with
  | zero =>
    intro y fuel hy hy1 hf
    obtain ⟨fuel, rfl⟩ := Nat.exists_eq_succ_of_ne_zero (show fuel ≠ 0 by omega)
    have hyx : y = x := by omega
    subst hyx
    have : a < f y j := hp.2.2.2 hx
    rw [firstGreaterCol, entry_of_get? (hD y hy1 (le_refl _))]
    simp only
    rw [if_neg (by omega)]
  | succ d ih =>
    intro y fuel hy hy1 hf
    obtain ⟨fuel, rfl⟩ := Nat.exists_eq_succ_of_ne_zero (show fuel ≠ 0 by omega)
    have : f y j ≤ a := hp.2.2.1 y hy1 (by omega)
    rw [firstGreaterCol, entry_of_get? (hD y hy1 (by omega))]
    simp only
    rw [if_pos this]
    exact ih (y + 1) fuel (by omega) (by omega) (by omega)

theorem colStep_st (h : SInc T E H f) (hj : 1 ≤ j) (hp : Pos loC H (tr f) j a x) :
    colStep (stC T T.maxRow j a) = if x = H j then
      colC1 (T.set (T.maxRow + 2, j) [a]) (T.maxRow + 2) j a ((List.range' 1 (H j - 1)).map (tr f j))
      else colC23 (T.set (T.maxRow + 2, j) [a]) (T.maxRow + 2) j x a (f x j) := by
  have hH := h.H_le j
  have h1x : 1 ≤ x := hp.1
  have hH1 := h.one j
  have he : (T.set (T.maxRow + 2, j) [a]).entry (T.maxRow + 2, j) = some a := entry_of_get? (by rw [get?_set]; simp)
  have hfil : (List.range' 1 (T.maxRow + 2 - 1)).filter (fun y => (T.set (T.maxRow + 2, j) [a]).has (y, j)) =
      List.range' 1 (H j - 1) := by
    apply filter_range'_lt hH1 (by omega)
    intro y hy1 hy2
    rw [has_stC h j a (by omega), h.col y j hy1]
    omega
  have hcol : entriesAt (T.set (T.maxRow + 2, j) [a]) ((List.range' 1 (H j - 1)).map (fun y => (y, j))) =
      some ((List.range' 1 (H j - 1)).map (tr f j)) := by
    rw [entriesAt_eq (g := fun b => f b.1 b.2)]
    · rw [List.map_map]; rfl
    · intro b hb
      rw [List.mem_map] at hb
      obtain ⟨y, hy, rfl⟩ := hb
      rw [List.mem_range'_1] at hy
      have := (h.col y j hy.1).1 (by omega)
      exact get_stC h j a hy.1 this.1 this.2
  have hsort : sortInts ((List.range' 1 (H j - 1)).map (tr f j)) = (List.range' 1 (H j - 1)).map (tr f j) := by
    apply sort_range'
    intro y z hy hyz hz
    exact le_of_lt (h.arrC.rowLt hj hy hyz (by omega))
  simp only [colStep, stC, he, hfil, hcol, hsort, List.length_map, List.length_range', if_true]
  by_cases hc : x = H j
  · rw [if_pos ((col_all h hp).2 hc), if_pos hc]
  · rw [if_neg (fun h' => hc ((col_all h hp).1 h')), if_neg hc]
    have hx : x < H j := by have := hp.2.1; omega
    rw [firstGreater_stC h hp hx (x - 1) 1 (T.maxRow + 2) (by omega) (le_refl _) (by omega)]
    simp only
    have := (h.col x j h1x).1 hx
    rw [entry_of_get? (get_stC h j a h1x this.1 this.2)]

/-- The tableau after the step in column `j`. -/
def nextTC (T : Tab) (f : Nat → Nat → Int) (j x : Nat) (a : Int) : Tab :=
  if Fit loC (tr f) (tr f) j x a then T.set (x, j) [a] else T

/-- The entries after the step in column `j`. -/
def nextC (f : Nat → Nat → Int) (j x : Nat) (a : Int) : Nat → Nat → Int := tr (nextF loC (tr f) j x a)

theorem nextC_eq : nextC f j x a = if Fit loC (tr f) (tr f) j x a then upd f x j a else f := by
  funext i' j'
  unfold nextC tr nextF
  split
  · unfold upd
    congr 1
    rw [eq_iff_iff]; exact and_comm
  · rfl

theorem nextC_other {i' j' : Nat} (h : ¬ (i' = x ∧ j' = j)) : nextC f j x a i' j' = f i' j' := by
  unfold nextC tr
  exact nextF_other (by tauto)

theorem nextC_le (hp : Pos loC H (tr f) j a x) (hx : x < H j) : nextC f j x a x j ≤ f x j := nextF_le hp hx

theorem fitC (h : Fit loC (tr f) (tr f) j x a) (h2 : 2 ≤ j) : (x = 1 ∨ f (x - 1) j < a) ∧ f x (j - 1) < a := by
  refine ⟨h.1, ?_⟩
  rcases h.2 with h0 | h0
  · omega
  · exact h0

theorem nextIncC (h : SInc T E H f) (hr : CReady H f j a) (hp : Pos loC H (tr f) j a x) (hx : x < H j) :
    SInc (nextTC T f j x a) E H (nextC f j x a) := by
  rw [nextC_eq]
  unfold nextTC
  split
  · rename_i hi
    have h1 : 1 ≤ x := hp.1
    have hab := hr.lt_above h hp
    have hD := (h.col x j h1).1 hx
    have hf := fitC hi hr.two
    refine h.replace h1 hD.1 hD.2 hr.pos hr.even (le_of_lt (hp.2.2.2 hx)) (Or.inr hf.2) hf.1
  · exact h

theorem CReady.E_eq (h : SInc T E H f) (hr : CReady H f j a) (hp : Pos loC H (tr f) j a x) (hx : x = H j) : E x = j := by
  have h1 : 1 ≤ x := hp.1
  have hab := hr.lt_above h hp
  have e1 := (h.col x (j - 1) h1).1 hab.1
  have e2 := h.col x j h1
  omega

theorem finIncC (h : SInc T E H f) (hr : CReady H f j a) (hp : Pos loC H (tr f) j a x) (hx : x = H j) :
    SInc (nextTC T f j x a) (finE E (Fit loC (tr f) (tr f) j x a) x) (finE H (Fit loC (tr f) (tr f) j x a) j) (nextC f j x a) := by
  rw [nextC_eq]
  unfold nextTC finE
  have hE := hr.E_eq h hp hx
  have h1 : 1 ≤ x := hp.1
  split
  · rename_i hi
    have hf := fitC hi hr.two
    refine h.add h1 hE.symm hr.pos hr.even (Or.inr hf.2) ?_
    rcases Nat.eq_or_lt_of_le h1 with h0 | h0
    · exact Or.inl h0.symm
    · right
      have e1 := (h.col (x - 1) j (by omega)).1 (by omega)
      refine ⟨by omega, ?_⟩
      rcases hf.1 with h2 | h2
      · omega
      · exact h2
  · exact h

theorem colC1_eq (h : SInc T E H f) (hr : CReady H f j a) (hp : Pos loC H (tr f) j a x) (hx : x = H j) :
    colC1 (T.set (T.maxRow + 2, j) [a]) (T.maxRow + 2) j a ((List.range' 1 (H j - 1)).map (tr f j)) =
      some (⟨nextTC T f j x a, none⟩, (x, j)) := by
  have hH := h.H_le j
  have h1x : 1 ≤ x := hp.1
  have htwo := hr.two
  have hab := hr.lt_above h hp
  have hE := hr.E_eq h hp hx
  have hi1 : H j - 1 + 1 = x := by omega
  have hfil : (List.range' 1 (j - 1)).filter (fun y => (T.set (T.maxRow + 2, j) [a]).has (x, y)) =
      (List.range' 1 (j - 1)).filter (fun y => decide (x ≤ y)) := by
    apply List.filter_congr
    intro y hy
    rw [List.mem_range'_1] at hy
    rw [Bool.eq_iff_iff, has_stC h j a (by omega), decide_eq_true_eq]
    omega
  have hrow : entriesAt (T.set (T.maxRow + 2, j) [a])
      (((List.range' 1 (j - 1)).filter (fun y => decide (x ≤ y))).map (fun y => (x, y))) =
      some ((((List.range' 1 (j - 1)).filter (fun y => decide (x ≤ y))).map (fun y => (x, y))).map (fun b => f b.1 b.2)) := by
    apply entriesAt_eq
    intro b hb
    rw [List.mem_map] at hb
    obtain ⟨y, hy, rfl⟩ := hb
    rw [List.mem_filter, List.mem_range'_1, decide_eq_true_eq] at hy
    exact get_stC h j a h1x hy.2 (by omega)
  have hcond : allLt ((((List.range' 1 (j - 1)).filter (fun y => decide (x ≤ y))).map (fun y => (x, y))).map (fun b => f b.1 b.2))
      ((List.range' 1 (H j - 1)).map (tr f j)) a = true ↔ Fit loC (tr f) (tr f) j x a := by
    rw [allLt, Bool.and_eq_true, Fit, and_comm]
    apply and_congr
    · simp only [List.all_map, List.all_eq_true, List.mem_range'_1, Function.comp, decide_eq_true_eq, loC]
      constructor
      · intro hc
        rcases Nat.eq_or_lt_of_le h1x with h0 | h0
        · exact Or.inl (by omega)
        · exact Or.inr (hc (x - 1) (by omega))
      · rintro (h0 | h0) y hy
        · omega
        · exact lt_of_le_of_lt (h.arrC.rowLe (i := j) (by omega) hy.1 (by omega) (by omega)) h0
    · simp only [List.all_map, List.all_eq_true, List.mem_filter, List.mem_range'_1, Function.comp, decide_eq_true_eq, tr]
      constructor
      · intro hc
        exact Or.inr (hc (j - 1) (by omega))
      · rintro hc y hy
        rcases hc with hc | hc
        · omega
        · exact lt_of_le_of_lt (h.arrR.rowLe (i := x) (j := y) (j' := j - 1) h1x hy.2 (by omega) (by omega)) hc
  have hnone : T.get? (x, j) = none := h.get_none (by omega)
  have hne : ((T.maxRow + 2, j) : Nat × Nat) ≠ (x, j) := by
    intro hc
    have := congrArg Prod.fst hc
    simp only at this
    omega
  simp only [colC1, List.length_map, List.length_range', hi1, hfil, hrow]
  by_cases hi : Fit loC (tr f) (tr f) j x a
  · rw [if_pos (hcond.2 hi), nextTC, if_pos hi]
    have hadd : (T.set (T.maxRow + 2, j) [a]).add (x, j) a = (T.set (x, j) [a]).set (T.maxRow + 2, j) [a] := by
      rw [add_of_none, set_comm _ hne]
      rw [get?_set, if_neg (fun h => hne h.symm), hnone]
    rw [hadd, remove?, has_set]
    simp only [decide_true, Bool.true_or, if_true]
    rw [del_set]
    · simp [mkState, innerDims]
    · rw [get?_set, if_neg hne, h.outerC_none]
  · rw [if_neg (fun hc => hi (hcond.1 hc)), nextTC, if_neg hi]
    rw [remove?, has_set]
    simp only [decide_true, Bool.true_or, if_true]
    rw [del_set (h.outerC_none j)]
    simp [mkState, innerDims]

/-- The end of insertion after the diagonal transition D1. -/
theorem colC1_D1 (h : SInc T E H f) (h1 : 1 ≤ i) (hx : i + 1 < E i) (hd : E (i + 1) = i + 1) :
    colStep (stC T T.maxRow (i + 1) (f i (i + 1))) = some (⟨T, none⟩, (i + 1, i + 1)) := by
  have hH : H (i + 1) = i + 1 := by
    have e1 := h.col i (i + 1) h1
    have e2 := h.col (i + 1) (i + 1) (by omega)
    omega
  have hHl := h.H_le (i + 1)
  have hp : Pos loC H (tr f) (i + 1) (f i (i + 1)) (i + 1) := by
    refine ⟨show 1 ≤ i + 1 by omega, by omega, ?_, by omega⟩
    intro y hy1 hy2
    exact h.arrC.rowLe (i := i + 1) (j := y) (j' := i) (by omega) hy1 (by omega) (by omega)
  obtain ⟨a, ha⟩ : ∃ a, f i (i + 1) = a := ⟨_, rfl⟩
  rw [colStep_st h (by omega) hp, if_pos hH.symm]
  rw [ha]
  have hfil : (List.range' 1 i).filter (fun y => (T.set (T.maxRow + 2, i + 1) [a]).has (i + 1, y)) = [] := by
    rw [List.filter_eq_nil_iff]
    intro y hy hc
    rw [List.mem_range'_1] at hy
    have := (has_stC h (i + 1) a (by omega)).1 hc
    omega
  have hall : allLt [] ((List.range' 1 i).map (tr f (i + 1))) a = false := by
    rw [← Bool.not_eq_true, allLt, Bool.and_eq_true]
    intro hc
    have := hc.2
    simp only [List.all_map, List.all_eq_true, List.mem_range'_1, Function.comp, decide_eq_true_eq] at this
    have := this i (by omega)
    simp only [tr] at this
    omega
  simp only [colC1, List.length_map, List.length_range', hH, hfil, Nat.add_sub_cancel, List.map_nil, entriesAt, hall]
  rw [if_neg (by simp), remove?, has_set]
  simp only [decide_true, Bool.true_or, if_true]
  rw [del_set (h.outerC_none _)]
  simp [mkState, innerDims]

theorem colCond_eq (h : SInc T E H f) (hr : CReady H f j a) (hp : Pos loC H (tr f) j a x) (hx : x < H j) :
    colCond (T.set (T.maxRow + 2, j) [a]) x j a = some (decide (Fit loC (tr f) (tr f) j x a)) := by
  have h1x : 1 ≤ x := hp.1
  have htwo := hr.two
  have hab := hr.lt_above h hp
  have e1 := (h.col x (j - 1) h1x).1 hab.1
  have h1 : (if x = j then some true else entryLt (T.set (T.maxRow + 2, j) [a]) (x, j - 1) a) =
      some (decide (j = 1 ∨ tr f (j - 1) x < a)) := by
    have hne : j ≠ 1 := by omega
    rw [if_neg (by omega), entryLt, entry_of_get? (get_stC h j a h1x e1.1 e1.2)]
    simp [hne, tr]
  have h2 : (if x = 1 then some true else entryLt (T.set (T.maxRow + 2, j) [a]) (x - 1, j) a) =
      some (decide (x = loC j ∨ tr f j (x - 1) < a)) := by
    by_cases h0 : x = 1
    · simp [h0, loC]
    · have e2 := (h.col (x - 1) j (by omega)).1 (by omega)
      rw [if_neg h0, entryLt, entry_of_get? (get_stC h j a (by omega) e2.1 e2.2)]
      simp [h0, loC, tr]
  rw [colCond, h1, h2]
  by_cases c1 : j = 1 ∨ tr f (j - 1) x < a
  · simp only [c1, decide_true, Fit, and_true]
  · simp only [c1, decide_false, Fit, and_false]

/-- The bumped value goes to the next column. -/
theorem nextReadyC (h : SInc T E H f) (hr : CReady H f j a) (hp : Pos loC H (tr f) j a x) (hx : x < H j) :
    CReady H (nextC f j x a) (j + 1) (f x j) := by
  have htwo := hr.two
  have h1x : 1 ≤ x := hp.1
  have hD := (h.col x j h1x).1 hx
  have hlt : a < f x j := hp.2.2.2 hx
  refine ⟨by omega, h.pos _ _ h1x hD.1 hD.2, h.even _ _ h1x hD.1 hD.2, ?_, ?_⟩
  · rw [Nat.add_sub_cancel]
    refine ⟨x, h1x, hx, nextC_le hp hx, ?_, ?_⟩
    · intro hl
      rw [nextC_other (by omega)]
      exact h.arrC.row j x (by omega) h1x hl
    · intro hl
      rw [nextC_other (by omega)]
      exact h.arrC.col j x (by omega) h1x hx h1x hl
  · rw [Nat.add_sub_cancel]
    rcases Nat.eq_or_lt_of_le h1x with h0 | h0
    · have hfit : Fit loC (tr f) (tr f) j x a := by
        refine ⟨Or.inl h0.symm, Or.inr ?_⟩
        rw [← h0]; exact hr.first
      rw [nextC_eq, if_pos hfit, upd, if_pos ⟨h0, rfl⟩]
      exact hlt
    · rw [nextC_other (by omega)]
      exact h.arrC.rowLt (i := j) (j := 1) (j' := x) (by omega) (le_refl _) h0 hx

theorem colC23_eq (h : SInc T E H f) (hr : CReady H f j a) (hp : Pos loC H (tr f) j a x) (hx : x < H j) :
    colC23 (T.set (T.maxRow + 2, j) [a]) (T.maxRow + 2) j x a (f x j) =
      some (stC (nextTC T f j x a) T.maxRow (j + 1) (f x j), (x, j)) := by
  have htwo := hr.two
  have hH := h.H_le j
  have h1x : 1 ≤ x := hp.1
  have hD := (h.col x j h1x).1 hx
  have hne1 : ((T.maxRow + 2, j) : Nat × Nat) ≠ (T.maxRow + 2, j + 1) := by
    intro hc; have := congrArg Prod.snd hc; simp only at this; omega
  have hne2 : ((T.maxRow + 2, j) : Nat × Nat) ≠ (x, j) := by
    intro hc; have := congrArg Prod.fst hc; simp only at this; omega
  have hne3 : ((T.maxRow + 2, j + 1) : Nat × Nat) ≠ (x, j) := by
    intro hc; have := congrArg Prod.fst hc; simp only at this; omega
  have hinc := nextIncC h hr hp hx
  have hready := nextReadyC h hr hp hx
  have hmr' := hinc.maxRow_eq h
  have hmk : ∀ b, mkState ((nextTC T f j x a).set (T.maxRow + 2, j + 1) [b]) (some (T.maxRow + 2, j + 1)) =
      some (stC (nextTC T f j x a) T.maxRow (j + 1) b) := by
    intro b
    rw [← hmr']
    exact mkState_stC hinc (hready.le_E hinc)
  have hadd : (T.set (T.maxRow + 2, j) [a]).add (T.maxRow + 2, j + 1) (f x j) =
      (T.set (T.maxRow + 2, j + 1) [f x j]).set (T.maxRow + 2, j) [a] := by
    rw [add_of_none, set_comm _ hne1]
    rw [get?_set, if_neg (fun h => hne1 h.symm), h.outerC_none]
  rw [colC23, colCond_eq h hr hp hx]
  by_cases hi : Fit loC (tr f) (tr f) j x a
  · simp only [hi, decide_true, hadd]
    rw [replace?, if_pos]
    · simp only
      rw [remove?, if_pos]
      · simp only
        rw [set_comm _ hne2, set_comm _ hne3, del_set, show T.set (x, j) [a] = nextTC T f j x a by rw [nextTC, if_pos hi], hmk]
        · rfl
        · rw [get?_set, if_neg hne1, get?_set, if_neg hne2, h.outerC_none]
      · rw [has_set, has_set]; simp
    · rw [has_set, has_set, (h.has_iff x j).2 (by omega)]; simp
  · simp only [hi, decide_false, hadd]
    rw [remove?, if_pos]
    · simp only
      rw [del_set]
      · have : nextTC T f j x a = T := by rw [nextTC, if_neg hi]
        rw [this] at hmk ⊢
        rw [hmk]
        rfl
      · rw [get?_set, if_neg hne1, h.outerC_none]
    · rw [has_set]; simp

/-- The column phase starts after the diagonal transition D2. -/
theorem readyD2 (h : SInc T E H f) (hr : RReady E f i a) (hp : Pos loR E f i a i) (hx : i < E i) :
    CReady H (nextF loR f i i a) (i + 1) (f i i) := by
  have hone := hr.one
  have hlt : a < f i i := hp.2.2.2 hx
  have hH : H i = i + 1 := by
    have e1 := h.col i i hone
    have e2 := h.col (i + 1) i (by omega)
    omega
  refine ⟨by omega, h.pos _ _ hone (le_refl _) hx, h.even _ _ hone (le_refl _) hx, ?_, ?_⟩
  · rw [Nat.add_sub_cancel]
    refine ⟨i, hone, by omega, nextF_le hp hx, by omega, ?_⟩
    intro hl
    rw [nextF_other (by omega)]
    have := (h.col i (i + 1) hone).1 hl
    exact h.row i i hone (le_refl _) this.2
  · rw [Nat.add_sub_cancel]
    rcases Nat.eq_or_lt_of_le hone with h0 | h0
    · have hfit : Fit loR f f i i a := ⟨Or.inl rfl, Or.inl h0.symm⟩
      rw [nextF, if_pos hfit, upd, if_pos ⟨h0, rfl⟩]
      exact hlt
    · rw [nextF_other (by omega)]
      exact h.colLt (le_refl 1) h0 (le_refl _) hx

end Verif.FInsertion
