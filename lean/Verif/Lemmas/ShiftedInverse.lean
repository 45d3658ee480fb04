import Verif.Lemmas.ShiftedColumn

/-! The inverse transitions of `FState`. -/

namespace Verif.FInsertion

open Tab Lines
open Insertion hiding nextF nextF_other nextF_le nextT nextInc

variable {T T' : Tab} {E H : Nat → Nat} {f f' : Nat → Nat → Int} {i j x : Nat} {a b : Int}

theorem entryD_set_ne {T : Tab} {b b' : Nat × Nat} {l : List Int} {d : Int} (h : b ≠ b') :
    (T.set b' l).entryD b d = T.entryD b d := by
  rw [entryD, entryD, get?_set, if_neg h]

theorem SInc.entryD_in (h : SInc T E H f) (h1 : 1 ≤ i) (h2 : i ≤ j) (h3 : j < E i) : T.entryD (i, j) 0 = some (f i j) := by
  rw [entryD, h.get_some h1 h2 h3]

theorem SInc.entryD_out (h : SInc T E H f) (hn : ¬ (1 ≤ i ∧ i ≤ j ∧ j < E i)) : T.entryD (i, j) 0 = some 0 := by
  rw [entryD, h.get_none hn]

/-- The value that was inserted into row `i` without changing it. -/
theorem max_row (h : SInc T E H f) (hr : RReady E f i a) (hp : Pos loR E f i a x) (hix : i < x)
    (hn : ¬ Fit loR f f i x a) : ∃ v, T.entryD (i - 1, x) 0 = some v ∧ max (f i (x - 1)) v = a := by
  have hone := hr.one
  have hle := hp.2.2.1 (x - 1) (show i ≤ x - 1 by omega) (by omega)
  by_cases h0 : i = 1
  · refine ⟨0, h.entryD_out (by omega), ?_⟩
    have : ¬ f i (x - 1) < a := fun hc => hn ⟨Or.inr hc, Or.inl h0⟩
    have := hr.pos
    omega
  · have hab := hr.lt_above h hp h0
    refine ⟨f (i - 1) x, h.entryD_in (by omega) (by omega) hab.1, ?_⟩
    by_cases hc : f i (x - 1) < a
    · have : ¬ f (i - 1) x < a := fun hc' => hn ⟨Or.inr hc, Or.inr hc'⟩
      omega
    · omega

theorem one_lt_of_not_fit (hr : CReady H f j a) (hp : Pos loC H (tr f) j a x) (hn : ¬ Fit loC (tr f) (tr f) j x a) : 1 < x := by
  have h1 : 1 ≤ x := hp.1
  rcases Nat.eq_or_lt_of_le h1 with h0 | h0
  · exfalso
    apply hn
    refine ⟨Or.inl h0.symm, Or.inr ?_⟩
    rw [← h0]; exact hr.first
  · exact h0

/-- The value that was inserted into column `j` without changing it. -/
theorem max_col (h : SInc T E H f) (hr : CReady H f j a) (hp : Pos loC H (tr f) j a x)
    (hn : ¬ Fit loC (tr f) (tr f) j x a) : max (f (x - 1) j) (f x (j - 1)) = a := by
  have h1 := one_lt_of_not_fit hr hp hn
  have htwo := hr.two
  have hab := hr.lt_above h hp
  have hle : f (x - 1) j ≤ a := hp.2.2.1 (x - 1) (show 1 ≤ x - 1 by omega) (by omega)
  by_cases hc : f (x - 1) j < a
  · have : ¬ f x (j - 1) < a := fun hc' => hn ⟨Or.inr hc, Or.inr hc'⟩
    omega
  · omega

theorem lastLe_stR (h : SInc T E H f) (h1 : 1 ≤ i) (m : Nat) (c : Int) (hx : x < E i)
    (hle : ∀ y, i ≤ y → y ≤ x → f i y ≤ b) (hlt : x + 1 < E i → b < f i (x + 1)) :
    ∀ d y fuel, y + d = x → i ≤ y → d < fuel → lastLe (T.set (m, E 1 + 1) [c]) i b fuel y = some x := by
  intro d
  have hE : ∀ y, i ≤ y → y ≤ x → y < E 1 := by
    intro y hy1 hy2
    exact h.up' (i := 1) (i' := i) (le_refl 1) h1 hy1 (by omega)
  induction d with
  | zero =>
    intro y fuel hy hy1 hf
    obtain ⟨fuel, rfl⟩ := Nat.exists_eq_succ_of_ne_zero (show fuel ≠ 0 by omega)
    have hxk : y = x := by omega
    subst hxk
    have := hE y hy1 (le_refl _)
    rw [lastLe]
    by_cases hc : y + 1 < E i
    · rw [if_pos ((has_stR h m c (by omega)).2 (by omega)), entry_of_get? (get_stR h m c h1 (by omega) hc)]
      have := hlt hc
      simp only
      rw [if_neg (by omega)]
    · rw [if_neg (by rw [has_stR h m c (by omega)]; omega)]
  | succ d ih =>
    intro y fuel hy hy1 hf
    obtain ⟨fuel, rfl⟩ := Nat.exists_eq_succ_of_ne_zero (show fuel ≠ 0 by omega)
    have := hE (y + 1) (by omega) (by omega)
    rw [lastLe, if_pos ((has_stR h m c (by omega)).2 (by omega)), entry_of_get? (get_stR h m c h1 (by omega) (by omega))]
    simp only
    rw [if_pos (hle (y + 1) (by omega) (by omega))]
    exact ih (y + 1) fuel (by omega) (by omega) (by omega)

theorem inverseRow_eq (h : SInc T E H f) (hr : RReady E f i a) (hp : Pos loR E f i a x) (hx : x < E i) (hix : i < x) :
    inverseRow (stR (nextT T f i x a) E (i + 1) (f i x)) = some (stR T E i a) := by
  have hone := hr.one
  have hinc := nextInc h hr hp hx
  have hb := hp.2.2.2 hx
  have hx1 := h.up' (i := 1) (i' := i) (le_refl 1) hone (show i ≤ x by omega) hx
  have he : ((nextT T f i x a).set (i + 1, E 1 + 1) [f i x]).entry (i + 1, E 1 + 1) =
      some (f i x) := entry_of_get? (by rw [get?_set]; simp)
  have hll := lastLe_stR (b := f i x) hinc hone (i + 1) (f i x) hx
    (by
      intro y hy1 hy2
      rcases Nat.eq_or_lt_of_le hy2 with rfl | hlt
      · exact nextF_le hp hx
      · rw [nextF_other (by omega)]
        exact h.arrR.rowLe hone hy1 hy2 hx)
    (by
      intro hc
      rw [nextF_other (by omega)]
      exact h.row _ _ hone (by omega) hc) (x - i) i (E 1 + 1) (by omega) (le_refl _) (by omega)
  simp only [inverseRow, stR, he, Nat.add_sub_cancel]
  simp only [hll, entry_of_get? (get_stR hinc (i + 1) (f i x) hone (show i ≤ x by omega) hx)]
  rw [if_pos (by omega)]
  have hrem : ((nextT T f i x a).set (i + 1, E 1 + 1) [f i x]).remove? (i + 1, E 1 + 1) =
      some (nextT T f i x a) := by
    rw [remove?, if_pos (by rw [has_set]; simp), del_set (hinc.outerR_none (i + 1))]
  by_cases hi : Fit loR f f i x a
  · rw [if_neg (by rw [nextF, if_pos hi, upd, if_pos ⟨rfl, rfl⟩]; omega), hrem]
    simp only
    rw [replace?, if_pos ((hinc.has_iff _ _).2 (by omega))]
    simp only
    have e1 : (nextT T f i x a).set (i, x) [f i x] = T := by
      rw [nextT, if_pos hi, set_set, set_get (h.get_some hone (by omega) hx)]
    have e2 : nextF loR f i x a i x = a := by rw [nextF, if_pos hi, upd, if_pos ⟨rfl, rfl⟩]
    rw [e1, e2, add_of_none (h.outerR_none i), mkState_stR h (hr.le_maxRow h)]
    rfl
  · have hT : nextT T f i x a = T := by rw [nextT, if_neg hi]
    have hF : nextF loR f i x a = f := by rw [nextF, if_neg hi]
    rw [hF, if_pos rfl]
    rw [hT] at hrem ⊢
    obtain ⟨v, hv1, hv2⟩ := max_row h hr hp hix hi
    have e1 : (T.set (i + 1, E 1 + 1) [f i x]).entry (i, x - 1) = some (f i (x - 1)) :=
      entry_of_get? (get_stR h (i + 1) _ hone (by omega) (by omega))
    have e2 : (T.set (i + 1, E 1 + 1) [f i x]).entryD (i + 1 - 2, x) 0 = some v := by
      rw [entryD_set_ne, ← hv1]
      · rfl
      · intro hc; have := congrArg Prod.snd hc; simp only at this; omega
    rw [e1, e2, hrem]
    simp only
    rw [hv2, add_of_none (h.outerR_none i), mkState_stR h (hr.le_maxRow h)]
    rfl

theorem lastLe_stC (h : SInc T E H f) {c' : Nat} (c : Int) (j : Nat) (hx : x < H c')
    (hle : ∀ y, 1 ≤ y → y ≤ x → f y c' ≤ b) (hlt : x + 1 < H c' → b < f (x + 1) c') :
    ∀ d y fuel, y + d = x → 1 ≤ y → d < fuel → lastLeCol (T.set (T.maxRow + 2, j) [c]) c' b fuel y = some x := by
  intro d
  have hH := h.H_le c'
  induction d with
  | zero =>
    intro y fuel hy hy1 hf
    obtain ⟨fuel, rfl⟩ := Nat.exists_eq_succ_of_ne_zero (show fuel ≠ 0 by omega)
    have hxk : y = x := by omega
    subst hxk
    rw [lastLeCol]
    have hcol := h.col (y + 1) c' (by omega)
    by_cases hc : y + 1 < H c'
    · have hD := hcol.1 hc
      rw [if_pos ((has_stC h j c (by omega)).2 (by omega)), entry_of_get? (get_stC h j c (by omega) hD.1 hD.2)]
      have := hlt hc
      simp only
      rw [if_neg (by omega)]
    · rw [if_neg (by rw [has_stC h j c (by omega)]; omega)]
  | succ d ih =>
    intro y fuel hy hy1 hf
    obtain ⟨fuel, rfl⟩ := Nat.exists_eq_succ_of_ne_zero (show fuel ≠ 0 by omega)
    have hD := (h.col (y + 1) c' (by omega)).1 (by omega)
    rw [lastLeCol, if_pos ((has_stC h j c (by omega)).2 (by omega)), entry_of_get? (get_stC h j c (by omega) hD.1 hD.2)]
    simp only
    rw [if_pos (hle (y + 1) (by omega) (by omega))]
    exact ih (y + 1) fuel (by omega) (by omega) (by omega)

/-- Undoing C2 and C3. -/
theorem inverseCol_eq (h : SInc T E H f) (hr : CReady H f j a) (hp : Pos loC H (tr f) j a x) (hx : x < H j) :
    inverseCol (stC (nextTC T f j x a) T.maxRow (j + 1) (f x j)) = some (stC T T.maxRow j a) := by
  have htwo := hr.two
  have h1x : 1 ≤ x := hp.1
  have hD := (h.col x j h1x).1 hx
  have hab := hr.lt_above h hp
  have hDl := (h.col x (j - 1) h1x).1 hab.1
  have hinc := nextIncC h hr hp hx
  have hmr := hinc.maxRow_eq h
  have hH := h.H_le j
  have hb : a < f x j := hp.2.2.2 hx
  have he : ((nextTC T f j x a).set (T.maxRow + 2, j + 1) [f x j]).entry (T.maxRow + 2, j + 1) =
      some (f x j) := entry_of_get? (by rw [get?_set]; simp)
  have hll := lastLe_stC (b := f x j) (c' := j) hinc (f x j) (j + 1) hx
    (by
      intro y hy1 hy2
      rcases Nat.eq_or_lt_of_le hy2 with rfl | hlt
      · exact nextC_le hp hx
      · rw [nextC_other (by omega)]
        exact h.arrC.rowLe (i := j) (by omega) hy1 hy2 hx)
    (by
      intro hc
      rw [nextC_other (by omega)]
      exact h.arrC.row j x (by omega) h1x hc) (x - 1) 1 (T.maxRow + 2) (by omega) (le_refl _) (by omega)
  have he2 := entry_of_get? (get_stC hinc (j + 1) (f x j) h1x hD.1 hD.2)
  rw [hmr] at hll he2
  have hrem : ((nextTC T f j x a).set (T.maxRow + 2, j + 1) [f x j]).remove? (T.maxRow + 2, j + 1) =
      some (nextTC T f j x a) := by
    have := hinc.outerC_none (j + 1)
    rw [hmr] at this
    rw [remove?, if_pos (by rw [has_set]; simp), del_set this]
  have hne : x ≠ j := by omega
  simp only [inverseCol, stC, he, Nat.add_sub_cancel, hll, he2, hrem, hne, false_and, if_false]
  by_cases hi : Fit loC (tr f) (tr f) j x a
  · have e2 : nextC f j x a x j = a := by rw [nextC_eq, if_pos hi, upd, if_pos ⟨rfl, rfl⟩]
    rw [e2, if_neg (by omega)]
    rw [replace?, if_pos ((hinc.has_iff _ _).2 (by omega))]
    simp only
    have e1 : (nextTC T f j x a).set (x, j) [f x j] = T := by
      rw [nextTC, if_pos hi, set_set, set_get (h.get_some h1x (by omega) hD.2)]
    rw [e1, add_of_none (h.outerC_none j), mkState_stC h (hr.le_E h)]
    rfl
  · have hT : nextTC T f j x a = T := by rw [nextTC, if_neg hi]
    have hF : nextC f j x a = f := by rw [nextC_eq, if_neg hi]
    have h1 := one_lt_of_not_fit hr hp hi
    rw [hF, if_pos rfl]
    rw [hT] at hrem ⊢
    have hDu := (h.col (x - 1) j (by omega)).1 (by omega)
    have e1 : (T.set (T.maxRow + 2, j + 1) [f x j]).entry (x - 1, j) = some (f (x - 1) j) :=
      entry_of_get? (get_stC h (j + 1) _ (by omega) hDu.1 hDu.2)
    have e2 : (T.set (T.maxRow + 2, j + 1) [f x j]).entryD (x, j + 1 - 2) 0 = some (f x (j - 1)) := by
      rw [entryD_set_ne, show j + 1 - 2 = j - 1 from rfl, h.entryD_in h1x hDl.1 hDl.2]
      intro hc; have := congrArg Prod.fst hc; simp only at this; omega
    rw [e1, e2]
    simp only
    rw [max_col h hr hp hi, add_of_none (h.outerC_none j), mkState_stC h (hr.le_E h)]
    rfl

theorem rowState_eq (h : SInc T E H f) (hr : RReady E f i a) : rowState T i a = some (stR T E i a) := by
  have h0 := h.lo 1 (le_refl _)
  have h3 : E 1 - 1 + 2 = E 1 + 1 := by omega
  rw [rowState, h.maxColumn, h3, add_of_none (h.outerR_none i), mkState_stR h (hr.le_maxRow h)]

theorem SInc.H_diag (h : SInc T E H f) (h1 : 1 ≤ i) (hx : i < E i) : H i = i + 1 := by
  have e1 := h.col i i h1
  have e2 := h.col (i + 1) i (by omega)
  omega

/-- Undoing D1. -/
theorem inverseCol_D1 (h : SInc T E H f) (hr : RReady E f i a) (hp : Pos loR E f i a (i + 1)) (hx : i + 1 < E i)
    (hn : ¬ Fit loR f f i (i + 1) a) :
    inverseCol (stC T T.maxRow (i + 1) (f i (i + 1))) = some (stR T E i a) := by
  have hone := hr.one
  have hHd := h.H_diag hone (by omega)
  have hH := h.H_le i
  have hlt := h.row i i hone (le_refl _) hx
  have he : (T.set (T.maxRow + 2, i + 1) [f i (i + 1)]).entry (T.maxRow + 2, i + 1) =
      some (f i (i + 1)) := entry_of_get? (by rw [get?_set]; simp)
  have hll := lastLe_stC (b := f i (i + 1)) (c' := i) h (f i (i + 1)) (i + 1) (x := i) (by omega)
    (by
      intro y hy1 hy2
      exact le_trans (h.arrC.rowLe (i := i) hone hy1 hy2 (by omega)) (le_of_lt hlt))
    (by omega) (i - 1) 1 (T.maxRow + 2) (by omega) (le_refl _) (by omega)
  have he1 := entry_of_get? (get_stC h (i + 1) (f i (i + 1)) hone (le_refl i) (by omega))
  have he2 := entry_of_get? (get_stC h (i + 1) (f i (i + 1)) hone (show i ≤ i + 1 by omega) hx)
  have hrem : (T.set (T.maxRow + 2, i + 1) [f i (i + 1)]).remove? (T.maxRow + 2, i + 1) = some T := by
    rw [remove?, if_pos (by rw [has_set]; simp), del_set (h.outerC_none _)]
  obtain ⟨v, hv1, hv2⟩ := max_row h hr hp (by omega) hn
  have hev := h.even i (i + 1) hone (by omega) hx
  simp only [inverseCol, stC, he, Nat.add_sub_cancel, hll, he1, he2, hrem, hev, and_self, if_true]
  rw [entry_of_get? (h.get_some hone (le_refl _) (by omega)), show i + 1 - 2 = i - 1 from rfl, hv1]
  simp only
  rw [Nat.add_sub_cancel] at hv2
  rw [hv2, rowState_eq h hr]

/-- Undoing D2. -/
theorem inverseCol_D2 (h : SInc T E H f) (hr : RReady E f i a) (hp : Pos loR E f i a i) (hx : i < E i) :
    inverseCol (stC (nextT T f i i a) T.maxRow (i + 1) (f i i)) = some (stR T E i a) := by
  have hone := hr.one
  have hHd := h.H_diag hone hx
  have hH := h.H_le i
  have hb : a < f i i := hp.2.2.2 hx
  have hinc := nextInc h hr hp hx
  have hmr := hinc.maxRow_eq h
  have him := (h.row_iff hone).1 hx
  have he : ((nextT T f i i a).set (T.maxRow + 2, i + 1) [f i i]).entry (T.maxRow + 2, i + 1) =
      some (f i i) := entry_of_get? (by rw [get?_set]; simp)
  have hll := lastLe_stC (b := f i i) (c' := i) hinc (f i i) (i + 1) (x := i) (by omega)
    (by
      intro y hy1 hy2
      rcases Nat.eq_or_lt_of_le hy2 with rfl | hlt
      · exact nextF_le hp hx
      · rw [nextF_other (by omega)]
        exact h.arrC.rowLe (i := i) hone hy1 hy2 (by omega))
    (by omega) (i - 1) 1 (T.maxRow + 2) (by omega) (le_refl _) (by omega)
  have he1 := entry_of_get? (get_stC hinc (i + 1) (f i i) hone (le_refl i) hx)
  rw [hmr] at hll he1
  have he2 : ((nextT T f i i a).set (T.maxRow + 2, i + 1) [f i i]).entry (i, i + 1) ≠ some (f i i) := by
    by_cases hc : i + 1 < E i
    · have := entry_of_get? (get_stC hinc (i + 1) (f i i) hone (show i ≤ i + 1 by omega) hc)
      rw [hmr] at this
      rw [this, nextF_other (by omega)]
      have := h.row i i hone (le_refl _) hc
      intro h0
      rw [Option.some.injEq] at h0
      omega
    · have : ((nextT T f i i a).set (T.maxRow + 2, i + 1) [f i i]).get? (i, i + 1) = none := by
        rw [get?_set, if_neg, hinc.get_none (by omega)]
        intro hc; have := congrArg Prod.fst hc; simp only at this; omega
      rw [entry, this]
      simp
  have hrem : ((nextT T f i i a).set (T.maxRow + 2, i + 1) [f i i]).remove? (T.maxRow + 2, i + 1) =
      some (nextT T f i i a) := by
    have := hinc.outerC_none (i + 1)
    rw [hmr] at this
    rw [remove?, if_pos (by rw [has_set]; simp), del_set this]
  have hev := h.even i i hone (le_refl _) hx
  simp only [inverseCol, stC, he, Nat.add_sub_cancel, hll, he1, he2, hrem, hev, true_and, false_and, and_false, if_false, ne_eq,
    not_true_eq_false, and_true]
  by_cases hi : Fit loR f f i i a
  · have e2 : nextF loR f i i a i i = a := by rw [nextF, if_pos hi, upd, if_pos ⟨rfl, rfl⟩]
    rw [e2, if_neg (by omega)]
    simp only
    rw [if_pos hb, replace?, if_pos]
    · simp only
      rw [set_comm _ (by intro hc; have := congrArg Prod.fst hc; simp only at this; omega)]
      have e1 : (nextT T f i i a).set (i, i) [f i i] = T := by
        rw [nextT, if_pos hi, set_set, set_get (h.get_some hone (le_refl _) hx)]
      rw [e1, remove?, if_pos (by rw [has_set]; simp), del_set (h.outerC_none _)]
      simp only
      exact rowState_eq h hr
    · rw [has_set, (hinc.has_iff _ _).2 (by omega)]; simp
  · have hT : nextT T f i i a = T := by rw [nextT, if_neg hi]
    have hF : nextF loR f i i a = f := by rw [nextF, if_neg hi]
    have h0 : i ≠ 1 := fun h0 => hi ⟨Or.inl rfl, Or.inl h0⟩
    have hab := hr.lt_above h hp h0
    have heq : f (i - 1) i = a := by
      have : ¬ f (i - 1) i < a := fun h0 => hi ⟨Or.inl rfl, Or.inr h0⟩
      omega
    rw [hF, if_pos rfl, hT]
    have e1 : (T.set (T.maxRow + 2, i + 1) [f i i]).entry (i + 1 - 2, i) = some a := by
      rw [← heq]
      exact entry_of_get? (get_stC h (i + 1) (f i i) (i' := i - 1) (j' := i) (by omega) (by omega) hab.1)
    have e2 : T.entry (i + 1 - 2, i) = some a := by
      rw [← heq]
      exact entry_of_get? (h.get_some (i := i - 1) (j := i) (by omega) (by omega) hab.1)
    rw [e1]
    simp only [Option.map_some, hr.even, decide_true, e2]
    exact rowState_eq h hr

/-! ## Undoing the last transition -/

theorem SInc.climb_eq (h : SInc T E H f) {c : Nat} (hi1 : 1 ≤ i) (hic : i ≤ c) (hE : E i = c + 1)
    (htop : i ≠ 1 → c + 1 < E (i - 1)) : ∀ d, i + d < H c → climb T c (i + d) = i := by
  intro d
  induction d with
  | zero =>
    intro _
    obtain ⟨k, rfl⟩ := Nat.exists_eq_succ_of_ne_zero (show i ≠ 0 by omega)
    rw [Nat.add_zero, Nat.succ_eq_add_one, climb, if_neg]
    rw [Bool.and_eq_true, h.has_iff, Bool.not_eq_true', ← Bool.not_eq_true, h.has_iff]
    intro hc
    have := htop (by omega)
    simp only [Nat.succ_eq_add_one, Nat.add_sub_cancel] at this
    omega
  | succ d ih =>
    intro hd
    have hD := (h.col (i + d) c (by omega)).1 (by omega)
    rw [← Nat.add_assoc, climb, if_pos, ih (by omega)]
    rw [Bool.and_eq_true, h.has_iff, Bool.not_eq_true', ← Bool.not_eq_true, h.has_iff]
    refine ⟨by omega, ?_⟩
    rintro ⟨h1, h2, h3⟩
    have := h.up' (i := i) (i' := i + d) hi1 (by omega) h2 h3
    omega

theorem SInc.moveLeft_eq (h : SInc T E H f) {c : Nat} (hi1 : 1 ≤ i) (hic : i < c)
    (hE : E (i + 1) = c) : ∀ d, c + d < E i → moveLeft T i (c + d) = c := by
  intro d
  induction d with
  | zero =>
    intro _
    obtain ⟨k, rfl⟩ := Nat.exists_eq_succ_of_ne_zero (show c ≠ 0 by omega)
    rw [Nat.add_zero, Nat.succ_eq_add_one, moveLeft, if_neg]
    rw [Bool.and_eq_true, Bool.and_eq_true, h.has_iff, Bool.not_eq_true', ← Bool.not_eq_true, h.has_iff, decide_eq_true_eq]
    intro hc
    apply hc.1.2
    omega
  | succ d ih =>
    intro hd
    rw [← Nat.add_assoc, moveLeft, if_pos, ih (by omega)]
    rw [Bool.and_eq_true, Bool.and_eq_true, h.has_iff, Bool.not_eq_true', ← Bool.not_eq_true, h.has_iff, decide_eq_true_eq]
    omega

/-- The record of an insertion: the new number is `n`, with the given sign. -/
def Rec (neg : Bool) (s : List Int) : Prop :=
  ∃ n : Nat, 0 < n ∧ (if neg then -(n : Int) else n) ∈ s ∧ (if neg then (n : Int) else -n) ∉ s ∧ ∀ v ∈ s, v.natAbs ≤ n

theorem Rec.max {neg : Bool} {s : List Int} (h : Rec neg s) :
    ∃ n : Nat, 0 < n ∧ (s.dedup.map Int.natAbs).max? = some n ∧ (if neg then -(n : Int) else n) ∈ s.dedup ∧
      (if neg then (n : Int) else -n) ∉ s.dedup := by
  obtain ⟨n, h0, h1, h2, h3⟩ := h
  refine ⟨n, h0, ?_, List.mem_dedup.2 h1, fun h => h2 (List.mem_dedup.1 h)⟩
  rw [List.max?_eq_some_iff]
  constructor
  · rw [List.mem_map]
    refine ⟨_, List.mem_dedup.2 h1, ?_⟩
    split <;> omega
  · intro b hb
    rw [List.mem_map] at hb
    obtain ⟨v, hv, rfl⟩ := hb
    exact h3 v (List.mem_dedup.1 hv)

/-- Row insertion has ended with a new box. -/
theorem inverseTerminal_row_new (h : SInc T E H f) (hr : RReady E f i a) (hx : x = E i) (hi : Fit loR f f i x a) {s : List Int}
    (hs : Rec false s) (hl : s.dedup.length = 1) :
    inverseTerminal ⟨nextT T f i x a, none⟩ ((i, x), s) = some (stR T E i a) := by
  obtain ⟨n, h0, hm, hn1, hn2⟩ := hs.max
  simp only [Bool.false_eq_true, if_false] at hn1 hn2
  have hnone : T.get? (i, x) = none := h.get_none (by omega)
  have e1 : (nextT T f i x a).entry (i, x) = some a := by
    rw [nextT, if_pos hi]; exact entry_of_get? (by rw [get?_set]; simp)
  have e2 : (nextT T f i x a).remove? (i, x) = some T := by
    rw [nextT, if_pos hi, remove?, if_pos (by rw [has_set]; simp), del_set hnone]
  simp only [inverseTerminal, hm, e1, e2, hn1, hn2, hl, and_false, true_and, if_false, if_true]
  exact rowState_eq h hr

/-- Without a new box the last row is not empty. -/
theorem lt_of_not_fit (hr : RReady E f i a) (hp : Pos loR E f i a x) (hx : x = E i) (hn : ¬ Fit loR f f i x a) : i < x := by
  have hlo : i ≤ x := hp.1
  rcases Nat.eq_or_lt_of_le hlo with h0 | h0
  · exfalso
    apply hn
    refine ⟨Or.inl h0.symm, ?_⟩
    rcases hr.diag with h1 | h1 | h1
    · exact Or.inl h1
    · omega
    · right; rw [← h0]; exact h1
  · exact h0

/-- Row insertion has ended without a new box. -/
theorem inverseTerminal_row_old (h : SInc T E H f) (hr : RReady E f i a) (hp : Pos loR E f i a x) (hx : x = E i)
    (hi : ¬ Fit loR f f i x a) {s : List Int} (hs : Rec false s) (hl : 1 < s.dedup.length) :
    inverseTerminal ⟨nextT T f i x a, none⟩ ((H (x - 1) - 1, x - 1), s) = some (stR T E i a) := by
  obtain ⟨n, h0, hm, hn1, hn2⟩ := hs.max
  simp only [Bool.false_eq_true, if_false] at hn1 hn2
  have hone := hr.one
  have hix := lt_of_not_fit hr hp hx hi
  have hT : nextT T f i x a = T := by rw [nextT, if_neg hi]
  have hHx := (h.col i (x - 1) hone).2 (by omega)
  have hc : climb T (x - 1) (H (x - 1) - 1) = i := by
    obtain ⟨d, hd⟩ := Nat.exists_eq_add_of_le (show i ≤ H (x - 1) - 1 by omega)
    rw [hd]
    apply h.climb_eq hone (by omega) (by omega) _ d (by omega)
    intro h1
    have := (hr.lt_above h hp h1).1
    omega
  obtain ⟨v, hv1, hv2⟩ := max_row h hr hp hix hi
  have e1 : T.entry (i, x - 1) = some (f i (x - 1)) := entry_of_get? (h.get_some hone (by omega) (by omega))
  have hx1 : x - 1 + 1 = x := by omega
  have hl1 : s.dedup.length ≠ 1 := by omega
  rw [hT]
  simp only [inverseTerminal, hm, hn1, hn2, hl, hl1, and_false, false_and, and_true, if_false, if_true, hc, e1, hx1, hv1, hv2]
  exact rowState_eq h hr

/-- Column insertion has ended with a new box. -/
theorem inverseTerminal_col_new (h : SInc T E H f) (hr : CReady H f j a) (hp : Pos loC H (tr f) j a x) (hx : x = H j)
    (hi : Fit loC (tr f) (tr f) j x a) {s : List Int} (hs : Rec true s) (hl : s.dedup.length = 1) :
    inverseTerminal ⟨nextTC T f j x a, none⟩ ((x, j), s) = some (stC T T.maxRow j a) := by
  obtain ⟨n, h0, hm, hn1, hn2⟩ := hs.max
  simp only [if_true] at hn1 hn2
  have hE := hr.E_eq h hp hx
  have hnone : T.get? (x, j) = none := h.get_none (by omega)
  have e1 : (nextTC T f j x a).entry (x, j) = some a := by
    rw [nextTC, if_pos hi]; exact entry_of_get? (by rw [get?_set]; simp)
  have e2 : (nextTC T f j x a).remove? (x, j) = some T := by
    rw [nextTC, if_pos hi, remove?, if_pos (by rw [has_set]; simp), del_set hnone]
  simp only [inverseTerminal, hm, e1, e2, hn1, hn2, hl, and_false, true_and, false_and, if_false, if_true]
  rw [add_of_none (h.outerC_none j), mkState_stC h (hr.le_E h)]

/-- Column insertion has ended without a new box. -/
theorem inverseTerminal_col_old (h : SInc T E H f) (hr : CReady H f j a) (hp : Pos loC H (tr f) j a x) (hx : x = H j)
    (hi : ¬ Fit loC (tr f) (tr f) j x a) {s : List Int} (hs : Rec true s) (hl : 1 < s.dedup.length) :
    inverseTerminal ⟨nextTC T f j x a, none⟩ ((x - 1, E (x - 1) - 1), s) = some (stC T T.maxRow j a) := by
  obtain ⟨n, h0, hm, hn1, hn2⟩ := hs.max
  simp only [if_true] at hn1 hn2
  have hE := hr.E_eq h hp hx
  have htwo := hr.two
  have h1 := one_lt_of_not_fit hr hp hi
  have hT : nextTC T f j x a = T := by rw [nextTC, if_neg hi]
  have hab := hr.lt_above h hp
  have hDu := (h.col (x - 1) j (by omega)).1 (by omega)
  have hx1 : x - 1 + 1 = x := by omega
  have hc : moveLeft T (x - 1) (E (x - 1) - 1) = j := by
    obtain ⟨d, hd⟩ := Nat.exists_eq_add_of_le (show j ≤ E (x - 1) - 1 by omega)
    rw [hd]
    exact h.moveLeft_eq (by omega) (by omega) (by rw [hx1]; exact hE) d (by omega)
  have e1 : T.entry (x - 1, j) = some (f (x - 1) j) := entry_of_get? (h.get_some (by omega) hDu.1 hDu.2)
  have e2 : T.entryD (x, j - 1) 0 = some (f x (j - 1)) := h.entryD_in (by omega) (by omega) (by omega)
  have hl1 : s.dedup.length ≠ 1 := by omega
  rw [hT]
  simp only [inverseTerminal, hm, hn1, hn2, hl, hl1, and_false, false_and, and_true, if_false, if_true, hc, e1, hx1, e2,
    max_col h hr hp hi]
  rw [add_of_none (h.outerC_none j), mkState_stC h (hr.le_E h)]

/-- Insertion has ended after the diagonal transition D1. -/
theorem inverseTerminal_D1 (h : SInc T E H f) (h1 : 1 ≤ i) (hx : i + 1 < E i) (hd : E (i + 1) = i + 1) {s : List Int}
    (hs : Rec true s) (hl : 1 < s.dedup.length) :
    inverseTerminal ⟨T, none⟩ ((i, E i - 1), s) = some (stC T T.maxRow (i + 1) (f i (i + 1))) := by
  obtain ⟨n, h0, hm, hn1, hn2⟩ := hs.max
  simp only [if_true] at hn1 hn2
  have hc : moveLeft T i (E i - 1) = i + 1 := by
    obtain ⟨d, hd'⟩ := Nat.exists_eq_add_of_le (show i + 1 ≤ E i - 1 by omega)
    rw [hd']
    exact h.moveLeft_eq h1 (by omega) hd d (by omega)
  have e1 : T.entry (i, i + 1) = some (f i (i + 1)) := entry_of_get? (h.get_some h1 (by omega) hx)
  have e2 : T.entryD (i + 1, i) 0 = some 0 := h.entryD_out (by omega)
  have hl1 : s.dedup.length ≠ 1 := by omega
  have hmax : max (f i (i + 1)) 0 = f i (i + 1) := by have := h.pos i (i + 1) h1 (by omega) hx; omega
  have hE1 := h.up' (i := 1) (i' := i) (j := i + 1) (le_refl 1) h1 (by omega) hx
  simp only [inverseTerminal, hm, hn1, hn2, hl, hl1, and_false, false_and, and_true, if_false, if_true, hc, e1, e2,
    Nat.add_sub_cancel, hmax]
  rw [add_of_none (h.outerC_none _), mkState_stC h (by omega)]

/-! ## The box of the new number in the recording tableau -/

theorem recordBox_new {neg : Bool} {b : Nat × Nat} (h : T.has b = true) : recordBox T neg b = some b := by
  rw [recordBox, if_pos h]

theorem recordBox_row (h : SInc T E H f) (hi : 1 ≤ i) (hix : i < x) (hx : x = E i) :
    recordBox T false (i, x) = some (H (x - 1) - 1, x - 1) := by
  rw [recordBox, if_neg (by rw [h.has_iff]; omega), if_neg (by simp)]
  have hHx := (h.col i (x - 1) hi).2 (by omega)
  have : (((T.items.map Prod.fst).filter (fun c => decide (c.2 + 1 = x))).map Prod.fst).max? = some (H (x - 1) - 1) := by
    rw [List.max?_eq_some_iff]
    constructor
    · rw [List.mem_map]
      refine ⟨(H (x - 1) - 1, x - 1), ?_, rfl⟩
      have := (h.col (H (x - 1) - 1) (x - 1) (by omega)).1 (by omega)
      rw [List.mem_filter, mem_keys, h.has_iff]
      exact ⟨by omega, by simp; omega⟩
    · intro b hb
      rw [List.mem_map] at hb
      obtain ⟨⟨i', j'⟩, hb, rfl⟩ := hb
      rw [List.mem_filter, mem_keys, h.has_iff, decide_eq_true_eq] at hb
      simp only at hb ⊢
      have := (h.col i' (x - 1) hb.1.1).2 (by rw [show x - 1 = j' by omega]; exact hb.1.2)
      omega
  simp only [this, Option.map_some]

theorem recordBox_col (h : SInc T E H f) (hx1 : 1 < x) (hn : E x ≤ j) (hl : x - 1 < E (x - 1)) :
    recordBox T true (x, j) = some (x - 1, E (x - 1) - 1) := by
  rw [recordBox, if_neg (by rw [h.has_iff]; omega), if_pos rfl]
  have : (((T.items.map Prod.fst).filter (fun c => decide (c.1 + 1 = x))).map Prod.snd).max? = some (E (x - 1) - 1) := by
    rw [List.max?_eq_some_iff]
    constructor
    · rw [List.mem_map]
      refine ⟨(x - 1, E (x - 1) - 1), ?_, rfl⟩
      rw [List.mem_filter, mem_keys, h.has_iff]
      exact ⟨by omega, by simp; omega⟩
    · intro b hb
      rw [List.mem_map] at hb
      obtain ⟨⟨i', j'⟩, hb, rfl⟩ := hb
      rw [List.mem_filter, mem_keys, h.has_iff, decide_eq_true_eq] at hb
      simp only at hb ⊢
      have : i' = x - 1 := by omega
      subst this
      omega
  simp only [this, Option.map_some]

end Verif.FInsertion
