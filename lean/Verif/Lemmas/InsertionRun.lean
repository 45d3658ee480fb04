import Verif.Lemmas.Insertion

/-! Hecke insertion of one letter, and its inverse. -/

namespace Verif.Insertion

open Tab

variable {T : Tab} {lam : Nat → Nat} {f : Nat → Nat → Int} {r k : Nat} {a : Int}

theorem next_st (h : Inc T lam f) (hr : Ready lam f r a) :
    (st T lam r a).next = (rowTransition (st T lam r a)).map (fun q => (q.1, some q.2)) := by
  rw [HState.next, outerInLastColumn_st h hr.row_pos, if_pos rfl]

theorem previous_st (h : Inc T lam f) (hr : Ready lam f (r + 1) a) (o : Option ((Nat × Nat) × List Int)) :
    (st T lam (r + 1) a).previous o = inverseRow (st T lam (r + 1) a) := by
  rw [HState.previous, isInitial_st, outerInLastColumn_st h hr.row_pos]
  simp

/-- The row lengths after the last step. -/
def finLam (lam : Nat → Nat) (f : Nat → Nat → Int) (r : Nat) (a : Int) (i : Nat) : Nat :=
  if Insertable f r (lam (r + 1)) a ∧ i = r + 1 then lam (r + 1) + 1 else lam i

theorem path_final (h : Inc T lam f) (hr : Ready lam f r a) (hk : Cnt lam f (r + 1) a (lam (r + 1))) (fuel : Nat) :
    path (fuel + 2) (st T lam r a) =
      some [(⟨nextT T f r (lam (r + 1)) a, none⟩, (r + 1, lam (r + 1) + 1))] := by
  rw [path, next_st h hr, rowTransition_st h r a hk, if_pos rfl, transitionR1_eq h hr hk rfl]
  simp only [Option.map_some]
  rw [path, HState.next, outerInLastColumn_none]
  rfl

theorem finInc (h : Inc T lam f) (hr : Ready lam f r a) (hk : Cnt lam f (r + 1) a (lam (r + 1))) :
    Inc (nextT T f r (lam (r + 1)) a) (finLam lam f r a) (nextF f r (lam (r + 1)) a) := by
  by_cases hi : Insertable f r (lam (r + 1)) a
  · have e1 : finLam lam f r a = fun i => if i = r + 1 then lam (r + 1) + 1 else lam i := by
      funext i; simp [finLam, hi]
    rw [e1, nextT, if_pos hi, nextF, if_pos hi]
    have hab := fun h1 => Ready.lt_above h hr hk h1
    generalize hm : lam (r + 1) = m at *
    obtain ⟨hi1, hi2⟩ := hi
    constructor
    · intro i j
      rw [get?_set]
      by_cases hc : i = r + 1 ∧ j = m + 1
      · rw [if_pos (by rw [hc.1, hc.2]), if_pos (by rw [hc.1, hc.2]; simp), updF, if_pos hc]
      · rw [if_neg (by rw [Prod.mk.injEq]; exact hc), h.get, updF, if_neg hc]
        have : (1 ≤ i ∧ 1 ≤ j ∧ j ≤ lam i) ↔ (1 ≤ i ∧ 1 ≤ j ∧ j ≤ if i = r + 1 then m + 1 else lam i) := by
          split
          · rename_i h1; subst h1; omega
          · rfl
        simp only [this]
    · intro i hi
      have := h.anti i hi
      by_cases c1 : i + 1 = r + 1
      · have h1 : i = r := by omega
        subst h1
        rw [if_pos rfl, if_neg (by omega)]
        exact (hab hi).1
      · rw [if_neg c1]
        split
        · rename_i c2; subst c2; omega
        · exact this
    · intro i j h1 h2 h3
      unfold updF
      rw [if_neg (show ¬ (i = r + 1 ∧ j = m + 1) by rintro ⟨rfl, rfl⟩; rw [if_pos rfl] at h3; omega)]
      by_cases c2 : i = r + 1 ∧ j + 1 = m + 1
      · rw [if_pos c2]
        obtain ⟨rfl, c2⟩ := c2
        have : j = m := by omega
        subst this
        rcases hi1 with h0 | h0
        · omega
        · exact h0
      · rw [if_neg c2]
        apply h.row i j h1 h2
        split at h3
        · rename_i c3; subst c3; omega
        · exact h3
    · intro i j h1 h2 h3
      unfold updF
      have hne : ¬ (i = r + 1 ∧ j = m + 1) := by
        rintro ⟨rfl, rfl⟩
        rw [if_neg (by omega)] at h3
        have := h.anti (r + 1) (by omega)
        omega
      rw [if_neg hne]
      by_cases c2 : i + 1 = r + 1 ∧ j = m + 1
      · rw [if_pos c2]
        obtain ⟨c2, rfl⟩ := c2
        have : i = r := by omega
        subst this
        rcases hi2 with h0 | h0
        · omega
        · exact h0
      · rw [if_neg c2]
        apply h.col i j h1 h2
        split at h3
        · rename_i c3; rw [c3]; omega
        · exact h3
    · intro i j h1 h2 h3
      unfold updF
      split
      · exact hr.pos
      · apply h.pos i j h1 h2
        split at h3
        · rename_i c3; subst c3; omega
        · exact h3
  · have e1 : finLam lam f r a = lam := by funext i; simp [finLam, hi]
    rw [e1, nextT, if_neg hi, nextF, if_neg hi]
    exact h

theorem lam_of_not_insertable (hr : Ready lam f r a) (hi : ¬ Insertable f r (lam (r + 1)) a) : 1 ≤ lam (r + 1) := by
  by_contra hc
  have : lam (r + 1) = 0 := by omega
  rw [this] at hi
  exact hi (insertable_zero hr)

theorem exists_bottom (h : Inc T lam f) {k : Nat} (hk : 1 ≤ k) (hl : k ≤ lam (r + 1)) :
    ∃ M, r + 1 ≤ M ∧ k ≤ lam M ∧ lam (M + 1) < k := by
  by_contra hc
  push Not at hc
  have : ∀ d, k ≤ lam (r + 1 + d) := by
    intro d
    induction d with
    | zero => exact hl
    | succ d ih => exact hc (r + 1 + d) (by omega) ih
  have h1 := this (T.maxRow)
  have := h.lam_zero (i := r + 1 + T.maxRow) (by omega)
  omega

theorem recordBox_new {b : Nat × Nat} (h : T.has b = true) : recordBox T b = some b := by
  rw [recordBox, if_pos h]

theorem recordBox_old (h : Inc T lam f) {k M : Nat} (hk : k = lam (r + 1)) (hk1 : 1 ≤ k) (hM : r + 1 ≤ M) (h1 : k ≤ lam M)
    (h2 : lam (M + 1) < k) : recordBox T (r + 1, k + 1) = some (M, k) := by
  rw [recordBox, if_neg (by rw [h.has_iff]; omega)]
  have : (((T.items.map Prod.fst).filter (fun c => decide (c.2 + 1 = k + 1))).map Prod.fst).max? = some M := by
    rw [List.max?_eq_some_iff]
    constructor
    · rw [List.mem_map]
      refine ⟨(M, k), ?_, rfl⟩
      rw [List.mem_filter, mem_keys, h.has_iff]
      exact ⟨by omega, by simp⟩
    · intro b hb
      rw [List.mem_map] at hb
      obtain ⟨⟨i, j⟩, hb, rfl⟩ := hb
      rw [List.mem_filter, mem_keys, h.has_iff, decide_eq_true_eq] at hb
      simp only at hb ⊢
      by_contra hc
      have := h.anti' (show 1 ≤ M + 1 by omega) (show M + 1 ≤ i by omega)
      omega
  simp only [this, Option.map_some, Nat.add_sub_cancel]

theorem climb_eq (h : Inc T lam f) {k : Nat} (hk1 : 1 ≤ k) (hl : ∀ i, r + 1 ≤ i → k ≤ lam i → lam i = k)
    (htop : 1 ≤ r → k + 1 ≤ lam r) : ∀ d, k ≤ lam (r + 1 + d) → climb T k (r + 1 + d) = r + 1 := by
  intro d
  induction d with
  | zero =>
    intro _
    rw [Nat.add_zero, climb, if_neg]
    rw [Bool.and_eq_true, h.has_iff, Bool.not_eq_true', ← Bool.not_eq_true, h.has_iff]
    intro hc
    have := htop hc.1.1
    omega
  | succ d ih =>
    intro hd
    have h1 := h.anti (r + 1 + d) (by omega)
    have hd' : k ≤ lam (r + 1 + d) := le_trans hd h1
    rw [← Nat.add_assoc, climb, if_pos, ih hd']
    have := hl (r + 1 + d) (by omega) hd'
    rw [Bool.and_eq_true, h.has_iff, Bool.not_eq_true', ← Bool.not_eq_true, h.has_iff]
    omega

/-- The record when a box has been added. -/
theorem inverseTerminal_new (h : Inc T lam f) (hr : Ready lam f r a) (hi : Insertable f r (lam (r + 1)) a) {N : Int} :
    inverseTerminal ⟨nextT T f r (lam (r + 1)) a, none⟩ ((r + 1, lam (r + 1) + 1), [N]) = some (st T lam r a) := by
  have hnone : T.get? (r + 1, lam (r + 1) + 1) = none := h.get_none (by omega)
  have e1 : (nextT T f r (lam (r + 1)) a).entry (r + 1, lam (r + 1) + 1) = some a := by
    rw [nextT, if_pos hi]; exact entry_of_get? (by rw [get?_set]; simp)
  have e2 : (nextT T f r (lam (r + 1)) a).remove? (r + 1, lam (r + 1) + 1) = some T := by
    rw [nextT, if_pos hi, remove?, if_pos (by rw [has_set]; simp), del_set hnone]
  simp only [inverseTerminal, e1, e2, h.maxColumn]
  rw [add_of_none (h.outer_none r), mkState_st h hr.row_pos]
  rfl

/-- The record when no box has been added. -/
theorem inverseTerminal_old (h : Inc T lam f) (hr : Ready lam f r a) (hk : Cnt lam f (r + 1) a (lam (r + 1)))
    (hi : ¬ Insertable f r (lam (r + 1)) a) {M : Nat} (hM : r + 1 ≤ M) (h1 : lam (r + 1) ≤ lam M) {s : List Int}
    (hs : 1 < s.dedup.length) :
    inverseTerminal ⟨nextT T f r (lam (r + 1)) a, none⟩ ((M, lam (r + 1)), s) = some (st T lam r a) := by
  have hk1 := lam_of_not_insertable hr hi
  have hT : nextT T f r (lam (r + 1)) a = T := by rw [nextT, if_neg hi]
  have hab := fun h1 => Ready.lt_above h hr hk h1
  have hc : climb T (lam (r + 1)) M = r + 1 := by
    obtain ⟨d, rfl⟩ := Nat.exists_eq_add_of_le hM
    apply climb_eq h hk1 _ (fun h0 => (hab h0).1) d h1
    intro i hi1 hi2
    exact le_antisymm (h.anti' (by omega) hi1) hi2
  have hle := hk.2.1 _ hk1 (le_refl _)
  have e2 : ∃ v, T.entryD (r, lam (r + 1) + 1) 0 = some v ∧ max (f (r + 1) (lam (r + 1))) v = a := by
    rcases Nat.eq_zero_or_pos r with h0 | h0
    · refine ⟨0, ?_, ?_⟩
      · rw [entryD, h.get_none (by omega)]
      · have : ¬ f (r + 1) (lam (r + 1)) < a := fun hc => hi ⟨Or.inr hc, Or.inl h0⟩
        have := hr.pos
        omega
    · refine ⟨f r (lam (r + 1) + 1), ?_, ?_⟩
      · rw [entryD, h.get_some h0 (by omega) (hab h0).1]
      · have h2 := (hab h0).2
        by_cases hc : f (r + 1) (lam (r + 1)) < a
        · have : ¬ f r (lam (r + 1) + 1) < a := fun hc' => hi ⟨Or.inr hc, Or.inr hc'⟩
          omega
        · omega
  obtain ⟨v, e2, e3⟩ := e2
  have e1 : T.entry (r + 1, lam (r + 1)) = some (f (r + 1) (lam (r + 1))) :=
    entry_of_get? (h.get_some (by omega) hk1 (le_refl _))
  rw [hT]
  simp only [inverseTerminal, hc, Nat.add_sub_cancel]
  rw [if_neg (by omega), if_pos (by omega), e1, e2]
  simp only
  rw [e3, h.maxColumn, add_of_none (h.outer_none r), mkState_st h hr.row_pos]

end Verif.Insertion
