import Verif.Model.Insertion
import Verif.Lemmas.Tableau
import Mathlib.Data.Nat.Lattice

/-! Lemmas about Hecke insertion. -/

namespace Verif.Tab

theorem le_foldl_max {α : Type*} (g : α → Nat) (l : List α) (m : Nat) :
    m ≤ l.foldl (fun m p => max m (g p)) m ∧ ∀ p ∈ l, g p ≤ l.foldl (fun m p => max m (g p)) m := by
  induction l generalizing m with
  | nil => simp
  | cons a l ih =>
    rw [List.foldl_cons]
    obtain ⟨h1, h2⟩ := ih (max m (g a))
    refine ⟨by omega, ?_⟩
    intro p hp
    rcases List.mem_cons.1 hp with rfl | hp
    · omega
    · exact h2 p hp

theorem foldl_max_mem {α : Type*} (g : α → Nat) (l : List α) (m : Nat) :
    l.foldl (fun m p => max m (g p)) m = m ∨ ∃ p ∈ l, g p = l.foldl (fun m p => max m (g p)) m := by
  induction l generalizing m with
  | nil => simp
  | cons a l ih =>
    rw [List.foldl_cons]
    rcases ih (max m (g a)) with h | ⟨p, hp, h⟩
    · rw [h]
      rcases Nat.le_total m (g a) with h' | h'
      · right; exact ⟨a, by simp, by omega⟩
      · left; omega
    · right; exact ⟨p, by simp [hp], h⟩

theorem has_iff {T : Tab} {b : Nat × Nat} : T.has b = true ↔ ∃ s, T.get? b = some s := by
  rw [has, Option.isSome_iff_exists]

theorem mem_keys {T : Tab} {b : Nat × Nat} : b ∈ T.items.map Prod.fst ↔ T.has b = true := by
  rw [has_iff, List.mem_map]
  constructor
  · rintro ⟨⟨b', s⟩, h, rfl⟩
    exact ⟨s, get?_eq_some.2 h⟩
  · rintro ⟨s, h⟩
    exact ⟨(b, s), get?_eq_some.1 h, rfl⟩

theorem le_maxRow {T : Tab} {b : Nat × Nat} (h : T.has b = true) : b.1 ≤ T.maxRow := by
  obtain ⟨s, h⟩ := has_iff.1 h
  exact (le_foldl_max (fun p : (Nat × Nat) × List Int => p.1.1) T.items 0).2 _ (get?_eq_some.1 h)

theorem le_maxColumn {T : Tab} {b : Nat × Nat} (h : T.has b = true) : b.2 ≤ T.maxColumn := by
  obtain ⟨s, h⟩ := has_iff.1 h
  exact (le_foldl_max (fun p : (Nat × Nat) × List Int => p.1.2) T.items 0).2 _ (get?_eq_some.1 h)

theorem maxRow_mem (T : Tab) : T.maxRow = 0 ∨ ∃ j, T.has (T.maxRow, j) = true := by
  rcases foldl_max_mem (fun p : (Nat × Nat) × List Int => p.1.1) T.items 0 with h | ⟨⟨⟨i, j⟩, s⟩, hp, h⟩
  · exact Or.inl h
  · right
    refine ⟨j, has_iff.2 ⟨s, ?_⟩⟩
    have : T.maxRow = i := h.symm
    rw [this]; exact get?_eq_some.2 hp

theorem maxColumn_mem (T : Tab) : T.maxColumn = 0 ∨ ∃ i, T.has (i, T.maxColumn) = true := by
  rcases foldl_max_mem (fun p : (Nat × Nat) × List Int => p.1.2) T.items 0 with h | ⟨⟨⟨i, j⟩, s⟩, hp, h⟩
  · exact Or.inl h
  · right
    refine ⟨i, has_iff.2 ⟨s, ?_⟩⟩
    have : T.maxColumn = j := h.symm
    rw [this]; exact get?_eq_some.2 hp

theorem entry_of_get? {T : Tab} {b : Nat × Nat} {v : Int} (h : T.get? b = some [v]) : T.entry b = some v := by
  simp [entry, h]

theorem has_set (T : Tab) (b c : Nat × Nat) (s : List Int) : (T.set b s).has c = (decide (c = b) || T.has c) := by
  rw [has, get?_set, has]
  by_cases h : c = b <;> simp [h]

theorem del_set {T : Tab} {b : Nat × Nat} {s : List Int} (h : T.get? b = none) : (T.set b s).del b = T := by
  apply ext_get?
  intro c
  rw [get?_del, get?_set]
  by_cases hc : c = b
  · subst hc; simp [h]
  · simp [hc]

theorem set_set (T : Tab) (b : Nat × Nat) (s s' : List Int) : (T.set b s).set b s' = T.set b s' := by
  apply ext_get?
  intro c
  simp only [get?_set]
  split <;> rfl

theorem set_comm (T : Tab) {b b' : Nat × Nat} (h : b ≠ b') (s s' : List Int) :
    (T.set b s).set b' s' = (T.set b' s').set b s := by
  apply ext_get?
  intro c
  simp only [get?_set]
  by_cases h1 : c = b
  · subst h1; simp [h]
  · simp [h1]

theorem set_get {T : Tab} {b : Nat × Nat} {s : List Int} (h : T.get? b = some s) : T.set b s = T := by
  apply ext_get?
  intro c
  rw [get?_set]
  split
  · rename_i hc; rw [hc, h]
  · rfl

theorem add_of_none {T : Tab} {b : Nat × Nat} (h : T.get? b = none) (v : Int) : T.add b v = T.set b [v] := by
  rw [add, h]

end Verif.Tab

namespace Verif.Insertion

open Tab

/-- `T` is an increasing tableau with row lengths `lam` and positive entries `f`. -/
structure Inc (T : Tab) (lam : Nat → Nat) (f : Nat → Nat → Int) : Prop where
  get : ∀ i j, T.get? (i, j) = if 1 ≤ i ∧ 1 ≤ j ∧ j ≤ lam i then some [f i j] else none
  anti : ∀ i, 1 ≤ i → lam (i + 1) ≤ lam i
  row : ∀ i j, 1 ≤ i → 1 ≤ j → j + 1 ≤ lam i → f i j < f i (j + 1)
  col : ∀ i j, 1 ≤ i → 1 ≤ j → j ≤ lam (i + 1) → f i j < f (i + 1) j
  pos : ∀ i j, 1 ≤ i → 1 ≤ j → j ≤ lam i → 0 < f i j

variable {T : Tab} {lam : Nat → Nat} {f : Nat → Nat → Int}

theorem Inc.get_some (h : Inc T lam f) {i j : Nat} (hi : 1 ≤ i) (hj : 1 ≤ j) (hl : j ≤ lam i) :
    T.get? (i, j) = some [f i j] := by rw [h.get, if_pos ⟨hi, hj, hl⟩]

theorem Inc.get_none (h : Inc T lam f) {i j : Nat} (hl : ¬ (1 ≤ i ∧ 1 ≤ j ∧ j ≤ lam i)) :
    T.get? (i, j) = none := by rw [h.get, if_neg hl]

theorem Inc.has_iff (h : Inc T lam f) (i j : Nat) : T.has (i, j) = true ↔ 1 ≤ i ∧ 1 ≤ j ∧ j ≤ lam i := by
  rw [has, h.get]
  split <;> simp_all

theorem Inc.anti' (h : Inc T lam f) {i i' : Nat} (hi : 1 ≤ i) (hii : i ≤ i') : lam i' ≤ lam i := by
  induction i', hii using Nat.le_induction with
  | base => exact le_refl _
  | succ k hk ih => exact le_trans (h.anti k (by omega)) ih

theorem Inc.rowLt (h : Inc T lam f) {i j j' : Nat} (hi : 1 ≤ i) (hj : 1 ≤ j) (hjj : j < j') (hl : j' ≤ lam i) :
    f i j < f i j' := by
  induction j', hjj using Nat.le_induction with
  | base => exact h.row i j hi hj hl
  | succ k hk ih => exact lt_trans (ih (by omega)) (h.row i k hi (by omega) hl)

theorem Inc.rowLe (h : Inc T lam f) {i j j' : Nat} (hi : 1 ≤ i) (hj : 1 ≤ j) (hjj : j ≤ j') (hl : j' ≤ lam i) :
    f i j ≤ f i j' := by
  rcases Nat.eq_or_lt_of_le hjj with rfl | hlt
  · exact le_refl _
  · exact le_of_lt (h.rowLt hi hj hlt hl)

theorem Inc.colLt (h : Inc T lam f) {i i' j : Nat} (hi : 1 ≤ i) (hj : 1 ≤ j) (hii : i < i') (hl : j ≤ lam i') :
    f i j < f i' j := by
  induction i', hii using Nat.le_induction with
  | base => exact h.col i j hi hj hl
  | succ k hk ih =>
    exact lt_trans (ih (le_trans hl (h.anti k (by omega)))) (h.col k j (by omega) hj hl)

theorem Inc.maxColumn (h : Inc T lam f) : T.maxColumn = lam 1 := by
  apply le_antisymm
  · rcases maxColumn_mem T with h0 | ⟨i, hi⟩
    · omega
    · have := (h.has_iff _ _).1 hi
      exact le_trans this.2.2 (h.anti' (le_refl 1) this.1)
  · rcases Nat.eq_zero_or_pos (lam 1) with h0 | h0
    · omega
    · exact le_maxColumn ((h.has_iff 1 (lam 1)).2 ⟨le_refl _, h0, le_refl _⟩)

theorem Inc.le_maxRow (h : Inc T lam f) {i : Nat} (hi : 1 ≤ i) (hl : 1 ≤ lam i) : i ≤ T.maxRow :=
  Tab.le_maxRow ((h.has_iff i 1).2 ⟨hi, le_refl _, hl⟩)

theorem Inc.lam_zero (h : Inc T lam f) {i : Nat} (hi : T.maxRow < i) : lam i = 0 := by
  by_contra hc
  have := h.le_maxRow (i := i) (by omega) (by omega)
  omega

/-- The state with outer box in row `r + 1`, containing `a`. -/
def st (T : Tab) (lam : Nat → Nat) (r : Nat) (a : Int) : HState :=
  ⟨T.set (r + 1, lam 1 + 2) [a], some (r + 1, lam 1 + 2)⟩

theorem Inc.outer_none (h : Inc T lam f) (r : Nat) : T.get? (r + 1, lam 1 + 2) = none := by
  apply h.get_none
  have := h.anti' (i := 1) (i' := r + 1) (le_refl _) (by omega)
  omega

theorem innerDims_st (h : Inc T lam f) {r : Nat} {a : Int} (hr : r = 0 ∨ 1 ≤ lam r) :
    innerDims (T.set (r + 1, lam 1 + 2) [a]) (some (r + 1, lam 1 + 2)) = some (T.maxRow, lam 1) := by
  have h1 : T.maxRow + 2 ≠ r + 1 := by
    rcases hr with rfl | hr
    · omega
    · rcases Nat.eq_zero_or_pos r with rfl | h0
      · omega
      · have := h.le_maxRow h0 hr
        omega
  have h2 : (T.set (r + 1, lam 1 + 2) [a]).has (r + 1, lam 1 + 2) = true := by rw [has_set]; simp
  simp only [innerDims, remove?, h2, if_true, del_set (h.outer_none r), h.maxColumn, h1, decide_false, decide_true]
  rfl

theorem mkState_st (h : Inc T lam f) {r : Nat} {a : Int} (hr : r = 0 ∨ 1 ≤ lam r) :
    mkState (T.set (r + 1, lam 1 + 2) [a]) (some (r + 1, lam 1 + 2)) = some (st T lam r a) := by
  rw [mkState, innerDims_st h hr]; rfl

theorem outerInLastColumn_st (h : Inc T lam f) {r : Nat} {a : Int} (hr : r = 0 ∨ 1 ≤ lam r) :
    (st T lam r a).outerInLastColumn = true := by
  simp only [HState.outerInLastColumn, st, innerDims_st h hr, decide_true]

theorem outerInLastColumn_none (T : Tab) : (⟨T, none⟩ : HState).outerInLastColumn = false := rfl

theorem isInitial_st (T : Tab) (lam : Nat → Nat) (r : Nat) (a : Int) : (st T lam r a).isInitial = decide (r = 0) := by
  simp [HState.isInitial, st]

/-- What is known when `a` is about to be inserted into row `r + 1`. -/
structure Ready (lam : Nat → Nat) (f : Nat → Nat → Int) (r : Nat) (a : Int) : Prop where
  pos : 0 < a
  above : 1 ≤ r → ∃ y, 1 ≤ y ∧ y ≤ lam r ∧ f r y ≤ a ∧ (y + 1 ≤ lam r → a < f r (y + 1)) ∧ (y ≤ lam (r + 1) → a < f (r + 1) y)
  first : 1 ≤ r → f r 1 < a

theorem Ready.row_pos {r : Nat} {a : Int} (h : Ready lam f r a) : r = 0 ∨ 1 ≤ lam r := by
  rcases Nat.eq_zero_or_pos r with h0 | h0
  · exact Or.inl h0
  · obtain ⟨y, hy⟩ := h.above h0
    right; omega

/-- `k` entries of row `i` are at most `a`. -/
def Cnt (lam : Nat → Nat) (f : Nat → Nat → Int) (i : Nat) (a : Int) (k : Nat) : Prop :=
  k ≤ lam i ∧ (∀ j, 1 ≤ j → j ≤ k → f i j ≤ a) ∧ (k + 1 ≤ lam i → a < f i (k + 1))

theorem exists_cnt (lam : Nat → Nat) (f : Nat → Nat → Int) (i : Nat) (a : Int) : ∃ k, Cnt lam f i a k := by
  suffices h : ∀ m, m ≤ lam i → ∃ k, k ≤ m ∧ (∀ j, 1 ≤ j → j ≤ k → f i j ≤ a) ∧ (k + 1 ≤ m → a < f i (k + 1)) by
    obtain ⟨k, hk⟩ := h (lam i) (le_refl _)
    exact ⟨k, hk⟩
  intro m
  induction m with
  | zero => intro _; exact ⟨0, le_refl _, by intro j h1 h2; omega, by omega⟩
  | succ m ih =>
    intro hm
    obtain ⟨k, h1, h2, h3⟩ := ih (by omega)
    by_cases hk : k + 1 ≤ m
    · exact ⟨k, by omega, h2, fun _ => h3 hk⟩
    · have : k = m := by omega
      subst this
      by_cases hf : f i (k + 1) ≤ a
      · refine ⟨k + 1, by omega, ?_, by omega⟩
        intro j hj1 hj2
        rcases Nat.eq_or_lt_of_le hj2 with rfl | hlt
        · exact hf
        · exact h2 j hj1 (by omega)
      · exact ⟨k, by omega, h2, fun _ => by omega⟩

theorem entriesAt_eq {S : Tab} {g : Nat × Nat → Int} {l : List (Nat × Nat)} (h : ∀ b ∈ l, S.get? b = some [g b]) :
    entriesAt S l = some (l.map g) := by
  induction l with
  | nil => rfl
  | cons b l ih =>
    rw [entriesAt, ih (fun c hc => h c (by simp [hc])), entry_of_get? (h b (by simp))]
    rfl

theorem filter_range' {L m : Nat} (hL : L ≤ m) {p : Nat → Bool} (hp : ∀ x, 1 ≤ x → x ≤ m → (p x = true ↔ x ≤ L)) :
    (List.range' 1 m).filter p = List.range' 1 L := by
  obtain ⟨d, rfl⟩ := Nat.exists_eq_add_of_le hL
  rw [← List.range'_append_1, List.filter_append]
  have h1 : (List.range' 1 L).filter p = List.range' 1 L := by
    rw [List.filter_eq_self]
    intro x hx
    rw [List.mem_range'_1] at hx
    exact (hp x (by omega) (by omega)).2 (by omega)
  have h2 : (List.range' (1 + L) d).filter p = [] := by
    rw [List.filter_eq_nil_iff]
    intro x hx
    rw [List.mem_range'_1] at hx
    intro hc
    have := (hp x (by omega) (by omega)).1 hc
    omega
  rw [h1, h2, List.append_nil]

section
variable {r k : Nat} {a : Int}

theorem get_st (h : Inc T lam f) (r : Nat) (a : Int) {i j : Nat} (hi : 1 ≤ i) (hj : 1 ≤ j) (hl : j ≤ lam i) :
    (T.set (r + 1, lam 1 + 2) [a]).get? (i, j) = some [f i j] := by
  rw [get?_set, if_neg, h.get_some hi hj hl]
  intro hc
  have h1 := h.anti' (le_refl 1) hi
  have := congrArg Prod.snd hc
  simp only at this
  omega

theorem has_st (h : Inc T lam f) (r : Nat) (a : Int) {i j : Nat} (hj : j < lam 1 + 2) :
    (T.set (r + 1, lam 1 + 2) [a]).has (i, j) = true ↔ 1 ≤ i ∧ 1 ≤ j ∧ j ≤ lam i := by
  rw [has_set, ← h.has_iff i j]
  have : (i, j) ≠ (r + 1, lam 1 + 2) := by
    intro hc
    have := congrArg Prod.snd hc
    simp only at this
    omega
  simp [this]

/-- The row read in insertion.py:319-320. -/
theorem row_entries (h : Inc T lam f) (r : Nat) (a : Int) :
    entriesAt (T.set (r + 1, lam 1 + 2) [a]) (((List.range' 1 (lam 1 + 2 - 1)).filter
      (fun x => (T.set (r + 1, lam 1 + 2) [a]).has (r + 1, x))).map (fun x => (r + 1, x))) =
    some ((List.range' 1 (lam (r + 1))).map (f (r + 1))) := by
  have h1 := h.anti' (le_refl 1) (show 1 ≤ r + 1 by omega)
  rw [filter_range' (L := lam (r + 1)) (by omega)]
  · rw [entriesAt_eq (g := fun b => f b.1 b.2)]
    · rw [List.map_map]; rfl
    · intro b hb
      rw [List.mem_map] at hb
      obtain ⟨x, hx, rfl⟩ := hb
      rw [List.mem_range'_1] at hx
      exact get_st h r a (by omega) (by omega) (by omega)
  · intro x hx1 hx2
    rw [has_st h r a (by omega)]
    omega

theorem row_entries' (h : Inc T lam f) (r : Nat) (a : Int) :
    entriesAt (T.set (r + 1, lam 1 + 2) [a]) ((List.range' 1 (lam (r + 1))).map (fun x => (r + 1, x))) =
    some ((List.range' 1 (lam (r + 1))).map (f (r + 1))) := by
  rw [entriesAt_eq (g := fun b => f b.1 b.2)]
  · rw [List.map_map]; rfl
  · intro b hb
    rw [List.mem_map] at hb
    obtain ⟨x, hx, rfl⟩ := hb
    rw [List.mem_range'_1] at hx
    exact get_st h r a (by omega) (by omega) (by omega)

theorem sort_row (h : Inc T lam f) (r : Nat) :
    sortInts ((List.range' 1 (lam (r + 1))).map (f (r + 1))) = (List.range' 1 (lam (r + 1))).map (f (r + 1)) := by
  apply List.Pairwise.insertionSort_eq
  rw [List.pairwise_map]
  refine List.Pairwise.imp_of_mem ?_ List.pairwise_lt_range'
  intro x y hx hy hxy
  rw [List.mem_range'_1] at hx hy
  exact h.rowLe (by omega) (by omega) (le_of_lt hxy) (by omega)

theorem rowTransition_st (h : Inc T lam f) (r : Nat) (a : Int) (hk : Cnt lam f (r + 1) a k) :
    rowTransition (st T lam r a) = if k = lam (r + 1) then
      transitionR1 (T.set (r + 1, lam 1 + 2) [a]) (r + 1) (lam 1 + 2) a ((List.range' 1 (lam (r + 1))).map (f (r + 1)))
      else transitionR23 (T.set (r + 1, lam 1 + 2) [a]) (r + 1) (lam 1 + 2) a := by
  have he : (T.set (r + 1, lam 1 + 2) [a]).entry (r + 1, lam 1 + 2) = some a := entry_of_get? (by rw [get?_set]; simp)
  simp only [rowTransition, st, he, row_entries h r a, sort_row h, List.length_map, List.length_range', row_entries' h r a,
    if_true]
  have hall : (((List.range' 1 (lam (r + 1))).map (f (r + 1))).all (fun x => decide (x ≤ a)) = true) ↔ k = lam (r + 1) := by
    simp only [List.all_map, List.all_eq_true, List.mem_range'_1, Function.comp, decide_eq_true_eq]
    constructor
    · intro hc
      by_contra hne
      have := hk.2.2 (by have := hk.1; omega)
      have := hc (k + 1) (by have := hk.1; omega)
      omega
    · intro hc x hx
      exact hk.2.1 x (by omega) (by omega)
  by_cases hc : k = lam (r + 1)
  · rw [if_pos (hall.2 hc), if_pos hc]
  · rw [if_neg (fun h => hc (hall.1 h)), if_neg hc]

/-- The condition under which the row changes. -/
def Insertable (f : Nat → Nat → Int) (r k : Nat) (a : Int) : Prop :=
  (k = 0 ∨ f (r + 1) k < a) ∧ (r = 0 ∨ f r (k + 1) < a)

instance : Decidable (Insertable f r k a) := by unfold Insertable; infer_instance

theorem Ready.lt_above (h : Inc T lam f) (hr : Ready lam f r a) (hk : Cnt lam f (r + 1) a k) (h1 : 1 ≤ r) :
    k + 1 ≤ lam r ∧ f r (k + 1) ≤ a := by
  obtain ⟨y, hy1, hy2, hy3, hy4, hy5⟩ := hr.above h1
  have : k < y := by
    by_contra hc
    have e1 := hy5 (by have := hk.1; omega)
    have e2 := hk.2.1 y hy1 (by omega)
    omega
  refine ⟨by omega, ?_⟩
  exact le_trans (h.rowLe h1 (by omega) (by omega) hy2) hy3

theorem transitionR1_eq (h : Inc T lam f) (hr : Ready lam f r a) (hk : Cnt lam f (r + 1) a k) (hkl : k = lam (r + 1)) :
    transitionR1 (T.set (r + 1, lam 1 + 2) [a]) (r + 1) (lam 1 + 2) a ((List.range' 1 (lam (r + 1))).map (f (r + 1))) =
      some (⟨if Insertable f r k a then T.set (r + 1, k + 1) [a] else T, none⟩, (r + 1, k + 1)) := by
  have h1 := h.anti' (le_refl 1) (show 1 ≤ r + 1 by omega)
  have hcol : entriesAt (T.set (r + 1, lam 1 + 2) [a])
      (((T.set (r + 1, lam 1 + 2) [a]).items.map Prod.fst).filter (fun b => decide (b.2 = 1 + lam (r + 1)))) =
      some ((((T.set (r + 1, lam 1 + 2) [a]).items.map Prod.fst).filter (fun b => decide (b.2 = 1 + lam (r + 1)))).map
        (fun b => f b.1 b.2)) := by
    apply entriesAt_eq
    rintro ⟨i, j⟩ hb
    rw [List.mem_filter, mem_keys, decide_eq_true_eq] at hb
    simp only at hb
    have := (has_st h r a (i := i) (j := j) (by omega)).1 hb.1
    exact get_st h r a this.1 this.2.1 this.2.2
  have hcond : ((((List.range' 1 (lam (r + 1))).map (f (r + 1))).all (fun x => decide (x < a)) &&
      ((((T.set (r + 1, lam 1 + 2) [a]).items.map Prod.fst).filter (fun b => decide (b.2 = 1 + lam (r + 1)))).map
        (fun b => f b.1 b.2)).all (fun x => decide (x < a))) = true) ↔ Insertable f r k a := by
    rw [Bool.and_eq_true, Insertable]
    apply and_congr
    · simp only [List.all_map, List.all_eq_true, List.mem_range'_1, Function.comp, decide_eq_true_eq]
      constructor
      · intro hc
        rcases Nat.eq_zero_or_pos k with h0 | h0
        · exact Or.inl h0
        · exact Or.inr (hc k (by omega))
      · rintro (h0 | h0) x hx
        · omega
        · exact lt_of_le_of_lt (h.rowLe (by omega) (by omega) (by omega) (by omega)) h0
    · simp only [List.all_map, List.all_eq_true, List.mem_filter, Function.comp, decide_eq_true_eq, mem_keys]
      constructor
      · intro hc
        rcases Nat.eq_zero_or_pos r with h0 | h0
        · exact Or.inl h0
        · have hab := Ready.lt_above h hr hk h0
          right
          exact hc (r, k + 1) ⟨(has_st h r a (by omega)).2 ⟨h0, by omega, hab.1⟩, by simp only; omega⟩
      · rintro hc ⟨i, j⟩ ⟨hb, hj⟩
        simp only at hj
        have hb := (has_st h r a (i := i) (j := j) (by omega)).1 hb
        simp only
        have hir : i ≤ r := by
          by_contra hir
          have := h.anti' (show 1 ≤ r + 1 by omega) (show r + 1 ≤ i by omega)
          omega
        rcases hc with rfl | hc
        · omega
        · have hab := Ready.lt_above h hr hk (by omega)
          have hjk : j = k + 1 := by omega
          subst hjk
          rcases Nat.eq_or_lt_of_le hir with rfl | hlt
          · exact hc
          · exact lt_trans (h.colLt hb.1 (by omega) hlt hab.1) hc
  have hnone : T.get? (r + 1, 1 + lam (r + 1)) = none := h.get_none (by omega)
  have hne : ((r + 1, lam 1 + 2) : Nat × Nat) ≠ (r + 1, 1 + lam (r + 1)) := by
    intro hc
    have := congrArg Prod.snd hc
    simp only at this
    omega
  simp only [transitionR1, List.length_map, List.length_range', hcol]
  by_cases hi : Insertable f r k a
  · rw [if_pos (hcond.2 hi), if_pos hi]
    have hadd : (T.set (r + 1, lam 1 + 2) [a]).add (r + 1, 1 + lam (r + 1)) a =
        (T.set (r + 1, 1 + lam (r + 1)) [a]).set (r + 1, lam 1 + 2) [a] := by
      rw [add_of_none, set_comm _ hne]
      rw [get?_set, if_neg (fun h => hne h.symm), hnone]
    rw [hadd, remove?, has_set]
    simp only [decide_true, Bool.true_or, if_true]
    rw [del_set]
    · simp [mkState, innerDims, hkl, Nat.add_comm]
    · rw [get?_set, if_neg hne, h.outer_none]
  · rw [if_neg (fun hc => hi (hcond.1 hc)), if_neg hi]
    rw [remove?, has_set]
    simp only [decide_true, Bool.true_or, if_true]
    rw [del_set (h.outer_none r)]
    simp [mkState, innerDims, hkl, Nat.add_comm]

theorem firstGreater_eq (h : Inc T lam f) (r : Nat) (hk : Cnt lam f (r + 1) a k) (hkl : k + 1 ≤ lam (r + 1)) :
    ∀ d x fuel, x + d = k + 1 → 1 ≤ x → d < fuel →
      firstGreater (T.set (r + 1, lam 1 + 2) [a]) (r + 1) a fuel x = some (k + 1) := by
  intro d
  induction d with
  | zero =>
    intro x fuel hx hx1 hf
    obtain ⟨fuel, rfl⟩ := Nat.exists_eq_succ_of_ne_zero (show fuel ≠ 0 by omega)
    have hxk : x = k + 1 := by omega
    subst hxk
    have := hk.2.2 hkl
    rw [firstGreater, entry_of_get? (get_st h r a (by omega) (by omega) hkl)]
    simp only
    rw [if_neg (by omega)]
  | succ d ih =>
    intro x fuel hx hx1 hf
    obtain ⟨fuel, rfl⟩ := Nat.exists_eq_succ_of_ne_zero (show fuel ≠ 0 by omega)
    have := hk.2.1 x hx1 (by omega)
    rw [firstGreater, entry_of_get? (get_st h r a (by omega) (by omega) (by omega))]
    simp only
    rw [if_pos this]
    exact ih (x + 1) fuel (by omega) (by omega) (by omega)

theorem condR2_eq (h : Inc T lam f) (hr : Ready lam f r a) (hk : Cnt lam f (r + 1) a k) :
    condR2 (T.set (r + 1, lam 1 + 2) [a]) (r + 1) (k + 1) a = some (decide (Insertable f r k a)) := by
  have h1 : (if k + 1 = 1 then some true else entryLt (T.set (r + 1, lam 1 + 2) [a]) (r + 1, k + 1 - 1) a) =
      some (decide (k = 0 ∨ f (r + 1) k < a)) := by
    rcases Nat.eq_zero_or_pos k with h0 | h0
    · simp [h0]
    · have hne : k ≠ 0 := by omega
      rw [if_neg (by omega), entryLt, Nat.add_sub_cancel, entry_of_get? (get_st h r a (by omega) h0 hk.1)]
      simp [hne]
  have h2 : (if r + 1 = 1 then some true else entryLt (T.set (r + 1, lam 1 + 2) [a]) (r + 1 - 1, k + 1) a) =
      some (decide (r = 0 ∨ f r (k + 1) < a)) := by
    rcases Nat.eq_zero_or_pos r with h0 | h0
    · simp [h0]
    · have hne : r ≠ 0 := by omega
      have hab := Ready.lt_above h hr hk h0
      rw [if_neg (by omega), entryLt, Nat.add_sub_cancel, entry_of_get? (get_st h r a h0 (by omega) hab.1)]
      simp [hne]
  rw [condR2, h1, h2]
  by_cases c1 : k = 0 ∨ f (r + 1) k < a
  · simp only [c1, decide_true, Insertable, true_and]
  · simp only [c1, decide_false, Insertable, false_and]

/-- The entries after `a` has replaced the entry in column `k + 1` of row `r + 1`. -/
def updF (f : Nat → Nat → Int) (r k : Nat) (a : Int) (i j : Nat) : Int := if i = r + 1 ∧ j = k + 1 then a else f i j

/-- The tableau after the step in row `r + 1`. -/
def nextT (T : Tab) (f : Nat → Nat → Int) (r k : Nat) (a : Int) : Tab :=
  if Insertable f r k a then T.set (r + 1, k + 1) [a] else T

/-- The entries after the step in row `r + 1`. -/
def nextF (f : Nat → Nat → Int) (r k : Nat) (a : Int) : Nat → Nat → Int :=
  if Insertable f r k a then updF f r k a else f

theorem nextInc (h : Inc T lam f) (hr : Ready lam f r a) (hk : Cnt lam f (r + 1) a k) (hkl : k + 1 ≤ lam (r + 1)) :
    Inc (nextT T f r k a) lam (nextF f r k a) := by
  unfold nextT nextF
  split
  · rename_i hi
    obtain ⟨hi1, hi2⟩ := hi
    have hb := hk.2.2 hkl
    constructor
    · intro i j
      rw [get?_set]
      by_cases hc : i = r + 1 ∧ j = k + 1
      · rw [if_pos (by rw [hc.1, hc.2]), if_pos (by rw [hc.1, hc.2]; omega), updF, if_pos hc]
      · rw [if_neg (by rw [Prod.mk.injEq]; exact hc), h.get, updF, if_neg hc]
    · exact h.anti
    · intro i j h1 h2 h3
      unfold updF
      have := h.row i j h1 h2 h3
      by_cases c1 : i = r + 1 ∧ j = k + 1
      · rw [if_pos c1, if_neg (by omega)]
        obtain ⟨rfl, rfl⟩ := c1
        omega
      · rw [if_neg c1]
        by_cases c2 : i = r + 1 ∧ j + 1 = k + 1
        · rw [if_pos c2]
          obtain ⟨rfl, c2⟩ := c2
          have : j = k := by omega
          subst this
          rcases hi1 with h0 | h0
          · omega
          · exact h0
        · rw [if_neg c2]; exact this
    · intro i j h1 h2 h3
      unfold updF
      have := h.col i j h1 h2 h3
      by_cases c1 : i = r + 1 ∧ j = k + 1
      · rw [if_pos c1, if_neg (by omega)]
        obtain ⟨rfl, rfl⟩ := c1
        omega
      · rw [if_neg c1]
        by_cases c2 : i + 1 = r + 1 ∧ j = k + 1
        · rw [if_pos c2]
          obtain ⟨c2, rfl⟩ := c2
          have : i = r := by omega
          subst this
          rcases hi2 with h0 | h0
          · omega
          · exact h0
        · rw [if_neg c2]; exact this
    · intro i j h1 h2 h3
      unfold updF
      split
      · exact hr.pos
      · exact h.pos i j h1 h2 h3
  · exact h

theorem insertable_zero (hr : Ready lam f r a) : Insertable f r 0 a := by
  refine ⟨Or.inl rfl, ?_⟩
  rcases Nat.eq_zero_or_pos r with h0 | h0
  · exact Or.inl h0
  · exact Or.inr (hr.first h0)

theorem nextF_le (hk : Cnt lam f (r + 1) a k) (hkl : k + 1 ≤ lam (r + 1)) :
    nextF f r k a (r + 1) (k + 1) ≤ f (r + 1) (k + 1) := by
  have := hk.2.2 hkl
  unfold nextF updF
  split
  · simp; omega
  · exact le_refl _

theorem nextF_other {i j : Nat} (h : ¬ (i = r + 1 ∧ j = k + 1)) : nextF f r k a i j = f i j := by
  unfold nextF
  split
  · rw [updF, if_neg h]
  · rfl

theorem nextReady (h : Inc T lam f) (hr : Ready lam f r a) (hk : Cnt lam f (r + 1) a k) (hkl : k + 1 ≤ lam (r + 1)) :
    Ready lam (nextF f r k a) (r + 1) (f (r + 1) (k + 1)) := by
  refine ⟨h.pos _ _ (by omega) (by omega) hkl, fun _ => ?_, fun _ => ?_⟩
  · refine ⟨k + 1, by omega, hkl, nextF_le hk hkl, ?_, ?_⟩
    · intro hl
      rw [nextF_other (by omega)]
      exact h.row _ _ (by omega) (by omega) hl
    · intro hl
      rw [nextF_other (by omega)]
      exact h.col _ _ (by omega) (by omega) hl
  · rcases Nat.eq_zero_or_pos k with h0 | h0
    · subst h0
      have := hk.2.2 hkl
      rw [nextF, if_pos (insertable_zero hr), updF, if_pos ⟨rfl, rfl⟩]
      exact this
    · rw [nextF_other (by omega)]
      exact h.rowLt (by omega) (by omega) (by omega) hkl

theorem transitionR23_eq (h : Inc T lam f) (hr : Ready lam f r a) (hk : Cnt lam f (r + 1) a k) (hkl : k + 1 ≤ lam (r + 1)) :
    transitionR23 (T.set (r + 1, lam 1 + 2) [a]) (r + 1) (lam 1 + 2) a =
      some (st (nextT T f r k a) lam (r + 1) (f (r + 1) (k + 1)), (r + 1, k + 1)) := by
  have h1 := h.anti' (le_refl 1) (show 1 ≤ r + 1 by omega)
  have hne1 : ((r + 1, lam 1 + 2) : Nat × Nat) ≠ (r + 1 + 1, lam 1 + 2) := by
    intro hc; have := congrArg Prod.fst hc; simp only at this; omega
  have hne2 : ((r + 1, lam 1 + 2) : Nat × Nat) ≠ (r + 1, k + 1) := by
    intro hc; have := congrArg Prod.snd hc; simp only at this; omega
  have hne3 : ((r + 1 + 1, lam 1 + 2) : Nat × Nat) ≠ (r + 1, k + 1) := by
    intro hc; have := congrArg Prod.fst hc; simp only at this; omega
  have hinc := nextInc h hr hk hkl
  have hready := nextReady h hr hk hkl
  have hadd : (T.set (r + 1, lam 1 + 2) [a]).add (r + 1 + 1, lam 1 + 2) (f (r + 1) (k + 1)) =
      (T.set (r + 1 + 1, lam 1 + 2) [f (r + 1) (k + 1)]).set (r + 1, lam 1 + 2) [a] := by
    rw [add_of_none, set_comm _ hne1]
    rw [get?_set, if_neg (fun h => hne1 h.symm), h.outer_none]
  rw [transitionR23, firstGreater_eq h r hk hkl k 1 (lam 1 + 2) (by omega) (by omega) (by omega)]
  simp only
  rw [entry_of_get? (get_st h r a (by omega) (by omega) hkl), condR2_eq h hr hk]
  by_cases hi : Insertable f r k a
  · simp only [hi, decide_true, hadd]
    rw [replace?, if_pos]
    · simp only
      rw [remove?, if_pos]
      · simp only
        rw [set_comm _ hne2, set_comm _ hne3, del_set, show T.set (r + 1, k + 1) [a] = nextT T f r k a by rw [nextT, if_pos hi],
          mkState_st hinc hready.row_pos]
        · rfl
        · rw [get?_set, if_neg hne1, get?_set, if_neg hne2, h.outer_none]
      · rw [has_set, has_set]; simp
    · rw [has_set, has_set, (h.has_iff (r + 1) (k + 1)).2 (by omega)]; simp
  · simp only [hi, decide_false, hadd]
    rw [remove?, if_pos]
    · simp only
      rw [del_set]
      · conv_rhs => rw [nextT, if_neg hi]
        have : nextT T f r k a = T := by rw [nextT, if_neg hi]
        rw [this] at hinc
        rw [mkState_st hinc hready.row_pos]
        rfl
      · rw [get?_set, if_neg hne1, h.outer_none]
    · rw [has_set]; simp

theorem lastLe_eq {S : Tab} {g : Nat → Nat → Int} (h : Inc S lam g) (r : Nat) {b c : Int} {k m : Nat} (hk : k + 1 ≤ lam (r + 1))
    (h1 : ∀ j, 1 ≤ j → j ≤ k + 1 → g (r + 1) j ≤ b) (h2 : k + 2 ≤ lam (r + 1) → b < g (r + 1) (k + 2)) :
    ∀ d x fuel, x + d = k + 1 → 1 ≤ x → d < fuel →
      lastLe (S.set (m + 1, lam 1 + 2) [c]) (r + 1) b fuel x = some (k + 1) := by
  have hl := h.anti' (le_refl 1) (show 1 ≤ r + 1 by omega)
  intro d
  induction d with
  | zero =>
    intro x fuel hx hx1 hf
    obtain ⟨fuel, rfl⟩ := Nat.exists_eq_succ_of_ne_zero (show fuel ≠ 0 by omega)
    have hxk : x = k + 1 := by omega
    subst hxk
    rw [lastLe]
    by_cases hc : k + 2 ≤ lam (r + 1)
    · rw [if_pos ((has_st h m c (by omega)).2 (by omega)), entry_of_get? (get_st h m c (by omega) (by omega) hc)]
      have := h2 hc
      simp only
      rw [if_neg (show ¬ g (r + 1) (k + 1 + 1) ≤ b by simpa using this)]
    · rw [if_neg (by rw [has_st h m c (by omega)]; omega)]
  | succ d ih =>
    intro x fuel hx hx1 hf
    obtain ⟨fuel, rfl⟩ := Nat.exists_eq_succ_of_ne_zero (show fuel ≠ 0 by omega)
    rw [lastLe, if_pos ((has_st h m c (by omega)).2 (by omega)), entry_of_get? (get_st h m c (by omega) (by omega) (by omega))]
    simp only
    rw [if_pos (h1 (x + 1) (by omega) (by omega))]
    exact ih (x + 1) fuel (by omega) (by omega) (by omega)

theorem inverseRow_eq (h : Inc T lam f) (hr : Ready lam f r a) (hk : Cnt lam f (r + 1) a k) (hkl : k + 1 ≤ lam (r + 1)) :
    inverseRow (st (nextT T f r k a) lam (r + 1) (f (r + 1) (k + 1))) = some (st T lam r a) := by
  have hl1 := h.anti' (le_refl 1) (show 1 ≤ r + 1 by omega)
  have hinc := nextInc h hr hk hkl
  have hready := nextReady h hr hk hkl
  have hb := hk.2.2 hkl
  have he : ((nextT T f r k a).set (r + 1 + 1, lam 1 + 2) [f (r + 1) (k + 1)]).entry (r + 1 + 1, lam 1 + 2) =
      some (f (r + 1) (k + 1)) := entry_of_get? (by rw [get?_set]; simp)
  have hll := lastLe_eq hinc r (b := f (r + 1) (k + 1)) (c := f (r + 1) (k + 1)) (m := r + 1) hkl
    (by
      intro j hj1 hj2
      rcases Nat.eq_or_lt_of_le hj2 with rfl | hlt
      · exact nextF_le hk hkl
      · rw [nextF_other (by omega)]
        exact h.rowLe (by omega) hj1 hj2 hkl)
    (by
      intro hc
      rw [nextF_other (by omega)]
      exact h.row _ _ (by omega) (by omega) hc) k 1 (lam 1 + 2) (by omega) (by omega) (by omega)
  simp only [inverseRow, st, he, Nat.add_sub_cancel]
  simp only [hll, entry_of_get? (get_st hinc (r + 1) (f (r + 1) (k + 1)) (show 1 ≤ r + 1 by omega) (show 1 ≤ k + 1 by omega) hkl)]
  have hrem : ((nextT T f r k a).set (r + 1 + 1, lam 1 + 2) [f (r + 1) (k + 1)]).remove? (r + 1 + 1, lam 1 + 2) =
      some (nextT T f r k a) := by
    rw [remove?, if_pos (by rw [has_set]; simp), del_set (hinc.outer_none (r + 1))]
  by_cases hi : Insertable f r k a
  · rw [if_neg (by rw [nextF, if_pos hi, updF, if_pos ⟨rfl, rfl⟩]; omega), hrem]
    simp only
    rw [replace?, if_pos ((hinc.has_iff _ _).2 (by omega))]
    simp only
    have e1 : (nextT T f r k a).set (r + 1, k + 1) [f (r + 1) (k + 1)] = T := by
      rw [nextT, if_pos hi, set_set, set_get (h.get_some (by omega) (by omega) hkl)]
    have e2 : nextF f r k a (r + 1) (k + 1) = a := by rw [nextF, if_pos hi, updF, if_pos ⟨rfl, rfl⟩]
    rw [e1, e2, add_of_none (h.outer_none r), mkState_st h hr.row_pos]
    rfl
  · have hT : nextT T f r k a = T := by rw [nextT, if_neg hi]
    have hF : nextF f r k a = f := by rw [nextF, if_neg hi]
    have hk0 : 1 ≤ k := by
      by_contra hc
      have : k = 0 := by omega
      subst this
      exact hi (insertable_zero hr)
    rw [hF, if_pos rfl]
    rw [hT] at hrem ⊢
    have hk1 := hk.2.1 k hk0 (le_refl _)
    have e1 : (T.set (r + 1 + 1, lam 1 + 2) [f (r + 1) (k + 1)]).entry (r + 1, k) = some (f (r + 1) k) :=
      entry_of_get? (get_st h (r + 1) _ (by omega) hk0 (by omega))
    have e2 : ∃ v, (T.set (r + 1 + 1, lam 1 + 2) [f (r + 1) (k + 1)]).entryD (r + 1 + 1 - 2, k + 1) 0 = some v ∧
        max (f (r + 1) k) v = a := by
      rcases Nat.eq_zero_or_pos r with h0 | h0
      · refine ⟨0, ?_, ?_⟩
        · rw [entryD, get?_set, if_neg, h.get_none]
          · omega
          · intro hc; have := congrArg Prod.snd hc; simp only at this; omega
        · have : ¬ f (r + 1) k < a := fun hc => hi ⟨Or.inr hc, Or.inl h0⟩
          have := hr.pos
          omega
      · have hab := Ready.lt_above h hr hk h0
        refine ⟨f r (k + 1), ?_, ?_⟩
        · rw [show r + 1 + 1 - 2 = r by omega, entryD, get_st h (r + 1) _ h0 (by omega) hab.1]
        · by_cases hc : f (r + 1) k < a
          · have : ¬ f r (k + 1) < a := fun hc' => hi ⟨Or.inr hc, Or.inr hc'⟩
            omega
          · omega
    obtain ⟨v, e2, e3⟩ := e2
    rw [Nat.add_sub_cancel, e1, e2, hrem]
    simp only
    rw [e3, add_of_none (h.outer_none r), mkState_st h hr.row_pos]
    rfl

end

end Verif.Insertion
