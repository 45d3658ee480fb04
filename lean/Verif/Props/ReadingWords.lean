import Verif.Props.TabCrystals
import Verif.Lemmas.InsertionStd

/-!
# C76: reading words
-/

namespace Verif.Tab

open Verif.Part Verif.Insertion

attribute [-simp] List.getD_eq_getElem?_getD

/-- The tableau `T` has one entry `f b` in each box `b` of `D` and no other boxes. -/
def IsFilling (D : Set (Nat × Nat)) (f : Nat × Nat → Int) (T : Nat × Nat → Option (List Int)) : Prop :=
  ∀ b, (b ∈ D → T b = some [f b]) ∧ (b ∉ D → T b = none)

/-! ### sorting by rows -/

abbrev RowLt (p q : (Nat × Nat) × List Int) : Prop := q.1.1 < p.1.1 ∨ (p.1.1 = q.1.1 ∧ p.1.2 < q.1.2)

abbrev ColLt (p q : (Nat × Nat) × List Int) : Prop := p.1.2 < q.1.2 ∨ (p.1.2 = q.1.2 ∧ q.1.1 < p.1.1)

instance : IsTrans _ (fun p q => rowKeyLe p q = true) := ⟨by
  intro p q r h1 h2
  simp only [rowKeyLe, decide_eq_true_eq] at h1 h2 ⊢
  omega⟩

instance : Std.Total (fun p q => rowKeyLe p q = true) := ⟨by
  intro p q
  simp only [rowKeyLe, decide_eq_true_eq]
  omega⟩

instance : IsTrans _ (fun p q => columnKeyLe p q = true) := ⟨by
  intro p q r h1 h2
  simp only [columnKeyLe, decide_eq_true_eq] at h1 h2 ⊢
  omega⟩

instance : Std.Total (fun p q => columnKeyLe p q = true) := ⟨by
  intro p q
  simp only [columnKeyLe, decide_eq_true_eq]
  omega⟩

theorem items_nodup (T : Tab) : T.items.Nodup := (List.Nodup.of_map _ T.keys_nodup)

theorem key_eq {T : Tab} {p q : (Nat × Nat) × List Int} (hp : p ∈ T.items) (hq : q ∈ T.items) (h : p.1 = q.1) : p = q := by
  obtain ⟨b, s⟩ := p
  obtain ⟨c, t⟩ := q
  simp only at h
  subst h
  have h1 := get?_eq_some.2 hp
  have h2 := get?_eq_some.2 hq
  rw [h1] at h2; cases h2; rfl

/-- The row reading word, from a list of the boxes sorted by rows. -/
theorem rowReadingWord_of {T : Tab} {L : List ((Nat × Nat) × List Int)} (hs : L.Pairwise RowLt)
    (hm : ∀ b s, (b, s) ∈ L ↔ T.get? b = some s) : rowReadingWord T = L.flatMap Prod.snd := by
  have hn : L.Nodup := by
    refine hs.imp ?_
    rintro p q h rfl
    simp only [RowLt] at h; omega
  have hp : (T.items.insertionSort (fun p q => rowKeyLe p q = true)).Perm L := by
    refine (List.perm_insertionSort _ _).trans ?_
    rw [List.perm_ext_iff_of_nodup (items_nodup T) hn]
    rintro ⟨b, s⟩
    rw [hm, get?_eq_some]
  rw [rowReadingWord]
  congr 1
  refine hp.eq_of_pairwise ?_ (List.pairwise_insertionSort _ _) (hs.imp ?_)
  · intro p q hp1 hq1 h1 h2
    have hp2 : p ∈ T.items := (List.perm_insertionSort _ _).mem_iff.1 hp1
    have hq2 : q ∈ T.items := (List.perm_insertionSort _ _).mem_iff.1 (hp.mem_iff.2 hq1)
    refine key_eq hp2 hq2 ?_
    simp only [rowKeyLe, decide_eq_true_eq] at h1 h2
    ext <;> omega
  · intro p q h
    simp only [RowLt] at h
    simp only [rowKeyLe, decide_eq_true_eq]; omega

theorem columnReadingWord_of {T : Tab} {L : List ((Nat × Nat) × List Int)} (hs : L.Pairwise ColLt)
    (hm : ∀ b s, (b, s) ∈ L ↔ T.get? b = some s) : columnReadingWord T = L.flatMap Prod.snd := by
  have hn : L.Nodup := by
    refine hs.imp ?_
    rintro p q h rfl
    simp only [ColLt] at h; omega
  have hp : (T.items.insertionSort (fun p q => columnKeyLe p q = true)).Perm L := by
    refine (List.perm_insertionSort _ _).trans ?_
    rw [List.perm_ext_iff_of_nodup (items_nodup T) hn]
    rintro ⟨b, s⟩
    rw [hm, get?_eq_some]
  rw [columnReadingWord]
  congr 1
  refine hp.eq_of_pairwise ?_ (List.pairwise_insertionSort _ _) (hs.imp ?_)
  · intro p q hp1 hq1 h1 h2
    have hp2 : p ∈ T.items := (List.perm_insertionSort _ _).mem_iff.1 hp1
    have hq2 : q ∈ T.items := (List.perm_insertionSort _ _).mem_iff.1 (hp.mem_iff.2 hq1)
    refine key_eq hp2 hq2 ?_
    simp only [columnKeyLe, decide_eq_true_eq] at h1 h2
    ext <;> omega
  · intro p q h
    simp only [ColLt] at h
    simp only [columnKeyLe, decide_eq_true_eq]; omega

/-- The sorted list of boxes exists. -/
theorem exists_rowSorted (T : Tab) : ∃ L : List ((Nat × Nat) × List Int), L.Pairwise RowLt ∧ ∀ b s, (b, s) ∈ L ↔ T.get? b = some s := by
  refine ⟨T.items.insertionSort (fun p q => rowKeyLe p q = true), ?_, ?_⟩
  · have h1 := List.pairwise_insertionSort (fun p q => rowKeyLe p q = true) T.items
    have h2 : (T.items.insertionSort (fun p q => rowKeyLe p q = true)).Nodup :=
      (List.perm_insertionSort _ _).nodup_iff.2 (items_nodup T)
    refine (List.Pairwise.and_mem.1 (h1.and h2)).imp ?_
    rintro p q ⟨hp, hq, h3, h4⟩
    have hp2 : p ∈ T.items := (List.perm_insertionSort _ _).mem_iff.1 hp
    have hq2 : q ∈ T.items := (List.perm_insertionSort _ _).mem_iff.1 hq
    have h5 : p.1 ≠ q.1 := fun h => h4 (key_eq hp2 hq2 h)
    simp only [rowKeyLe, decide_eq_true_eq] at h3
    rcases h3 with h3 | h3
    · exact Or.inl h3
    · right
      refine ⟨h3.1, ?_⟩
      by_contra hc
      exact h5 (Prod.ext h3.1 (by omega))
  · intro b s
    rw [(List.perm_insertionSort _ _).mem_iff, get?_eq_some]

/-! ### the tableau with given rows -/

def rowCells (i : Nat) : Nat → List Int → List ((Nat × Nat) × List Int)
  | _, [] => []
  | j, v :: r => ((i, j), [v]) :: rowCells i (j + 1) r

def cellsDown : Nat → List (List Int) → List ((Nat × Nat) × List Int)
  | _, [] => []
  | i, r :: R => cellsDown (i + 1) R ++ rowCells i 1 r

theorem mem_rowCells {i j : Nat} {r : List Int} {a c : Nat} {s : List Int} :
    ((a, c), s) ∈ rowCells i j r ↔ a = i ∧ j ≤ c ∧ (r[c - j]?).map (fun v => [v]) = some s := by
  induction r generalizing j with
  | nil => simp [rowCells]
  | cons v r ih =>
    rw [rowCells, List.mem_cons, ih]
    constructor
    · rintro (h | ⟨h1, h2, h3⟩)
      · simp only [Prod.mk.injEq] at h
        obtain ⟨⟨rfl, rfl⟩, rfl⟩ := h
        simp
      · refine ⟨h1, by omega, ?_⟩
        rw [show c - j = (c - (j + 1)) + 1 by omega, List.getElem?_cons_succ]
        exact h3
    · rintro ⟨h1, h2, h3⟩
      rcases Nat.eq_or_lt_of_le h2 with h4 | h4
      · left
        subst h4
        simp at h3
        simp [h1, h3]
      · right
        refine ⟨h1, h4, ?_⟩
        rw [show c - j = (c - (j + 1)) + 1 by omega, List.getElem?_cons_succ] at h3
        exact h3

theorem mem_cellsDown {i : Nat} {R : List (List Int)} {a c : Nat} {s : List Int} :
    ((a, c), s) ∈ cellsDown i R ↔ i ≤ a ∧ 1 ≤ c ∧ ((R.getD (a - i) [])[c - 1]?).map (fun v => [v]) = some s := by
  induction R generalizing i with
  | nil => simp [cellsDown]
  | cons r R ih =>
    rw [cellsDown, List.mem_append, ih, mem_rowCells]
    constructor
    · rintro (⟨h1, h2, h3⟩ | ⟨h1, h2, h3⟩)
      · refine ⟨by omega, h2, ?_⟩
        rw [show a - i = (a - (i + 1)) + 1 by omega, List.getD_cons_succ]
        exact h3
      · subst h1
        refine ⟨le_rfl, h2, ?_⟩
        rw [Nat.sub_self, List.getD_cons_zero]
        exact h3
    · rintro ⟨h1, h2, h3⟩
      rcases Nat.eq_or_lt_of_le h1 with h4 | h4
      · right
        subst h4
        rw [Nat.sub_self, List.getD_cons_zero] at h3
        exact ⟨rfl, h2, h3⟩
      · left
        rw [show a - i = (a - (i + 1)) + 1 by omega, List.getD_cons_succ] at h3
        exact ⟨h4, h2, h3⟩

theorem rowCells_sorted (i j : Nat) (r : List Int) : (rowCells i j r).Pairwise RowLt := by
  induction r generalizing j with
  | nil => exact List.Pairwise.nil
  | cons v r ih =>
    rw [rowCells, List.pairwise_cons]
    refine ⟨?_, ih _⟩
    rintro ⟨⟨a, c⟩, s⟩ h
    obtain ⟨h1, h2, _⟩ := mem_rowCells.1 h
    exact Or.inr ⟨h1.symm, h2⟩

theorem cellsDown_sorted (i : Nat) (R : List (List Int)) : (cellsDown i R).Pairwise RowLt := by
  induction R generalizing i with
  | nil => exact List.Pairwise.nil
  | cons r R ih =>
    rw [cellsDown, List.pairwise_append]
    refine ⟨ih _, rowCells_sorted _ _ _, ?_⟩
    rintro ⟨⟨a, c⟩, s⟩ h ⟨⟨a', c'⟩, s'⟩ h'
    obtain ⟨h1, _⟩ := mem_cellsDown.1 h
    obtain ⟨h2, _⟩ := mem_rowCells.1 h'
    left
    simp only; omega

theorem rowCells_word (i j : Nat) (r : List Int) : (rowCells i j r).flatMap Prod.snd = r := by
  induction r generalizing j with
  | nil => rfl
  | cons v r ih => rw [rowCells, List.flatMap_cons, ih]; rfl

theorem cellsDown_word (i : Nat) (R : List (List Int)) : (cellsDown i R).flatMap Prod.snd = R.reverse.flatten := by
  induction R generalizing i with
  | nil => rfl
  | cons r R ih => rw [cellsDown, List.flatMap_append, ih, rowCells_word, List.reverse_cons, List.flatten_append]; simp

theorem get?_setRow (i j : Nat) (r : List Int) (T : Tab) (a c : Nat) :
    (setRow i j r T).get? (a, c) = if a = i ∧ j ≤ c then ((r[c - j]?).map (fun v => [v])).or (T.get? (a, c)) else T.get? (a, c) := by
  induction r generalizing j T with
  | nil => simp [setRow]
  | cons v r ih =>
    rw [setRow, ih, get?_set]
    by_cases h1 : a = i
    · subst h1
      rcases Nat.lt_trichotomy c j with h2 | h2 | h2
      · rw [if_neg (by omega), if_neg (by simp; omega), if_neg (by omega)]
      · subst h2
        rw [if_neg (by omega), if_pos rfl, if_pos (by simp)]
        simp
      · rw [if_pos (by omega), if_neg (by simp; omega), if_pos (by omega)]
        rw [show c - j = (c - (j + 1)) + 1 by omega, List.getElem?_cons_succ]
    · rw [if_neg (by omega), if_neg (by simp; omega), if_neg (by omega)]

theorem get?_setRows (i : Nat) (R : List (List Int)) (T : Tab) (a c : Nat) :
    (setRows i R T).get? (a, c) =
      if i ≤ a ∧ 1 ≤ c then (((R.getD (a - i) [])[c - 1]?).map (fun v => [v])).or (T.get? (a, c)) else T.get? (a, c) := by
  induction R generalizing i T with
  | nil => simp [setRows]
  | cons r R ih =>
    rw [setRows, ih, get?_setRow]
    by_cases hc : 1 ≤ c
    · rcases Nat.lt_trichotomy a i with h2 | h2 | h2
      · rw [if_neg (by omega), if_neg (by omega), if_neg (by omega)]
      · subst h2
        rw [if_neg (by omega), if_pos ⟨rfl, hc⟩, if_pos ⟨le_rfl, hc⟩, Nat.sub_self, List.getD_cons_zero]
      · rw [if_pos (by omega), if_neg (by omega), if_pos (by omega)]
        rw [show a - i = (a - (i + 1)) + 1 by omega, List.getD_cons_succ]
    · rw [if_neg (by omega), if_neg (by omega), if_neg (by omega)]

theorem rowReadingWord_setRows (R : List (List Int)) : rowReadingWord (setRows 1 R empty) = R.reverse.flatten := by
  rw [← cellsDown_word 1, rowReadingWord_of (cellsDown_sorted 1 R)]
  rintro ⟨a, c⟩ s
  rw [mem_cellsDown, get?_setRows, get?_empty, Option.or_none]
  split_ifs with h
  · simp [h.1, h.2]
  · simp only [reduceCtorEq, iff_false]; intro h'; exact h ⟨h'.1, h'.2.1⟩

theorem subwordsLoop_flatten (p : Option Int) (acc : List (List Int)) (w : List Int) (h : acc ≠ []) :
    (subwordsLoop p acc w).flatten = acc.flatten ++ w := by
  induction w generalizing p acc with
  | nil => simp [subwordsLoop]
  | cons a w ih =>
    rw [subwordsLoop]
    split_ifs
    · rw [ih _ _ (by simp)]
      conv_rhs => rw [← List.dropLast_append_getLast h]
      rw [List.getLastD_eq_getLast?, List.getLast?_eq_some_getLast h]
      simp
    · rw [ih _ _ (by simp)]; simp

/-- C76: every word is the row reading word of the tableau that `from_row_reading_word` makes of it. -/
theorem C76_read_made (w : List ℤ) : rowReadingWord (fromRowReadingWord w) = w := by
  rw [fromRowReadingWord, rowReadingWord_setRows, List.reverse_reverse, subwordsLoop_flatten _ _ _ (by simp)]
  simp

/-! ### the other direction -/

/-- Inside a row. -/
theorem subwordsLoop_row (acc : List (List Int)) (r0 r w : List Int) (p : Option Int) (hp : ∀ x, p = some x → ∀ y ∈ r, x ≤ y)
    (hr : r.Pairwise (· ≤ ·)) :
    subwordsLoop p (acc ++ [r0]) (r ++ w) = subwordsLoop (if r = [] then p else r.getLast?) (acc ++ [r0 ++ r]) w := by
  induction r generalizing r0 p with
  | nil => simp
  | cons a r ih =>
    rw [List.pairwise_cons] at hr
    rw [List.cons_append, subwordsLoop, if_pos]
    · rw [List.dropLast_concat, List.getLastD_eq_getLast?, List.getLast?_concat, Option.getD_some,
        ih _ _ (by rintro x h y hy; cases h; exact hr.1 y hy) hr.2, List.append_assoc]
      cases r with
      | nil => simp
      | cons b r => simp
    · cases p with
      | none => rfl
      | some x => simpa using hp x rfl a (by simp)

/-- The rows, read one after the other, are found again. -/
theorem subwordsLoop_rows (acc : List (List Int)) (r0 : List Int) (R : List (List Int)) (h0 : r0 ≠ [])
    (hr : ∀ r ∈ R, r ≠ [] ∧ r.Pairwise (· ≤ ·))
    (hd : (r0 :: R).IsChain (fun r r' => ∀ x, r.getLast? = some x → ∀ y, r'.head? = some y → y < x)) :
    subwordsLoop r0.getLast? (acc ++ [r0]) R.flatten = acc ++ r0 :: R := by
  induction R generalizing acc r0 with
  | nil => simp [subwordsLoop]
  | cons r R ih =>
    rw [List.isChain_cons_cons] at hd
    obtain ⟨h1, h2⟩ := hr r (by simp)
    cases r with
    | nil => exact absurd rfl h1
    | cons a r =>
      rw [List.pairwise_cons] at h2
      rw [List.flatten_cons, List.cons_append, subwordsLoop, List.getLast?_eq_some_getLast h0, if_neg]
      · have h3 := subwordsLoop_row (acc ++ [r0]) [a] r R.flatten (some a) (by rintro x h y hy; cases h; exact h2.1 y hy) h2.2
        rw [h3]
        have h4 : (if r = [] then some a else r.getLast?) = (a :: r).getLast? := by
          cases r with
          | nil => rfl
          | cons b r => simp
        rw [h4, show [a] ++ r = a :: r from rfl, ih (acc ++ [r0]) (a :: r) (by simp) (fun r' hr' => hr r' (by simp [hr'])) hd.2]
        simp
      · have := hd.1 _ (List.getLast?_eq_some_getLast h0) a rfl
        simpa using this

theorem fromRowReadingWord_rows {R : List (List Int)} (hr : ∀ r ∈ R, r ≠ [] ∧ r.Pairwise (· ≤ ·))
    (hd : R.IsChain (fun r' r => ∀ x, r.getLast? = some x → ∀ y, r'.head? = some y → y < x)) :
    fromRowReadingWord R.reverse.flatten = setRows 1 R empty := by
  rw [fromRowReadingWord]
  cases h : R.reverse with
  | nil =>
    have : R = [] := by simpa using h
    subst this; rfl
  | cons r R' =>
    have hR : R = (r :: R').reverse := by rw [← h, List.reverse_reverse]
    obtain ⟨h1, h2⟩ := hr r (by rw [hR]; simp)
    have h3 := subwordsLoop_row [] [] r R'.flatten none (by simp) h2
    rw [if_neg h1] at h3
    simp only [List.nil_append] at h3
    have h4 := subwordsLoop_rows [] r R' h1 (fun r' hr' => hr r' (by rw [hR]; simp [hr'])) (by
      rw [hR, List.isChain_reverse] at hd; exact hd)
    simp only [List.nil_append] at h4
    rw [List.flatten_cons, h3, h4, hR]

/-- The rows of a filling. -/
def rowsOf (mu : List Nat) (f : Nat × Nat → Int) : List (List Int) :=
  (List.range mu.length).map (fun i => (List.range (mu.getD i 0)).map (fun j => f (i + 1, j + 1)))

theorem rowsOf_getD (mu : List Nat) (f : Nat × Nat → Int) (i : Nat) :
    (rowsOf mu f).getD i [] = (List.range (mu.getD i 0)).map (fun j => f (i + 1, j + 1)) := by
  rw [rowsOf]
  by_cases h : i < mu.length
  · rw [List.getD_eq_getElem _ _ (by simpa using h)]; simp
  · rw [List.getD_eq_default _ _ (by simpa using h), List.getD_eq_default _ _ (by simpa using h)]; rfl

theorem mem_diagram {mu : List Nat} {a c : Nat} : (a, c) ∈ Diagram mu ↔ 1 ≤ a ∧ 1 ≤ c ∧ c ≤ mu.getD (a - 1) 0 := by
  unfold Diagram
  rw [Set.mem_ofPred_eq]
  simp only
  by_cases h : a - 1 < mu.length
  · rw [List.getElem?_eq_getElem h, List.getD_eq_getElem _ _ h]; simp
  · rw [List.getElem?_eq_none (by omega), List.getD_eq_default _ _ (by omega)]; simp; omega

theorem setRows_rowsOf {mu : List Nat} {f : Nat × Nat → Int} {T : Tab} (hT : IsFilling (Diagram mu) f T.get?) :
    setRows 1 (rowsOf mu f) empty = T := by
  refine Tab.ext_get? ?_
  rintro ⟨a, c⟩
  rw [get?_setRows, get?_empty, Option.or_none, rowsOf_getD]
  by_cases hb : (a, c) ∈ Diagram mu
  · rw [(hT _).1 hb]
    obtain ⟨h1, h2, h3⟩ := mem_diagram.1 hb
    rw [if_pos ⟨h1, h2⟩, List.getElem?_map, List.getElem?_range (by omega)]
    simp only [Option.map_some]
    rw [show a - 1 + 1 = a by omega, show c - 1 + 1 = c by omega]
  · rw [(hT _).2 hb]
    rw [mem_diagram] at hb
    split_ifs with h
    · rw [List.getElem?_eq_none (by simp; omega)]; rfl
    · rfl

/-- C76: a semistandard tableau of straight shape is recovered from its row reading word. -/
theorem C76_made_read {mu : List ℕ} (hmu : IsPartition mu) {n : ℕ} {f : ℕ × ℕ → ℤ} (hf : IsSemistandard n (Diagram mu) f) {T : Tab}
    (hT : IsFilling (Diagram mu) f T.get?) : fromRowReadingWord (rowReadingWord T) = T := by
  have e := setRows_rowsOf hT
  rw [← e, rowReadingWord_setRows]
  have hpos : ∀ i, i < mu.length → 0 < mu.getD i 0 := by
    intro i hi
    rw [List.getD_eq_getElem _ _ hi]
    exact hmu.2 _ (List.getElem_mem hi)
  have hanti : ∀ i, mu.getD (i + 1) 0 ≤ mu.getD i 0 := by
    intro i
    by_cases h : i + 1 < mu.length
    · rw [List.getD_eq_getElem _ _ h, List.getD_eq_getElem _ _ (by omega)]
      exact List.pairwise_iff_getElem.1 hmu.1 _ _ _ _ (by omega)
    · rw [List.getD_eq_default _ _ (by omega)]; omega
  have hrow : ∀ i j j' : Nat, 1 ≤ i → 1 ≤ j → j ≤ j' → j' ≤ mu.getD (i - 1) 0 → f (i, j) ≤ f (i, j') := by
    intro i j j' hi hj hjj hj'
    induction j', hjj using Nat.le_induction with
    | base => exact le_rfl
    | succ j' hjj ih =>
      exact (ih (by omega)).trans (hf.2.1 i j' (mem_diagram.2 ⟨hi, by omega, by omega⟩) (mem_diagram.2 ⟨hi, by omega, by omega⟩))
  refine fromRowReadingWord_rows ?_ ?_
  · intro r hr
    rw [rowsOf, List.mem_map] at hr
    obtain ⟨i, hi, rfl⟩ := hr
    rw [List.mem_range] at hi
    refine ⟨?_, ?_⟩
    · have := hpos i hi
      intro h
      rw [List.map_eq_nil_iff, List.range_eq_nil] at h
      omega
    · rw [List.pairwise_map]
      refine (List.Pairwise.and_mem.1 List.pairwise_lt_range).imp ?_
      rintro j j' ⟨h1, h2, h3⟩
      rw [List.mem_range] at h2
      exact hrow (i + 1) (j + 1) (j' + 1) (by omega) (by omega) (by omega) (by simpa using h2)
  · rw [List.isChain_iff_getElem]
    intro i hi x hx y hy
    simp only [rowsOf, List.length_map, List.length_range] at hi
    simp only [rowsOf, List.getElem_map, List.getElem_range] at hx hy
    have h1 := hpos (i + 1) (by omega)
    have h2 := hpos i (by omega)
    have h3 := hanti i
    rw [List.getLast?_map, List.getLast?_range] at hx
    rw [List.head?_map, List.head?_range] at hy
    rw [if_neg (by omega)] at hx hy
    simp only [Option.map_some, Option.some.injEq] at hx hy
    subst hx; subst hy
    have h4 : f (i + 1, 1) < f (i + 1 + 1, 1) :=
      hf.2.2 (i + 1) 1 (mem_diagram.2 ⟨by omega, le_rfl, by simp only [Nat.add_sub_cancel]; omega⟩)
        (mem_diagram.2 ⟨by omega, le_rfl, by simp only [Nat.add_sub_cancel]; omega⟩)
    have h5 := hrow (i + 1 + 1) 1 (mu.getD (i + 1) 0 - 1 + 1) (by omega) le_rfl (by omega) (by simp only [Nat.add_sub_cancel]; omega)
    exact lt_of_lt_of_le h4 h5

/-- C76: for tableaux with one entry in each box, the column reading word is the row reading word of the transposed tableau,
backwards. -/
theorem C76_columns {D : Set (ℕ × ℕ)} {f : ℕ × ℕ → ℤ} {T : Tab} (hT : IsFilling D f T.get?) :
    columnReadingWord T = (rowReadingWord T.transpose).reverse := by
  obtain ⟨L, hL, hm⟩ := exists_rowSorted T.transpose
  have h1 : ∀ p ∈ L, p.2.reverse = p.2 := by
    rintro ⟨⟨i, j⟩, s⟩ hp
    have h2 := (hm _ _).1 hp
    rw [get?_transpose] at h2
    by_cases hb : (j, i) ∈ D
    · rw [(hT _).1 hb] at h2; cases h2; rfl
    · rw [(hT _).2 hb] at h2; cases h2
  rw [rowReadingWord_of hL hm, columnReadingWord_of (L := L.reverse.map (fun p => ((p.1.2, p.1.1), p.2)))]
  · rw [List.flatMap_map, List.reverse_flatMap]
    refine List.flatMap_congr ?_
    intro p hp
    simp only [Function.comp]
    exact (h1 p (by simpa using hp)).symm
  · rw [List.pairwise_map, List.pairwise_reverse]
    refine hL.imp ?_
    intro p q h
    simp only [RowLt] at h
    simp only [ColLt]
    omega
  · rintro ⟨i, j⟩ s
    rw [← get?_transpose, ← hm, List.mem_map]
    constructor
    · rintro ⟨⟨⟨a, c⟩, t⟩, h2, h3⟩
      simp only [Prod.mk.injEq] at h3
      obtain ⟨⟨rfl, rfl⟩, rfl⟩ := h3
      simpa using h2
    · intro h
      exact ⟨((j, i), s), by simpa using h, rfl⟩

/-- The tableau with rows `1 1 2` and `2 3`. -/
def readingExample : Tab := ((((empty.set (1, 1) [1]).set (1, 2) [1]).set (1, 3) [2]).set (2, 1) [2]).set (2, 2) [3]

example : rowReadingWord readingExample = [2, 3, 1, 1, 2] ∧ columnReadingWord readingExample = [2, 1, 3, 1, 2] ∧
    fromRowReadingWord [2, 3, 1, 1, 2] = readingExample := by decide +kernel

end Verif.Tab
