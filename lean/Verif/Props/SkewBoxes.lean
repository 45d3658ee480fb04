import Verif.Model.Skew
import Verif.Lemmas.PartitionsMore
import Verif.Props.PartitionsMore
import Verif.Props.Partitions

/-!
# C113: boxes added to columns and ribbons

`add_box_to_column` adds a box to a column if this gives a partition; `shifted_ribbon_complements` lists the interlacing strict partitions;
`shifted_ribbons` fails for all `n ≥ 1`.
-/

namespace Verif.Partition
open Verif.Part
attribute [-simp] List.getD_eq_getElem?_getD

theorem foldl_max_mem : ∀ (a : List Nat) (k : Nat), a.foldl max k = k ∨ a.foldl max k ∈ a := by
  intro a
  induction a with
  | nil => intro k; exact .inl rfl
  | cons x a ih =>
    intro k
    rw [List.foldl_cons]
    rcases ih (max k x) with h | h
    · rw [h]
      rcases le_total k x with h1 | h1
      · rw [max_eq_right h1]; exact .inr (List.mem_cons_self ..)
      · rw [max_eq_left h1]; exact .inl rfl
    · exact .inr (List.mem_cons_of_mem _ h)

theorem foldl_max_ge : ∀ (a : List Nat) (k : Nat), k ≤ a.foldl max k ∧ ∀ x ∈ a, x ≤ a.foldl max k := by
  intro a
  induction a with
  | nil => intro k; simp
  | cons x a ih =>
    intro k
    rw [List.foldl_cons]
    have h := ih (max k x)
    refine ⟨by omega, fun y hy => ?_⟩
    rcases List.mem_cons.1 hy with rfl | hy
    · omega
    · exact h.2 y hy

/-- The row of the new box. -/
theorem newRow_spec (S : List (Nat × Nat)) (col : Nat) (hS : ∀ b ∈ S, 1 ≤ b.1) :
    let a := (S.filter (fun b => decide (b.2 = col))).map (fun b => b.1)
    let row := if a = [] then 1 else a.foldl max 0 + 1
    1 ≤ row ∧ (∀ k, (k, col) ∈ S → k < row) ∧ (row = 1 ∨ (row - 1, col) ∈ S) := by
  intro a row
  have ha : ∀ k, k ∈ a ↔ (k, col) ∈ S := by
    intro k
    simp only [a, List.mem_map, List.mem_filter, decide_eq_true_eq]
    constructor
    · rintro ⟨⟨x, y⟩, ⟨h1, rfl⟩, rfl⟩
      exact h1
    · intro h
      exact ⟨(k, col), ⟨h, rfl⟩, rfl⟩
  by_cases h0 : a = []
  · have hr : row = 1 := if_pos h0
    rw [hr]
    refine ⟨le_refl _, fun k hk => ?_, .inl rfl⟩
    have := (ha k).2 hk
    rw [h0] at this
    simp at this
  · have hr : row = a.foldl max 0 + 1 := if_neg h0
    rw [hr]
    refine ⟨by omega, fun k hk => ?_, .inr ?_⟩
    · have := (foldl_max_ge a 0).2 k ((ha k).2 hk)
      omega
    · rw [Nat.add_sub_cancel]
      refine (ha _).1 ?_
      rcases foldl_max_mem a 0 with h | h
      · obtain ⟨x, hx⟩ := List.exists_mem_of_ne_nil a h0
        have h1 := (foldl_max_ge a 0).2 x hx
        have h2 := hS _ ((ha x).1 hx)
        dsimp only at h2
        omega
      · exact h

theorem shiftedDiagram_column {p : List Nat} (h : IsStrict p) {i j k : Nat} (hi : (i, j) ∈ ShiftedDiagram p) (h1 : 1 ≤ k) (hk : k ≤ i) :
    (k, j) ∈ ShiftedDiagram p := by
  obtain ⟨d, rfl⟩ := Nat.exists_eq_add_of_le hk
  clear hk
  induction d with
  | zero => exact hi
  | succ d ih =>
    refine ih ?_
    rw [mem_shiftedDiagram] at hi ⊢
    have h2 := strict_next h (k + d - 1)
    have e1 : k + (d + 1) - 1 = k + d - 1 + 1 := by omega
    rw [e1] at hi
    omega

theorem diagram_column {p : List Nat} (h : IsPartition p) {i j k : Nat} (hi : (i, j) ∈ Diagram p) (h1 : 1 ≤ k) (hk : k ≤ i) :
    (k, j) ∈ Diagram p := by
  rw [mem_diagram] at hi ⊢
  have : p.getD (i - 1) 0 ≤ p.getD (k - 1) 0 := getD_antitone h.1 (by omega)
  omega

theorem diagram_addRow (p : List Nat) {row col : Nat} (h1 : 1 ≤ row) (hrow : p.getD (row - 1) 0 + 1 = col) :
    Diagram (addBoxToRow p row) = Diagram p ∪ {(row, col)} := by
  ext ⟨a, b⟩
  simp only [Set.mem_union, Set.mem_singleton_iff, Prod.mk.injEq, mem_diagram, getD_addBoxToRow]
  by_cases e : a - 1 + 1 = row
  · rw [if_pos e]
    by_cases ha : 1 ≤ a
    · have : a = row := by omega
      subst this
      omega
    · omega
  · rw [if_neg e]; omega

theorem shiftedDiagram_addRow (p : List Nat) {row col : Nat} (h1 : 1 ≤ row) (hrow : row + p.getD (row - 1) 0 = col) :
    ShiftedDiagram (addBoxToRow p row) = ShiftedDiagram p ∪ {(row, col)} := by
  ext ⟨a, b⟩
  simp only [Set.mem_union, Set.mem_singleton_iff, Prod.mk.injEq, mem_shiftedDiagram, getD_addBoxToRow]
  by_cases e : a - 1 + 1 = row
  · rw [if_pos e]
    by_cases ha : 1 ≤ a
    · have : a = row := by omega
      subst this
      omega
    · omega
  · rw [if_neg e]; omega

theorem getD_rowList (p : List Nat) (row k : Nat) : ((List.range' 1 (max p.length row)).map (fun i => get p i + (if i = row then 1 else 0))).getD k 0 =
    p.getD k 0 + (if k + 1 = row then 1 else 0) := by
  rw [← getD_addBoxToRow, addBoxToRow, getD_trim]

/-- C113: `add_box_to_column(p, col, False)` returns `q` exactly if `q` is a partition whose diagram is that of `p` with one more box, in
column `col`; if there is none, the assertion fails. -/
theorem C113_column {p : List Nat} (h : IsPartition p) (col : Nat) (q : List Nat) :
    addBoxToColumn p col false = some q ↔ IsPartition q ∧ ∃ i, (i, col) ∉ Diagram p ∧ Diagram q = Diagram p ∪ {(i, col)} := by
  have hspec := newRow_spec (shape p) col (fun b hb => by obtain ⟨i, j⟩ := b; exact (mem_diagram.1 (mem_shape.1 hb)).1)
  rw [addBoxToColumn]
  simp only [Bool.false_eq_true, if_false]
  dsimp only at hspec
  obtain ⟨row, hrw⟩ : ∃ row, (if ((shape p).filter (fun b => decide (b.2 = col))).map (fun b => b.1) = [] then 1 else
      (((shape p).filter (fun b => decide (b.2 = col))).map (fun b => b.1)).foldl max 0 + 1) = row := ⟨_, rfl⟩
  rw [hrw] at hspec ⊢
  obtain ⟨h1, h2, h3⟩ := hspec
  have hnot : (row, col) ∉ shape p := fun hc => by have := h2 row hc; omega
  rw [if_neg hnot]
  have hmem : ∀ b, b ∈ shape p ++ [(row, col)] ↔ b ∈ Diagram p ∪ {(row, col)} := by
    intro b
    rw [List.mem_append, List.mem_singleton, mem_shape]
    rfl
  have hnd : (shape p ++ [(row, col)]).Nodup := by
    rw [List.nodup_append]
    exact ⟨nodup_shapeFrom _ _, by simp, fun a ha b hb hab => hnot (by rw [← List.mem_singleton.1 hb, ← hab]; exact ha)⟩
  constructor
  · intro hs
    split at hs
    swap
    · cases hs
    rename_i hall
    rw [List.all_eq_true] at hall
    have h4 := hall (row, col) (by simp)
    rw [Bool.or_eq_true, decide_eq_true_eq, decide_eq_true_eq] at h4
    dsimp only at h4
    have hrow : p.getD (row - 1) 0 + 1 = col := by
      rw [mem_shape, mem_diagram] at hnot
      rcases h4 with ⟨h5, h6⟩ | h5
      · rw [hmem] at h6
        rcases h6 with h6 | h6
        · rw [mem_diagram] at h6
          omega
        · rw [Set.mem_singleton_iff, Prod.mk.injEq] at h6
          omega
      · omega
    have hP : IsPartition (addBoxToRow p row) := by
      apply trim_isPartition
      rw [pairwise_ge_iff]
      intro k
      rw [getD_rowList, getD_rowList]
      have hk : p.getD (k + 1) 0 ≤ p.getD k 0 := getD_antitone h.1 (by omega)
      by_cases e1 : k + 1 + 1 = row
      · rcases h3 with h3 | h3
        · omega
        · rw [mem_shape, mem_diagram] at h3
          have e2 : row - 1 = k + 1 := by omega
          have e3 : row - 1 - 1 = k := by omega
          rw [e2] at hrow
          rw [e3] at h3
          rw [if_pos e1]
          split <;> omega
      · rw [if_neg e1]
        split <;> omega
    have hD := diagram_addRow p h1 hrow
    have hq : fromShape (shape p ++ [(row, col)]) = addBoxToRow p row :=
      (C23_from_shape hP).2.2 _ hnd (fun b => by rw [hmem, hD])
    rw [hq, trim_of_pos hP.2] at hs
    obtain rfl := Option.some.inj hs
    exact ⟨hP, row, fun hc => hnot (mem_shape.2 hc), hD⟩
  · rintro ⟨hq, i, hi, hD⟩
    have hin : (i, col) ∈ Diagram q := by rw [hD]; exact Set.mem_union_right _ rfl
    have hi1 := (mem_diagram.1 hin).1
    obtain rfl : i = row := by
      rcases Nat.lt_trichotomy i row with hlt | heq | hgt
      · exfalso
        rcases h3 with h3 | h3
        · omega
        · exact hi (diagram_column h (mem_shape.1 h3) hi1 (by omega))
      · exact heq
      · exfalso
        have h4 := diagram_column hq hin h1 (le_of_lt hgt)
        rw [hD] at h4
        rcases h4 with h4 | h4
        · exact hnot (mem_shape.2 h4)
        · rw [Set.mem_singleton_iff, Prod.mk.injEq] at h4
          omega
    rw [if_pos]
    · rw [(C23_from_shape hq).2.2 _ hnd (fun b => by rw [hmem, hD]), trim_of_pos hq.2]
    · rw [List.all_eq_true]
      rintro ⟨a, b⟩ hb
      rw [hmem, ← hD, mem_diagram] at hb
      rw [Bool.or_eq_true, decide_eq_true_eq, decide_eq_true_eq]
      dsimp only
      by_cases hb1 : b = 1
      · exact .inr hb1
      · refine .inl ⟨by omega, ?_⟩
        rw [hmem, ← hD, mem_diagram]
        omega

/-- C113: `add_box_to_column(p, col, True)` returns `q` exactly if `q` is a strict partition whose shifted diagram is that of `p` with one
more box, in column `col`. -/
theorem C113_column_shifted {p : List Nat} (h : IsStrict p) (col : Nat) (q : List Nat) :
    addBoxToColumn p col true = some q ↔
      IsStrict q ∧ ∃ i, (i, col) ∉ ShiftedDiagram p ∧ ShiftedDiagram q = ShiftedDiagram p ∪ {(i, col)} := by
  have hspec := newRow_spec (shiftedShape p) col (fun b hb => by obtain ⟨i, j⟩ := b; exact (mem_shiftedDiagram.1 (mem_shiftedShape.1 hb)).1)
  rw [addBoxToColumn]
  simp only [if_true]
  dsimp only at hspec
  obtain ⟨row, hrw⟩ : ∃ row, (if ((shiftedShape p).filter (fun b => decide (b.2 = col))).map (fun b => b.1) = [] then 1 else
      (((shiftedShape p).filter (fun b => decide (b.2 = col))).map (fun b => b.1)).foldl max 0 + 1) = row := ⟨_, rfl⟩
  rw [hrw] at hspec ⊢
  obtain ⟨h1, h2, h3⟩ := hspec
  have hnot : (row, col) ∉ shiftedShape p := fun hc => by have := h2 row hc; omega
  rw [if_neg hnot]
  have hmem : ∀ b, b ∈ shiftedShape p ++ [(row, col)] ↔ b ∈ ShiftedDiagram p ∪ {(row, col)} := by
    intro b
    rw [List.mem_append, List.mem_singleton, mem_shiftedShape]
    rfl
  have hnd : (shiftedShape p ++ [(row, col)]).Nodup := by
    rw [List.nodup_append]
    exact ⟨nodup_shiftedShapeFrom _ _, by simp, fun a ha b hb hab => hnot (by rw [← List.mem_singleton.1 hb, ← hab]; exact ha)⟩
  constructor
  · intro hs
    split at hs
    swap
    · cases hs
    rename_i hall
    rw [List.all_eq_true] at hall
    have h4 := hall (row, col) (by simp)
    rw [Bool.or_eq_true, decide_eq_true_eq, decide_eq_true_eq] at h4
    dsimp only at h4
    have hrow : row + p.getD (row - 1) 0 = col := by
      rw [mem_shiftedShape, mem_shiftedDiagram] at hnot
      rcases h4 with ⟨h5, h6⟩ | h5
      · rw [hmem] at h6
        rcases h6 with h6 | h6
        · rw [mem_shiftedDiagram] at h6
          omega
        · rw [Set.mem_singleton_iff, Prod.mk.injEq] at h6
          omega
      · omega
    have hP : IsStrict (addBoxToRow p row) := by
      apply trim_isStrict_of_next
      intro k
      rw [getD_rowList, getD_rowList]
      have hk := strict_next h k
      by_cases e1 : k + 1 + 1 = row
      · rcases h3 with h3 | h3
        · omega
        · rw [mem_shiftedShape, mem_shiftedDiagram] at h3
          have e2 : row - 1 = k + 1 := by omega
          have e3 : row - 1 - 1 = k := by omega
          rw [e2] at hrow
          rw [e3] at h3
          rw [if_pos e1]
          split <;> omega
      · rw [if_neg e1]
        split <;> omega
    have hD := shiftedDiagram_addRow p h1 hrow
    have hq : fromShape (shiftedShape p ++ [(row, col)]) = addBoxToRow p row :=
      (C23_from_shifted_shape hP).2.2 _ hnd (fun b => by rw [hmem, hD])
    rw [hq, trim_of_pos hP.2] at hs
    obtain rfl := Option.some.inj hs
    exact ⟨hP, row, fun hc => hnot (mem_shiftedShape.2 hc), hD⟩
  · rintro ⟨hq, i, hi, hD⟩
    have hin : (i, col) ∈ ShiftedDiagram q := by rw [hD]; exact Set.mem_union_right _ rfl
    have hi1 := (mem_shiftedDiagram.1 hin).1
    obtain rfl : i = row := by
      rcases Nat.lt_trichotomy i row with hlt | heq | hgt
      · exfalso
        rcases h3 with h3 | h3
        · omega
        · exact hi (shiftedDiagram_column h (mem_shiftedShape.1 h3) hi1 (by omega))
      · exact heq
      · exfalso
        have h4 := shiftedDiagram_column hq hin h1 (le_of_lt hgt)
        rw [hD] at h4
        rcases h4 with h4 | h4
        · exact hnot (mem_shiftedShape.2 h4)
        · rw [Set.mem_singleton_iff, Prod.mk.injEq] at h4
          omega
    rw [if_pos]
    · rw [(C23_from_shifted_shape hq).2.2 _ hnd (fun b => by rw [hmem, hD]), trim_of_pos hq.2]
    · rw [List.all_eq_true]
      rintro ⟨a, b⟩ hb
      rw [hmem, ← hD, mem_shiftedDiagram] at hb
      rw [Bool.or_eq_true, decide_eq_true_eq, decide_eq_true_eq]
      dsimp only
      by_cases hb1 : a = b
      · exact .inr hb1
      · refine .inl ⟨by omega, ?_⟩
        rw [hmem, ← hD, mem_shiftedDiagram]
        omega

example : IsPartition [3, 1] ∧ addBoxToColumn [3, 1] 2 false = some [3, 2] ∧ addBoxToColumn [3, 1] 1 false = some [3, 1, 1] ∧
    addBoxToColumn [3, 1] 3 false = none ∧ addBoxToColumn [3, 1] 4 false = some [4, 1] := by
  refine ⟨⟨by decide, by decide⟩, by decide +kernel, by decide +kernel, by decide +kernel, by decide +kernel⟩

example : IsStrict [4, 1] ∧ addBoxToColumn [4, 1] 2 true = none ∧ addBoxToColumn [4, 1] 3 true = some [4, 2] ∧
    addBoxToColumn [4, 1] 5 true = some [5, 1] ∧ addBoxToColumn [4, 2] 3 true = some [4, 2, 1] := by
  refine ⟨⟨by decide, by decide⟩, by decide +kernel, by decide +kernel, by decide +kernel, by decide +kernel⟩

/-- C113: `add_box_to_row(p, row)` adds one to the number in place `row`, with zeros where `p` has no entries, and keeps the others. -/
theorem C113_row (p : List Nat) (row i : Nat) (h : 1 ≤ row) :
    (addBoxToRow p row).getD (row - 1) 0 = p.getD (row - 1) 0 + 1 ∧ (i + 1 ≠ row → (addBoxToRow p row).getD i 0 = p.getD i 0) := by
  rw [getD_addBoxToRow, getD_addBoxToRow, if_pos (by omega)]
  exact ⟨rfl, fun hi => by rw [if_neg hi]; rfl⟩

example : addBoxToRow [3, 1] 4 = [3, 1, 0, 1] ∧ addBoxToRow [3, 1] 2 = [3, 2] := by decide

/-- C113: `isin_shifted(mu, i, j)` says whether `(i, j)` is a box of the shifted diagram, for all ints. -/
theorem C113_isin (mu : List Nat) (i j : Int) : isinShifted mu i j = true ↔ 1 ≤ i ∧ 1 ≤ j ∧ (i.toNat, j.toNat) ∈ ShiftedDiagram mu := by
  rw [isinShifted, isin, Bool.and_eq_true, decide_eq_true_eq, decide_eq_true_eq, mem_shiftedDiagram]
  simp only [if_true]
  by_cases hi : 1 ≤ i
  · rw [if_pos hi, get_eq mu (by omega)]
    omega
  · rw [if_neg hi]
    omega

example : isinShifted [3, 1] 2 2 = true ∧ isinShifted [3, 1] 2 1 = false ∧ isinShifted [3, 1] 0 0 = false := by decide

/-- C113: `merge_shifted(mu, shape)` is the strict partition whose shifted diagram is the union of that of `mu` and of `shape`. -/
theorem C113_merge {mu lam : List Nat} {sh : List (Nat × Nat)} (hsh : sh.Nodup) (hl : IsStrict lam)
    (h : ShiftedDiagram lam = ShiftedDiagram mu ∪ {b | b ∈ sh}) : mergeShifted mu sh = lam := by
  refine (C23_from_shifted_shape hl).2.2 _ ?_ (fun b => ?_)
  · rw [List.nodup_append]
    refine ⟨nodup_shiftedShapeFrom _ _, hsh.filter _, fun a ha b hb hab => ?_⟩
    have := (List.mem_filter.1 hb).2
    rw [decide_eq_true_eq, ← hab] at this
    exact this ha
  · rw [h, List.mem_append, List.mem_filter, decide_eq_true_eq, Set.mem_union, ← mem_shiftedShape]
    constructor
    · rintro (h1 | h1)
      · exact .inl h1
      · exact .inr h1.1
    · rintro (h1 | h1)
      · exact .inl h1
      · by_cases h2 : b ∈ shiftedShape mu
        · exact .inl h2
        · exact .inr ⟨h1, h2⟩

example : mergeShifted [3] [(2, 2), (1, 3), (1, 4)] = [4, 1] := by decide +kernel

/-- C113: `shifted_ribbon_complements(mu)` lists once each the strict partitions `kappa` with `mu_{i+1} ≤ kappa_i ≤ mu_i`. -/
theorem C113_complements {mu : List Nat} (h : IsStrict mu) :
    (shiftedRibbonComplements mu).Nodup ∧ ∀ kappa, kappa ∈ shiftedRibbonComplements mu ↔
      IsStrict kappa ∧ ∀ i, mu.getD (i + 1) 0 ≤ kappa.getD i 0 ∧ kappa.getD i 0 ≤ mu.getD i 0 := by
  have hpos : ∀ a ∈ mu.drop 1, 0 < a := fun a ha => h.2 a (List.mem_of_mem_drop ha)
  have htrim : trim (mu.drop 1) = mu.drop 1 := trim_of_pos hpos
  have hnu : IsPartition (mu.drop 1) := ⟨((isStrict_isPartition h).1).sublist (List.drop_sublist _ _), hpos⟩
  rw [shiftedRibbonComplements, htrim]
  obtain ⟨h1, h2⟩ := C19_subpartitions_partial true (isStrict_isPartition h) hnu (by rw [List.length_drop]; omega)
  refine ⟨h1, fun kappa => ?_⟩
  rw [h2, diagram_subset, diagram_subset]
  have hd : ∀ i, (mu.drop 1).getD i 0 = mu.getD (i + 1) 0 := by
    intro i
    rw [List.getD_eq_getElem?_getD, List.getElem?_drop, List.getD_eq_getElem?_getD, Nat.add_comm]
  simp only [hd]
  constructor
  · rintro ⟨h3, h4, h5, h6⟩
    exact ⟨⟨h6 trivial, h3.2⟩, fun i => ⟨h4 i, h5 i⟩⟩
  · rintro ⟨h3, h4⟩
    exact ⟨isStrict_isPartition h3, fun i => (h4 i).1, fun i => (h4 i).2, fun _ => h3.1⟩

example : IsStrict [3, 1] ∧ shiftedRibbonComplements [3, 1] = [[1], [2], [3], [2, 1], [3, 1]] := by
  refine ⟨⟨by decide, by decide⟩, by decide +kernel⟩

/-- C113: the function of utils.py gives the same pair as that of partitions.py for every nonempty composition, and IndexError for `()`. -/
theorem C113_utils {alpha : List Nat} (h : ∀ a ∈ alpha, 0 < a) :
    utilsShiftedRibbon alpha = if alpha = [] then none else some (shiftedRibbon alpha) := by
  rw [utilsShiftedRibbon]
  by_cases h0 : alpha = []
  · rw [if_pos h0, if_pos h0]
  rw [if_neg h0, if_neg h0]
  obtain ⟨h1, h2, h3, h4⟩ := C46_ribbon h
  have hlen : 0 < alpha.length := List.length_pos_of_ne_nil h0
  have hsum : ∀ i, i < alpha.length → 0 < (alpha.drop i).sum := by
    intro i hi
    rw [List.drop_eq_getElem_cons hi, List.sum_cons]
    have := h _ (List.getElem_mem hi)
    omega
  have hds : ∀ i, i < alpha.length → (alpha.drop i).sum = alpha.getD i 0 + (alpha.drop (i + 1)).sum := by
    intro i hi
    rw [List.drop_eq_getElem_cons hi, List.sum_cons, List.getD_eq_getElem _ _ hi]
  congr 1
  refine Prod.ext ?_ ?_
  · have e : trim ((List.range alpha.length).map (fun i => (alpha.drop i).sum)) = (List.range alpha.length).map (fun i => (alpha.drop i).sum) :=
      trim_of_pos (fun a ha => by
        obtain ⟨i, hi, rfl⟩ := List.mem_map.1 ha
        exact hsum i (List.mem_range.1 hi))
    rw [shiftedRibbon]
    dsimp only
    rw [e]
    obtain ⟨m, hm⟩ : ∃ m, alpha.length = m + 1 := ⟨alpha.length - 1, by omega⟩
    rw [hm, List.range_succ, List.map_append, Nat.add_sub_cancel, List.range'_eq_map_range, List.map_map]
    congr 1
    · refine List.map_congr_left (fun i hi => ?_)
      have hi := List.mem_range.1 hi
      dsimp only [Function.comp_apply]
      rw [hds i (by omega), show 1 + i - 1 = i by omega, Nat.add_comm 1 i, Nat.add_comm]
    · have h5 : (alpha.drop m).sum = alpha.getLastD 0 := by
        have h6 := hds m (by omega)
        have h7 : alpha.drop (m + 1) = [] := List.drop_eq_nil_of_le (by omega)
        have h8 : alpha.getLastD 0 = alpha.getD m 0 := by
          rw [List.getLastD_eq_getLast?, List.getLast?_eq_getElem?, hm, Nat.add_sub_cancel, List.getD_eq_getElem?_getD]
        rw [h6, h7, h8]
        rfl
      rw [List.map_singleton, h5]
  · rw [shiftedRibbon]
    dsimp only
    obtain ⟨m, hm⟩ : ∃ m, alpha.length = m + 1 := ⟨alpha.length - 1, by omega⟩
    rw [hm, Nat.add_sub_cancel, List.range'_eq_map_range, List.map_map]
    have hpos : ∀ a ∈ (List.range m).map (fun i => (alpha.drop (i + 1)).sum), 0 < a := by
      intro a ha
      obtain ⟨i, hi, rfl⟩ := List.mem_map.1 ha
      exact hsum _ (by have := List.mem_range.1 hi; omega)
    have e1 : (List.range m).map ((fun i => (alpha.drop i).sum) ∘ (fun x => 1 + x)) = (List.range m).map (fun i => (alpha.drop (i + 1)).sum) :=
      List.map_congr_left (fun i _ => by dsimp only [Function.comp_apply]; rw [Nat.add_comm])
    rw [e1]
    have e2 : (List.range (m + 1)).map (fun i => (alpha.drop (i + 1)).sum) = (List.range m).map (fun i => (alpha.drop (i + 1)).sum) ++ [0] := by
      rw [List.range_succ, List.map_append, List.map_singleton, List.drop_eq_nil_of_le (by omega), List.sum_nil]
    rw [e2, trim, List.reverse_append, List.reverse_singleton, List.singleton_append, List.dropWhile_cons]
    simp only [beq_self_eq_true, if_true]
    exact (trim_of_pos hpos).symm

example : (∀ a ∈ [2, 1, 3], 0 < a) ∧ utilsShiftedRibbon [2, 1, 3] = some ([6, 4, 3], [4, 3]) := by decide

theorem ribbonGenerate_step (m : Nat) {NU LAM : List Nat} {u : Option Int} (hu : u = none ∨ u = some ((m + 1 : Nat) : Int))
    (h : ribbonGenerate NU LAM (some (m : Int)) = ([], some .indexError)) :
    ribbonGenerate ((m + 2) :: NU) ((m + 1) :: LAM) u = ([], some .indexError) := by
  rw [ribbonGenerate.eq_def]
  have h1 : ribbonGenerate NU LAM (some (((m + 1 : Nat) : Int) - 1)) = ([], some .indexError) := by
    rw [show (((m + 1 : Nat) : Int) - 1) = (m : Int) by omega]
    exact h
  rcases hu with rfl | rfl
  · dsimp only
    rw [show (((m + 2 : Nat) : Int) + 1 - ((m + 1 : Nat) : Int)).toNat = 1 + 1 by omega, List.range'_succ, forGen, h1]
    rfl
  · dsimp only
    rw [show (min ((m + 2 : Nat) : Int) ((m + 1 : Nat) : Int) + 1 - ((m + 1 : Nat) : Int)).toNat = 0 + 1 by omega, List.range'_succ, forGen, h1]
    rfl

/-- The staircase with an upper bound. -/
theorem ribbonGenerate_stair (m : Nat) : ∀ u : Option Int, (u = none ∨ u = some (m : Int)) →
    ribbonGenerate ((List.range (m + 1)).reverse.map (· + 1)) ((List.range m).reverse.map (· + 1)) u = ([], some .indexError) := by
  have e : ∀ k, (List.range (k + 1)).reverse.map (· + 1) = (k + 1) :: (List.range k).reverse.map (· + 1) := by
    intro k
    rw [List.range_succ, List.reverse_append]
    rfl
  induction m with
  | zero => intro u _; rfl
  | succ m ih =>
    intro u hu
    have h1 := ribbonGenerate_step m hu (ih (some (m : Int)) (.inr rfl))
    rw [e (m + 1)]
    conv_lhs => arg 2; rw [e m]
    exact h1

theorem compositions_head (n : Nat) : ∃ L, compositions n = List.replicate n 1 :: L := by
  induction n with
  | zero => rw [compositions]; exact ⟨[], rfl⟩
  | succ n ih =>
    obtain ⟨L, hL⟩ := ih
    rw [compositions, dif_neg (by omega), List.range_succ_eq_map, List.flatMap_cons, show n + 1 - (0 + 1) = n by omega, hL]
    exact ⟨_, rfl⟩

theorem ribbon_ones (m : Nat) : shiftedRibbon (List.replicate (m + 1) 1) = ((List.range (m + 1)).reverse.map (· + 1), (List.range m).reverse.map (· + 1)) := by
  have hs : ∀ i, ((List.replicate (m + 1) 1).drop i).sum = m + 1 - i := by
    intro i
    rw [List.drop_replicate, List.sum_replicate_nat, Nat.mul_one]
  have hrev : ∀ k, (List.range k).reverse.map (· + 1) = (List.range k).map (fun i => k - i) := by
    intro k
    refine List.ext_getElem (by simp) (fun i h1 h2 => ?_)
    simp only [List.length_map, List.length_range] at h2
    simp only [List.getElem_map, List.getElem_reverse, List.getElem_range, List.length_range]
    omega
  rw [shiftedRibbon, List.length_replicate]
  simp only [hs]
  refine Prod.ext ?_ ?_
  · dsimp only
    rw [hrev]
    refine trim_of_pos (fun a ha => ?_)
    obtain ⟨i, hi, rfl⟩ := List.mem_map.1 ha
    have := List.mem_range.1 hi
    omega
  · dsimp only
    rw [hrev, List.range_succ, List.map_append, List.map_singleton, Nat.sub_self, trim, List.reverse_append, List.reverse_singleton,
      List.singleton_append, List.dropWhile_cons]
    simp only [beq_self_eq_true, if_true, Nat.add_sub_add_right]
    refine trim_of_pos (fun a ha => ?_)
    obtain ⟨i, hi, rfl⟩ := List.mem_map.1 ha
    have := List.mem_range.1 hi
    omega

/-- C113: `shifted_ribbons(0)` yields the pair of empty partitions; for every `n ≥ 1` the generator raises IndexError before it yields a
value. -/
theorem C113_ribbons (n : Nat) : shiftedRibbons n = if n = 0 then ([([], [])], none) else ([], some .indexError) := by
  cases n with
  | zero => rw [if_pos rfl, shiftedRibbons, compositions, dif_pos rfl]; decide +kernel
  | succ m =>
    obtain ⟨L, hL⟩ := compositions_head (m + 1)
    rw [if_neg (by omega), shiftedRibbons, hL, ribbonsLoop, if_neg (by simp), ribbon_ones]
    dsimp only
    rw [ribbonGenerate_stair m none (.inl rfl)]
    rfl

example : shiftedRibbons 3 = ([], some .indexError) := by decide +kernel

end Verif.Partition
