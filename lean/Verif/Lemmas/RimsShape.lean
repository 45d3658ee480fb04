import Verif.Lemmas.Rims
import Verif.Model.Tableau

/-! The rims of partitions.py:479-494 and the partitions they belong to. -/

attribute [-simp] List.getD_eq_getElem?_getD

namespace Verif.Partition

open Verif.Part

/-! ### Sorted lists of boxes -/

instance : IsTrans (Nat × Nat) (fun a b => a.1 < b.1 ∨ (a.1 = b.1 ∧ a.2 ≤ b.2)) := ⟨fun a b c h1 h2 => by omega⟩
instance : Std.Total (fun a b : Nat × Nat => a.1 < b.1 ∨ (a.1 = b.1 ∧ a.2 ≤ b.2)) := ⟨fun a b => by omega⟩

theorem perm_sortBoxes (l : List (Nat × Nat)) : (sortBoxes l).Perm l := List.perm_insertionSort _ _

theorem mem_sortBoxes {l : List (Nat × Nat)} {b : Nat × Nat} : b ∈ sortBoxes l ↔ b ∈ l := (perm_sortBoxes l).mem_iff

theorem nodup_sortBoxes {l : List (Nat × Nat)} : (sortBoxes l).Nodup ↔ l.Nodup := (perm_sortBoxes l).nodup_iff

theorem sorted_sortBoxes {l : List (Nat × Nat)} (h : l.Nodup) : (sortBoxes l).Pairwise boxLt := by
  have h1 : (sortBoxes l).Pairwise (fun a b => a.1 < b.1 ∨ (a.1 = b.1 ∧ a.2 ≤ b.2)) := List.pairwise_insertionSort _ _
  have h2 : (sortBoxes l).Pairwise (· ≠ ·) := nodup_sortBoxes.2 h
  refine (h1.and h2).imp ?_
  rintro a b ⟨ha, hb⟩
  unfold boxLt
  have : ¬ (a.1 = b.1 ∧ a.2 = b.2) := fun e => hb (Prod.ext e.1 e.2)
  omega

theorem boxLt_irrefl (a : Nat × Nat) : ¬ boxLt a a := by unfold boxLt; omega

theorem nodup_of_boxLt {l : List (Nat × Nat)} (h : l.Pairwise boxLt) : l.Nodup :=
  List.Pairwise.imp (S := (· ≠ ·)) (fun {a b} hab e => boxLt_irrefl a (by rw [← e] at hab; exact hab)) h

theorem boxes_ext {l l' : List (Nat × Nat)} (h : l.Pairwise boxLt) (h' : l'.Pairwise boxLt) (hm : ∀ b, b ∈ l ↔ b ∈ l') : l = l' := by
  refine List.Perm.eq_of_pairwise (le := boxLt) ?_ h h' ((List.perm_ext_iff_of_nodup (nodup_of_boxLt h) (nodup_of_boxLt h')).2 hm)
  intro a b _ _ h1 h2
  unfold boxLt at h1 h2
  omega

theorem eq_sortBoxes {l s : List (Nat × Nat)} (hl : l.Nodup) : s = sortBoxes l ↔ s.Pairwise boxLt ∧ ∀ b, b ∈ s ↔ b ∈ l := by
  constructor
  · rintro rfl
    exact ⟨sorted_sortBoxes hl, fun b => mem_sortBoxes⟩
  · rintro ⟨h1, h2⟩
    exact boxes_ext h1 (sorted_sortBoxes hl) (fun b => by rw [h2, mem_sortBoxes])

/-! ### The border -/

variable {mu : List Nat}

theorem row_sum_le (h : IsStrict mu) {i k : Nat} (hik : i ≤ k) (hk : k < mu.length) : k + mu.getD k 0 ≤ i + mu.getD i 0 := by
  have := isStrict_rows h hik hk
  omega

theorem getD_extended (mu : List Nat) (i : Nat) : ((mu ++ [0]).getD 0 0 :: (mu ++ [0])).getD i 0 = mu.getD (i - 1) 0 := by
  have h0 : ∀ k, (mu ++ [0]).getD k 0 = mu.getD k 0 := by
    intro k
    by_cases hk : k < mu.length
    · rw [List.getD_append _ _ _ _ hk]
    · rw [List.getD_append_right _ _ _ _ (by omega), List.getD_eq_default mu 0 (by omega)]
      rcases Nat.eq_zero_or_pos (k - mu.length) with e | e
      · rw [e]; rfl
      · exact List.getD_eq_default _ _ (by simp; omega)
  cases i with
  | zero => rw [List.getD_cons_zero]; exact h0 0
  | succ i => rw [List.getD_cons_succ, h0]; rfl

theorem border_eq (h : IsStrict mu) : border mu = (List.range' 1 (mu.length + 1)).reverse.flatMap (fun i =>
    (List.range (mu.getD (i - 2) 0 - mu.getD (i - 1) 0)).map (fun j => (i, i + mu.getD (i - 1) 0 + j))) ++ [(1, 1 + mu.getD 0 0)] := by
  have hl : ((mu ++ [0]).getD 0 0 :: (mu ++ [0])).length - 1 = mu.length + 1 := by simp
  rw [border]
  simp only [trim_of_pos h.2, hl, getD_extended]
  rfl

theorem mem_border (h : IsStrict mu) {i j : Nat} : (i, j) ∈ border mu ↔
    1 ≤ i ∧ i + mu.getD (i - 1) 0 ≤ j ∧ (i = 1 → j = 1 + mu.getD 0 0) ∧ (2 ≤ i → j < i + mu.getD (i - 2) 0) := by
  rw [border_eq h]
  simp only [List.mem_append, List.mem_flatMap, List.mem_reverse, List.mem_range'_1, List.mem_map, List.mem_range,
    List.mem_singleton, Prod.mk.injEq]
  constructor
  · rintro (⟨k, ⟨hk1, hk2⟩, d, hd, rfl, rfl⟩ | ⟨rfl, rfl⟩)
    · refine ⟨hk1, by omega, ?_, fun _ => by omega⟩
      rintro rfl
      simp at hd
    · exact ⟨le_rfl, le_rfl, fun _ => rfl, by omega⟩
  · rintro ⟨h1, h2, h3, h4⟩
    by_cases hi : i = 1
    · right; exact ⟨hi, h3 hi⟩
    · left
      refine ⟨i, ⟨h1, ?_⟩, j - (i + mu.getD (i - 1) 0), ?_, rfl, by omega⟩
      · by_contra hc
        have := h4 (by omega)
        rw [List.getD_eq_default (n := i - 2) (hn := by omega)] at this
        omega
      · have := h4 (by omega)
        omega

theorem path_border (h : IsStrict mu) : IsPath (border mu) := by
  rw [IsPath, border_eq h, List.pairwise_append]
  refine ⟨?_, by simp, ?_⟩
  · rw [List.pairwise_flatMap]
    constructor
    · intro i _
      rw [List.pairwise_map]
      refine List.pairwise_lt_range.imp ?_
      intro a b hab
      simp only [ne_eq, Prod.mk.injEq, not_and]
      omega
    · rw [List.pairwise_reverse]
      refine (List.pairwise_lt_range' (s := 1) (n := mu.length + 1) (step := 1)).imp_of_mem ?_
      intro a b ha hb hab x hx y hy
      rw [List.mem_range'_1] at ha hb
      simp only [List.mem_map, List.mem_range] at hx hy
      obtain ⟨d, hd, rfl⟩ := hx
      obtain ⟨e, he, rfl⟩ := hy
      have := row_sum_le h (show a - 1 ≤ b - 2 by omega) (by omega)
      simp only [ne_eq, Prod.mk.injEq, not_and]
      omega
  · intro x hx y hy
    rw [List.mem_singleton] at hy
    subst hy
    simp only [List.mem_flatMap, List.mem_reverse, List.mem_range'_1, List.mem_map, List.mem_range] at hx
    obtain ⟨i, hi, d, hd, rfl⟩ := hx
    have hi2 : 2 ≤ i := by
      by_contra hc
      have : i = 1 := by omega
      subst this
      simp at hd
    have := row_sum_le h (show 0 ≤ i - 2 by omega) (by omega)
    simp only [ne_eq, Prod.mk.injEq, not_and]
    omega

/-! ### Sets of boxes and partitions -/

/-- What the set of boxes of a rim outside `mu` looks like. -/
structure RimSet (mu : List Nat) (bnd : Nat) (S : Set (Nat × Nat)) : Prop where
  row : ∀ i j, (i, j) ∈ S → 1 ≤ i ∧ i + mu.getD (i - 1) 0 ≤ j
  above : ∀ i j, (i, j) ∈ S → 2 ≤ i → j < i + mu.getD (i - 2) 0
  first : ∀ j, (1, j) ∈ S → j ≤ mu.getD 0 0 + bnd
  left : ∀ i j j', (i, j) ∈ S → j' < j → i + mu.getD (i - 1) 0 ≤ j' → (i, j') ∈ S
  up : ∀ i, 1 ≤ i → (i + 1, i + mu.getD (i - 1) 0) ∈ S → (i, i + mu.getD (i - 1) 0) ∈ S

theorem exists_rim (h : IsStrict mu) {bnd : Nat} {S : Set (Nat × Nat)} (hS : RimSet mu bnd S) :
    ∃ nu, IsRim mu nu ∧ ShiftedDiagram nu \ ShiftedDiagram mu = S ∧ nu.getD 0 0 ≤ mu.getD 0 0 + bnd := by
  classical
  have hex : ∀ i, ∃ k, (i, i + mu.getD (i - 1) 0 + k) ∉ S := by
    intro i
    by_contra hc
    push Not at hc
    rcases Nat.lt_or_ge i 2 with hi | hi
    · have hi1 := (hS.row _ _ (hc 0)).1
      have : i = 1 := by omega
      subst this
      have := hS.first _ (hc (bnd + 1))
      simp at this
      omega
    · have := hS.above _ _ (hc (mu.getD (i - 2) 0)) hi
      omega
  obtain ⟨k, hk⟩ : ∃ k : Nat → Nat, ∀ i, k i = Nat.find (hex i) := ⟨_, fun _ => rfl⟩
  have hmem : ∀ i d, (i, i + mu.getD (i - 1) 0 + d) ∈ S ↔ d < k i := by
    intro i d
    rw [hk, Nat.lt_find_iff]
    constructor
    · intro hd m hm
      rw [not_not]
      rcases Nat.lt_or_ge m d with hlt | hge
      · exact hS.left _ _ _ hd (by omega) (by omega)
      · have : m = d := by omega
        subst this
        exact hd
    · intro hm
      exact not_not.1 (hm d le_rfl)
  have hk0 : ∀ i, k i ≠ 0 → 1 ≤ i := by
    intro i hi
    exact (hS.row _ _ ((hmem i 0).2 (by omega))).1
  have hab : ∀ i, 2 ≤ i → mu.getD (i - 1) 0 + k i ≤ mu.getD (i - 2) 0 := by
    intro i hi
    rcases Nat.eq_zero_or_pos (k i) with e | e
    · rw [e]
      have := strict_next h (i - 2)
      rw [show i - 2 + 1 = i - 1 by omega] at this
      omega
    · have := hS.above _ _ ((hmem i (k i - 1)).2 (by omega)) hi
      omega
  have hup : ∀ i, 1 ≤ i → mu.getD i 0 + k (i + 1) = mu.getD (i - 1) 0 → k (i + 1) ≠ 0 → k i ≠ 0 := by
    intro i hi he hne
    have h1 := (hmem (i + 1) (k (i + 1) - 1)).2 (by omega)
    rw [Nat.add_sub_cancel, show i + 1 + mu.getD i 0 + (k (i + 1) - 1) = i + mu.getD (i - 1) 0 by omega] at h1
    have h2 := hS.up i hi h1
    have h3 := (hmem i 0).1 (by rwa [Nat.add_zero])
    omega
  have hget : ∀ t, (trim ((List.range (mu.length + 1)).map (fun t => mu.getD t 0 + k (t + 1)))).getD t 0 = mu.getD t 0 + k (t + 1) := by
    intro t
    rw [getD_trim, getD_map_range]
    split
    · rfl
    · have := hab (t + 1) (by omega)
      rw [List.getD_eq_default (n := t + 1 - 2) (hn := by omega)] at this
      rw [Nat.add_sub_cancel] at this
      omega
  obtain ⟨nu, hnu⟩ : ∃ nu, nu = trim ((List.range (mu.length + 1)).map (fun t => mu.getD t 0 + k (t + 1))) := ⟨_, rfl⟩
  rw [← hnu] at hget
  have hdiag : ShiftedDiagram nu \ ShiftedDiagram mu = S := by
    ext ⟨i, j⟩
    rw [Set.mem_sdiff, mem_shiftedDiagram, mem_shiftedDiagram, hget]
    constructor
    · rintro ⟨⟨h1, h2, h3⟩, h4⟩
      rw [show i - 1 + 1 = i by omega] at h3
      have := (hmem i (j - (i + mu.getD (i - 1) 0))).2 (by omega)
      rwa [show i + mu.getD (i - 1) 0 + (j - (i + mu.getD (i - 1) 0)) = j by omega] at this
    · intro hs
      obtain ⟨h1, h2⟩ := hS.row _ _ hs
      have := (hmem i (j - (i + mu.getD (i - 1) 0))).1 (by
        rwa [show i + mu.getD (i - 1) 0 + (j - (i + mu.getD (i - 1) 0)) = j by omega])
      rw [show i - 1 + 1 = i by omega]
      omega
  refine ⟨nu, ⟨?_, ?_, ?_⟩, hdiag, ?_⟩
  · rw [hnu]
    refine trim_isStrict_of_next (fun t => ?_)
    rw [← getD_trim _ (t + 1), ← getD_trim _ t, ← hnu, hget, hget]
    have h1 := hab (t + 2) (by omega)
    have h2 := hup (t + 1) (by omega)
    rw [show t + 2 - 1 = t + 1 by omega, show t + 2 - 2 = t by omega] at h1
    rw [show t + 1 - 1 = t by omega, show t + 1 + 1 = t + 2 by omega] at h2
    rw [show t + 1 + 1 = t + 2 by omega]
    have h3 := strict_next h t
    omega
  · rw [shiftedDiagram_subset]
    intro t
    rw [hget]
    omega
  · rintro i j ⟨h1, h2⟩
    rw [hdiag] at h1 h2
    have h3 := (hS.row _ _ h1)
    have h4 := hS.above _ _ h2 (by omega)
    rw [show i + 1 - 2 = i - 1 by omega] at h4
    omega
  · rw [hget]
    rcases Nat.eq_zero_or_pos (k 1) with e | e
    · rw [Nat.zero_add, e]; omega
    · have := hS.first _ ((hmem 1 (k 1 - 1)).2 (by omega))
      rw [Nat.zero_add]
      simp at this
      omega

theorem rim_le {nu : List Nat} (hr : IsRim mu nu) (t : Nat) : mu.getD t 0 ≤ nu.getD t 0 := shiftedDiagram_subset.1 hr.contains t

theorem rim_interlace (h : IsStrict mu) {nu : List Nat} (hr : IsRim mu nu) (t : Nat) : nu.getD (t + 1) 0 ≤ mu.getD t 0 := by
  by_contra hc
  refine hr.thin (t + 1) (t + 1 + mu.getD t 0) ?_
  have h1 := strict_next hr.strict t
  have h2 := strict_next h t
  simp only [Set.mem_sdiff, mem_shiftedDiagram, Nat.add_sub_cancel]
  omega

theorem mem_rim {nu : List Nat} {i j : Nat} : (i, j) ∈ ShiftedDiagram nu \ ShiftedDiagram mu ↔
    1 ≤ i ∧ i + mu.getD (i - 1) 0 ≤ j ∧ j < i + nu.getD (i - 1) 0 := by
  rw [Set.mem_sdiff, mem_shiftedDiagram, mem_shiftedDiagram]
  omega

theorem rimSet_of_rim (h : IsStrict mu) {nu : List Nat} (hr : IsRim mu nu) {bnd : Nat} (hb : nu.getD 0 0 ≤ mu.getD 0 0 + bnd) :
    RimSet mu bnd (ShiftedDiagram nu \ ShiftedDiagram mu) := by
  refine ⟨?_, ?_, ?_, ?_, ?_⟩
  · intro i j hij
    rw [mem_rim] at hij
    omega
  · intro i j hij hi
    rw [mem_rim] at hij
    have := rim_interlace h hr (i - 2)
    rw [show i - 2 + 1 = i - 1 by omega] at this
    omega
  · intro j hij
    rw [mem_rim] at hij
    simp at hij
    omega
  · intro i j j' hij h1 h2
    rw [mem_rim] at hij ⊢
    omega
  · intro i hi hij
    rw [mem_rim] at hij ⊢
    rw [Nat.add_sub_cancel] at hij
    have := strict_next hr.strict (i - 1)
    rw [show i - 1 + 1 = i by omega] at this
    omega

/-! ### The list of rims -/

theorem nodup_extended {r : List (Nat × Nat)} (h : IsStrict mu) (hr : r.Sublist (border mu)) (i : Nat) :
    (r ++ (List.range i).map (fun j => (1, 1 + mu.getD 0 0 + (j + 1)))).Nodup := by
  rw [List.nodup_append]
  refine ⟨(path_border h).nodup.sublist hr, List.nodup_range.map (fun a b hab => by simpa using hab), ?_⟩
  rintro a ha b hb rfl
  obtain ⟨j, _, rfl⟩ := List.mem_map.1 hb
  have := (mem_border h).1 (hr.subset ha)
  have := this.2.2.1 rfl
  omega

theorem mem_extended {r : List (Nat × Nat)} {i : Nat} {b : Nat × Nat} :
    b ∈ r ++ (List.range i).map (fun j => (1, 1 + mu.getD 0 0 + (j + 1))) ↔
      b ∈ r ∨ (b.1 = 1 ∧ 1 + mu.getD 0 0 < b.2 ∧ b.2 ≤ 1 + mu.getD 0 0 + i) := by
  rw [List.mem_append, List.mem_map]
  refine or_congr_right ⟨?_, ?_⟩
  · rintro ⟨j, hj, rfl⟩
    rw [List.mem_range] at hj
    exact ⟨rfl, by simp, by simp; omega⟩
  · rintro ⟨h1, h2, h3⟩
    refine ⟨b.2 - (1 + mu.getD 0 0) - 1, List.mem_range.2 (by omega), Prod.ext h1.symm ?_⟩
    simp only
    omega

/-- The boxes of `r`, and those in the first row that are added to `r`. -/
def Yields (mu : List Nat) (bnd : Nat) (r s : List (Nat × Nat)) : Prop :=
  ∃ i, (((1, 1 + mu.getD 0 0) ∈ r ∧ i < bnd) ∨ ((1, 1 + mu.getD 0 0) ∉ r ∧ i = 0)) ∧
    s = sortBoxes (r ++ (List.range i).map (fun j => (1, 1 + mu.getD 0 0 + (j + 1))))

theorem mem_yields (h : IsStrict mu) {bnd : Nat} {r s : List (Nat × Nat)} :
    s ∈ (if (1, 1 + (trim mu).getD 0 0) ∈ r then
        (List.range bnd).map (fun i =>
          sortBoxes (r ++ (List.range i).map (fun j => (1, 1 + (trim mu).getD 0 0 + (j + 1)))))
      else [sortBoxes r]) ↔ Yields mu bnd r s := by
  rw [trim_of_pos h.2, Yields]
  split
  · rename_i hr
    simp only [List.mem_map, List.mem_range, hr, true_and, not_true_eq_false, false_and, or_false]
    exact exists_congr fun i => and_congr_right fun _ => eq_comm
  · rename_i hr
    simp only [List.mem_singleton, hr, false_and, not_false_eq_true, true_and, false_or, exists_eq_left, List.range_zero,
      List.map_nil, List.append_nil]

theorem yields_border (h : IsStrict mu) {bnd : Nat} {r s : List (Nat × Nat)} (hs : Yields mu bnd r s)
    {b : Nat × Nat} (hb : b ∈ border mu) : b ∈ s ↔ b ∈ r := by
  obtain ⟨i, _, rfl⟩ := hs
  rw [mem_sortBoxes, mem_extended]
  refine or_iff_left ?_
  rintro ⟨h1, h2, _⟩
  have := (mem_border (i := b.1) (j := b.2) h).1 hb
  have := this.2.2.1 h1
  omega

theorem rims?_spec (h : IsStrict mu) (bnd : Nat) : ∃ L, rims? mu bnd = some L ∧ L.Nodup ∧
    ∀ s, s ∈ L ↔ s.Pairwise boxLt ∧ ∃ nu, IsRim mu nu ∧ nu.getD 0 0 ≤ mu.getD 0 0 + bnd ∧
      ∀ b, b ∈ s ↔ b ∈ ShiftedDiagram nu \ ShiftedDiagram mu := by
  obtain ⟨hn, hm⟩ := rimsHelper_spec (path_border h)
  have hbp := (path_border h).nodup
  rw [rims?, if_pos ((isStrictPartition_iff mu).2 h.1)]
  refine ⟨_, rfl, ?_, ?_⟩
  · rw [List.nodup_flatMap]
    constructor
    · intro r hr
      rw [hm] at hr
      split
      · rw [trim_of_pos h.2]
        refine List.nodup_range.map ?_
        intro i i' hii
        simp only at hii
        have h1 : ∀ b, b ∈ sortBoxes (r ++ (List.range i).map (fun j => (1, 1 + mu.getD 0 0 + (j + 1)))) ↔
            b ∈ sortBoxes (r ++ (List.range i').map (fun j => (1, 1 + mu.getD 0 0 + (j + 1)))) := fun b => by rw [hii]
        simp only [mem_sortBoxes, mem_extended] at h1
        have hnot : ∀ j, (1, 1 + mu.getD 0 0 + (j + 1)) ∉ r := fun j hj => by
          have := (mem_border h).1 (hr.1.subset hj)
          have := this.2.2.1 rfl
          omega
        by_contra hne
        rcases Nat.lt_or_gt_of_ne hne with hlt | hlt
        · have h2 := h1 (1, 1 + mu.getD 0 0 + (i + 1))
          simp only [hnot i, false_or, true_and] at h2
          omega
        · have h2 := h1 (1, 1 + mu.getD 0 0 + (i' + 1))
          simp only [hnot i', false_or, true_and] at h2
          omega
      · simp
    · refine hn.imp_of_mem ?_
      intro r r' hr hr' hne
      rw [hm] at hr hr'
      simp only [Function.onFun, List.disjoint_left]
      intro s hs hs'
      rw [mem_yields h] at hs hs'
      refine hne ?_
      have e : ∀ {r : List (Nat × Nat)}, r.Sublist (border mu) → Yields mu bnd r s → r = (border mu).filter (fun b => decide (b ∈ s)) := by
        intro r hr hs
        refine sublist_eq_of_subset ((sublist_filter _).2 ⟨hr, fun x hx => ?_⟩) (hbp.filter _) ?_
        · simpa using (yields_border h hs (hr.subset hx)).2 hx
        · intro x hx
          rw [List.mem_filter] at hx
          exact (yields_border h hs hx.1).1 (by simpa using hx.2)
      rw [e hr.1 hs, ← e hr'.1 hs']
  · intro s
    rw [List.mem_flatMap]
    constructor
    · rintro ⟨r, hr, hs⟩
      rw [hm] at hr
      rw [mem_yields h] at hs
      obtain ⟨i, hi, hs⟩ := hs
      rw [eq_sortBoxes (nodup_extended h hr.1 i)] at hs
      refine ⟨hs.1, ?_⟩
      have hmem : ∀ a b, (a, b) ∈ s ↔ (a, b) ∈ r ∨ (a = 1 ∧ 1 + mu.getD 0 0 < b ∧ b ≤ 1 + mu.getD 0 0 + i) := fun a b => by
        rw [hs.2, mem_extended]
      have hrb : ∀ a b, (a, b) ∈ r → 1 ≤ a ∧ a + mu.getD (a - 1) 0 ≤ b ∧ (a = 1 → b = 1 + mu.getD 0 0) ∧ (2 ≤ a → b < a + mu.getD (a - 2) 0) :=
        fun a b hab => (mem_border h).1 (hr.1.subset hab)
      have hS : RimSet mu bnd {b | b ∈ s} := by
        refine ⟨?_, ?_, ?_, ?_, ?_⟩
        · intro a b hab
          rw [Set.mem_ofPred_eq, hmem] at hab
          rcases hab with hab | ⟨rfl, h1, h2⟩
          · have := hrb a b hab; omega
          · simp; omega
        · intro a b hab ha
          rw [Set.mem_ofPred_eq, hmem] at hab
          rcases hab with hab | ⟨rfl, h1, h2⟩
          · exact (hrb a b hab).2.2.2 ha
          · omega
        · intro b hab
          rw [Set.mem_ofPred_eq, hmem] at hab
          rcases hab with hab | ⟨_, h1, h2⟩
          · have h3 := (hrb 1 b hab).2.2.1 rfl
            subst h3
            rcases hi with hi | hi
            · omega
            · exact absurd hab hi.1
          · omega
        · intro a b b' hab h1 h2
          rw [Set.mem_ofPred_eq, hmem] at hab ⊢
          rcases hab with hab | ⟨rfl, h3, h4⟩
          · left
            have hb := hrb a b hab
            refine (hr.2 (a, b') ((mem_border h).2 ⟨by omega, by omega, fun e => ?_, fun e => ?_⟩) (a, b) (hr.1.subset hab)).1 rfl h1 hab
            · have := hb.2.2.1 e
              subst e
              simp at h2
              omega
            · have := hb.2.2.2 e
              omega
          · rcases Nat.lt_or_ge (1 + mu.getD 0 0) b' with hlt | hge
            · right
              exact ⟨rfl, hlt, by omega⟩
            · left
              simp at h2
              have : b' = 1 + mu.getD 0 0 := by omega
              subst this
              rcases hi with hi | hi
              · exact hi.1
              · omega
        · intro a ha hab
          rw [Set.mem_ofPred_eq, hmem] at hab ⊢
          rcases hab with hab | ⟨h1, _, _⟩
          · left
            refine (hr.2 (a + 1, a + mu.getD (a - 1) 0) (hr.1.subset hab) (a, a + mu.getD (a - 1) 0) ((mem_border h).2 ⟨ha, le_rfl, ?_, ?_⟩)).2 rfl
              (by simp) hab
            · rintro rfl; rfl
            · intro h2
              have h3 := hrb _ _ hab
              have h4 := strict_next h (a - 2)
              rw [show a - 2 + 1 = a - 1 by omega] at h4
              rw [show a + 1 - 2 = a - 1 by omega, Nat.add_sub_cancel] at h3
              have := h3.2.2.2 (by omega)
              rcases h4 with h4 | h4
              · omega
              · have h5 := strict_next h (a - 1)
                rw [show a - 1 + 1 = a by omega] at h5
                omega
          · omega
      obtain ⟨nu, h1, h2, h3⟩ := exists_rim h hS
      exact ⟨nu, h1, h3, fun b => by rw [h2]; rfl⟩
    · rintro ⟨hs, nu, hr, hb, hmem⟩
      have hS := rimSet_of_rim h hr hb
      have hset : ∀ b, b ∈ s ↔ b ∈ ShiftedDiagram nu \ ShiftedDiagram mu := hmem
      have hmr : ∀ b, b ∈ (border mu).filter (fun b => decide (b ∈ s)) ↔ b ∈ border mu ∧ b ∈ s := fun b => by simp [List.mem_filter]
      refine ⟨(border mu).filter (fun b => decide (b ∈ s)), ?_, ?_⟩
      · rw [hm]
        refine ⟨List.filter_sublist, ?_⟩
        rintro ⟨a, b⟩ hx ⟨a', b'⟩ hy
        rw [hmr, hmr]
        have hx' := (mem_border h).1 hx
        have hy' := (mem_border h).1 hy
        constructor
        · rintro e1 e2 ⟨_, h2⟩
          simp only at e1 e2
          subst e1
          refine ⟨hx, ?_⟩
          rw [hset] at h2 ⊢
          exact hS.left _ _ _ h2 e2 hx'.2.1
        · rintro e1 e2 ⟨_, h2⟩
          simp only at e1 e2
          subst e1
          refine ⟨hy, ?_⟩
          have h3 := hx'.2.2.2 (by omega)
          have hl : a - 2 < mu.length := by
            by_contra hc
            rw [List.getD_eq_default (n := a - 2) (hn := by omega)] at h3
            omega
          have h4 := row_sum_le h (show a' - 1 ≤ a - 2 by omega) hl
          have h5 : b = a' + mu.getD (a' - 1) 0 := by omega
          rw [hset] at h2 ⊢
          subst h5
          have key : ∀ n, a' + n + 1 = a → (a', a' + mu.getD (a' - 1) 0) ∈ ShiftedDiagram nu \ ShiftedDiagram mu := by
            intro n hn
            rw [mem_rim] at h2 ⊢
            have h6 := isStrict_rows hr.strict (show a' - 1 ≤ a - 1 by omega) (by
              by_contra hc
              rw [List.getD_eq_default (l := nu) (n := a - 1) (hn := by omega)] at h2
              omega)
            omega
          exact key (a - a' - 1) (by omega)
      · rw [mem_yields h]
        have hb1 : (1, 1 + mu.getD 0 0) ∈ border mu := (mem_border h).2 ⟨le_rfl, by simp, fun _ => rfl, by omega⟩
        have hfirst : (1, 1 + mu.getD 0 0) ∈ s ↔ mu.getD 0 0 < nu.getD 0 0 := by
          rw [hset, mem_rim]
          simp
        refine ⟨nu.getD 0 0 - mu.getD 0 0 - 1, ?_, ?_⟩
        · rw [hmr, hfirst]
          simp only [hb1, true_and]
          omega
        · rw [eq_sortBoxes (nodup_extended h List.filter_sublist _)]
          refine ⟨hs, ?_⟩
          rintro ⟨a, b⟩
          rw [mem_extended, hmr]
          constructor
          · intro hab
            by_cases hB : (a, b) ∈ border mu
            · exact Or.inl ⟨hB, hab⟩
            · right
              rw [hset] at hab
              have h1 := hS.row _ _ hab
              have h2 := hS.above _ _ hab
              rw [mem_border h] at hB
              rw [mem_rim] at hab
              have ha : a = 1 := by
                by_contra hc
                exact hB ⟨h1.1, h1.2, fun e => absurd e hc, h2⟩
              subst ha
              simp at hab h1 hB
              simp only [true_and]
              omega
          · rintro (⟨_, h1⟩ | ⟨h1, h2, h3⟩)
            · exact h1
            · simp only at h1 h2 h3
              subst h1
              rw [hset, mem_rim]
              simp
              omega

end Verif.Partition
