import Verif.Lemmas.PermCodes

/-! # C66: Rothe diagrams, codes and shapes of permutations -/

namespace Verif.Perm

open Verif.Part

attribute [-simp] List.getD_eq_getElem?_getD
attribute [local irreducible] mul s inverse identity len

theorem length_filter_rothe {w : SPerm} (h : isUnsigned w = true) (p : Int × Int → Bool) :
    ((rotheDiagram w).filter p).length = ((rotheSet w).filter (fun b => p b = true)).card := by
  rw [((rotheList_perm h).filter p).length_eq, ← List.toFinset_card_of_nodup ((Finset.nodup_toList _).filter _)]
  congr 1
  ext b
  rw [List.mem_toFinset, List.mem_filter, Finset.mem_toList, Finset.mem_filter]

theorem mem_rothe {w : SPerm} (h : isUnsigned w = true) (b : Int × Int) : b ∈ rotheDiagram w ↔ b ∈ rotheSet w := by
  rw [(rotheList_perm h).mem_iff, Finset.mem_toList]

theorem card_rothe_row (w : SPerm) {i : Nat} (hi : 1 ≤ i) (p : Int × Int → Bool) :
    ((rotheSet w).filter (fun b => (decide (b.1 = (i : Int)) && p b) = true)).card =
      ((rowSet w i).filter (fun x => p ((i : Int), x) = true)).card := by
  refine Finset.card_bij (fun b _ => b.2) ?_ ?_ ?_
  · intro b hb
    rw [Finset.mem_filter, mem_rotheSet, Bool.and_eq_true, decide_eq_true_iff] at hb
    obtain ⟨⟨h1, h2⟩, h3, h4⟩ := hb
    rw [Finset.mem_filter, ← h3]
    exact ⟨h2, h4⟩
  · intro a ha b hb he
    rw [Finset.mem_filter, Bool.and_eq_true, decide_eq_true_iff] at ha hb
    exact Prod.ext (by rw [ha.2.1, hb.2.1]) he
  · intro x hx
    rw [Finset.mem_filter] at hx
    refine ⟨((i : Int), x), ?_, rfl⟩
    rw [Finset.mem_filter, mem_rotheSet, Bool.and_eq_true, decide_eq_true_iff]
    exact ⟨⟨by simp only; omega, hx.1⟩, rfl, hx.2⟩

theorem getD_codeList (w : SPerm) (g : Nat → Nat) {k : Nat} (hk : k < w.rank) :
    ((pyRange 1 (1 + w.rank)).map g).getD k 0 = g (k + 1) := by
  have hl : k < ((pyRange 1 (1 + w.rank)).map g).length := by simp [pyRange]; omega
  rw [List.getD_eq_getElem _ _ hl, List.getElem_map]
  congr 1
  simp [pyRange]
  omega

theorem length_codeList (w : SPerm) (g : Nat → Nat) : ((pyRange 1 (1 + w.rank)).map g).length = w.rank := by simp [pyRange]

/-- C66 (Rothe diagram): for a permutation `w` without signs `rothe_diagram` lists, in increasing order and without repetitions,
the pairs `(i, j)` with `j < w(i)` and `i < w⁻¹(j)`; there are `len(w)` of them. -/
theorem C66_rothe_diagram {w : SPerm} (h : isUnsigned w = true) :
    (rotheDiagram w).Pairwise (fun a b => a.1 < b.1 ∨ (a.1 = b.1 ∧ a.2 < b.2)) ∧
      (∀ i j : Int, (i, j) ∈ rotheDiagram w ↔ 0 < i ∧ 0 < j ∧ j < w.call i ∧ i < (inverse w).call j) ∧
      (rotheDiagram w).length = len w := by
  refine ⟨rothe_sorted h, fun i j => ?_, ?_⟩
  · rw [mem_rothe h, mem_rotheSet, mem_rowSet]
  · rw [(rotheList_perm h).length_eq, Finset.length_toList, card_rothe_len h]

example : (construct [3, 1, 4, 2]).map rotheDiagram = some [(1, 1), (1, 2), (3, 2)] := by decide +kernel

/-- C66 (Rothe diagram of an involution): `involution_rothe_diagram` lists the boxes on and below the diagonal, and there are
`involution_length` of them; `fpf_rothe_diagram` lists the boxes below the diagonal. -/
theorem C66_involution_rothe_diagram {w : SPerm} (h : isUnsigned w = true) (hw : isInvolution w = true) :
    (∀ i j : Int, (i, j) ∈ involutionRotheDiagram w false ↔ 0 < j ∧ j ≤ i ∧ j < w.call i ∧ i < w.call j) ∧
      (involutionRotheDiagram w false).length = involutionLength w ∧
      (∀ i j : Int, (i, j) ∈ involutionRotheDiagram w true ↔ 0 < j ∧ j < i ∧ j < w.call i ∧ i < w.call j) ∧
      (isFpfInvolution w = true → ((involutionRotheDiagram w true).length : Int) = fpfInvolutionLength w) := by
  have hinv := involution_inverse hw
  refine ⟨fun i j => ?_, ?_, fun i j => ?_, fun hf => ?_⟩
  · rw [involutionRotheDiagram, List.mem_filter, mem_rothe h, mem_rotheSet, mem_rowSet, hinv, decide_eq_true_iff]
    simp only [true_and]
    constructor <;> intro h <;> omega
  · rw [involutionRotheDiagram, length_filter_rothe h, ← (card_rothe_weak h hw).1]
    congr 1
    refine Finset.filter_congr (fun b _ => ?_)
    rw [decide_eq_true_iff]
    simp only [true_and]
    omega
  · rw [involutionRotheDiagram, List.mem_filter, mem_rothe h, mem_rotheSet, mem_rowSet, hinv, decide_eq_true_iff]
    simp only [Bool.true_eq_false, false_and, or_false]
    constructor <;> intro h <;> omega
  · have h3 : ((rotheSet w).filter (fun b => decide (b.1 > b.2 ∨ (true = false ∧ b.1 = b.2)) = true)) =
        (rotheSet w).filter (fun b => b.2 < b.1) := by
      refine Finset.filter_congr (fun b _ => ?_)
      rw [decide_eq_true_iff]
      simp
    rw [involutionRotheDiagram, length_filter_rothe h, h3, (card_rothe_weak h hw).2, fpfInvolutionLength]
    have := (isFpf_iff.1 ⟨hf, h⟩).even.2
    omega

example : (construct [3, 4, 1, 2]).map (fun w => (involutionRotheDiagram w false, involutionRotheDiagram w true)) =
    some ([(1, 1), (2, 1), (2, 2)], [(2, 1)]) := by decide +kernel

/-- C66 (code): for a permutation without signs, entry `k + 1` of the code is the number of boxes in row `k + 1` of the Rothe
diagram; it is smaller than `n - k`; the sum is the length; and the descents of the code are those of the permutation.  If there
are signs, the assertion fails. -/
theorem C66_code (w : SPerm) : (isUnsigned w = true → ∃ c, code w = some c ∧ c.length = w.rank ∧
      (∀ k < w.rank, c.getD k 0 = ((rotheDiagram w).filter (fun b => decide (b.1 = (k : Int) + 1))).length) ∧
      (∀ k < w.rank, c.getD k 0 + k < w.rank) ∧ c.sum = len w ∧
      (∀ k, k + 1 < w.rank → (c.getD (k + 1) 0 < c.getD k 0 ↔ k + 1 ∈ rightDescents w))) ∧
    (isUnsigned w = false → code w = none) := by
  refine ⟨fun h => ⟨_, code_eq h, length_codeList _ _, fun k hk => ?_, fun k hk => ?_, ?_, fun k hk => ?_⟩, fun h => ?_⟩
  · rw [getD_codeList w _ hk, length_filter_rothe h]
    have := card_rothe_row w (i := k + 1) (by omega) (fun _ => true)
    simp only [Bool.and_true] at this
    rw [Finset.filter_true_of_mem (fun _ _ => trivial)] at this
    rw [← this]
    push_cast
    rfl
  · rw [getD_codeList w _ hk]
    have hsub : rowSet w ((k + 1 : Nat) : Int) ⊆ (Finset.Icc ((k : Int) + 2) w.rank).image w.call := by
      intro x hx
      rw [mem_rowSet] at hx
      rw [Finset.mem_image]
      refine ⟨(inverse w).call x, ?_, call_inverse w x⟩
      rw [Finset.mem_Icc]
      refine ⟨by have := hx.2.2; push_cast at this; omega, ?_⟩
      by_contra hc
      have e := call_inverse w x
      rw [(call_odd w).out _ (by omega)] at e
      have := (call_odd w).bound ((k + 1 : Nat) : Int) (by omega)
      omega
    have h1 := (Finset.card_le_card hsub).trans Finset.card_image_le
    rw [Int.card_Icc] at h1
    omega
  · rw [sum_pyRange, ← card_rothe, card_rothe_len h]
  · rw [getD_codeList w _ hk, getD_codeList w _ (by omega), mem_rightDescents, Desc, lo, if_neg (by omega)]
    have := card_rowSet_succ h (i := ((k + 1 : Nat) : Int)) (by omega)
    push_cast at this ⊢
    exact this
  · rw [code, if_neg (by rw [h]; decide)]

example : (construct [3, 1, 4, 2]).map code = some (some [2, 0, 1, 0]) := by decide +kernel

/-- C66 (code): the code determines the permutation. -/
theorem C66_code_injective {w v : SPerm} {c : List Nat} (hw : code w = some c) (hv : code v = some c) : w = v := by
  have h1 : isUnsigned w = true := by
    by_contra hc
    rw [code, if_neg hc] at hw
    cases hw
  have h2 : isUnsigned v = true := by
    by_contra hc
    rw [code, if_neg hc] at hv
    cases hv
  rw [code_eq h1, Option.some.injEq] at hw
  rw [code_eq h2, Option.some.injEq] at hv
  have hr : w.rank = v.rank := by
    rw [← length_codeList w (fun i : Nat => (rowSet w i).card), ← length_codeList v (fun i : Nat => (rowSet v i).card), hw, hv]
  refine rows_inj h1 h2 (fun i hi => ?_)
  by_cases hir : i ≤ w.rank
  · have e1 := getD_codeList w (fun i : Nat => (rowSet w i).card) (k := (i - 1).toNat) (by omega)
    have e2 := getD_codeList v (fun i : Nat => (rowSet v i).card) (k := (i - 1).toNat) (by omega)
    rw [hw] at e1
    rw [hv] at e2
    rw [show (((i - 1).toNat + 1 : Nat) : Int) = i by omega] at e1 e2
    rw [← e1, ← e2]
  · rw [rowSet_out (by omega), rowSet_out (by omega)]

/-- C66 (code): every sequence `c_0, ..., c_(n-1)` with `c_k < n - k` is, up to zeros at the end, the code of a permutation
of rank at most `n`. -/
theorem C66_code_surjective (c : List Nat) (h : ∀ k < c.length, c.getD k 0 + k < c.length) :
    ∃ w d, code w = some d ∧ w.rank ≤ c.length ∧ c = d ++ List.replicate (c.length - w.rank) 0 := by
  obtain ⟨w, hu, hr, hrow⟩ := rows_surj c.length _ (fun k => c.getD k 0) rfl h
  refine ⟨w, _, code_eq hu, hr, ?_⟩
  refine List.ext_getElem (by rw [List.length_append, length_codeList, List.length_replicate]; omega) (fun k h1 h2 => ?_)
  rw [← List.getD_eq_getElem _ 0 h1, ← hrow k h1]
  by_cases hk : k < w.rank
  · rw [List.getElem_append_left (by rw [length_codeList]; exact hk), ← List.getD_eq_getElem _ 0, getD_codeList w _ hk]
    push_cast
    rfl
  · rw [List.getElem_append_right (by rw [length_codeList]; omega), List.getElem_replicate, rowSet_out (by omega), Finset.card_empty]

example : ∀ k < [2, 0, 1, 0].length, [2, 0, 1, 0].getD k 0 + k < [2, 0, 1, 0].length := by decide

/-- C66 (involution code): for an involution without signs, entry `k + 1` is the number of boxes in row `k + 1` of
`involution_rothe_diagram`, and the sum is `involution_length`.  Otherwise the assertion fails. -/
theorem C66_involution_code (w : SPerm) : (isUnsigned w = true ∧ isInvolution w = true → ∃ c, involutionCode w = some c ∧
      c.length = w.rank ∧ c.sum = involutionLength w ∧
      ∀ k < w.rank, c.getD k 0 = ((involutionRotheDiagram w false).filter (fun b => decide (b.1 = (k : Int) + 1))).length) ∧
    (¬ (isUnsigned w = true ∧ isInvolution w = true) → involutionCode w = none) := by
  refine ⟨fun h => ⟨_, involutionCode_eq h.1 h.2, length_codeList _ _, ?_, fun k hk => ?_⟩, fun h => ?_⟩
  · rw [sum_pyRange, ← (card_rothe_weak h.1 h.2).1]
    have := card_rothe_filter w (fun b => decide (b.2 ≤ b.1))
    simp only [decide_eq_true_eq] at this
    exact this.symm
  · rw [getD_codeList w _ hk, involutionRotheDiagram, List.filter_filter, length_filter_rothe h.1]
    have := card_rothe_row w (i := k + 1) (by omega) (fun b => decide (b.1 > b.2 ∨ (false = false ∧ b.1 = b.2)))
    push_cast at this ⊢
    rw [this]
    congr 1
    refine Finset.filter_congr (fun x _ => ?_)
    rw [decide_eq_true_iff]
    simp only [true_and]
    omega
  · rw [involutionCode, if_neg (by rw [Bool.and_eq_true]; exact h)]

example : (construct [3, 5, 1, 4, 2]).map involutionCode = some (some [1, 2, 0, 1, 0]) := by decide +kernel

/-- C66 (fpf involution code): for a fixed-point-free involution without signs, entry `k + 1` is the number of boxes in row
`k + 1` of `fpf_rothe_diagram`, and the sum is `fpf_involution_length`.  Otherwise the assertion fails. -/
theorem C66_fpf_involution_code (w : SPerm) : (isUnsigned w = true ∧ isFpfInvolution w = true → ∃ c, fpfInvolutionCode w = some c ∧
      c.length = w.rank ∧ (c.sum : Int) = fpfInvolutionLength w ∧
      ∀ k < w.rank, c.getD k 0 = ((involutionRotheDiagram w true).filter (fun b => decide (b.1 = (k : Int) + 1))).length) ∧
    (¬ (isUnsigned w = true ∧ isFpfInvolution w = true) → fpfInvolutionCode w = none) := by
  refine ⟨fun h => ⟨_, fpfInvolutionCode_eq h.1 h.2, length_codeList _ _, ?_, fun k hk => ?_⟩, fun h => ?_⟩
  · have hf := isFpf_iff.1 ⟨h.2, h.1⟩
    have hw : isInvolution w = true := isInvolution_iff.2 hf.inv
    rw [sum_pyRange]
    have := card_rothe_filter w (fun b => decide (b.2 < b.1))
    simp only [decide_eq_true_eq] at this
    rw [← this, (card_rothe_weak h.1 hw).2, fpfInvolutionLength]
    have := hf.even.2
    omega
  · rw [getD_codeList w _ hk, involutionRotheDiagram, List.filter_filter, length_filter_rothe h.1]
    have := card_rothe_row w (i := k + 1) (by omega) (fun b => decide (b.1 > b.2 ∨ (true = false ∧ b.1 = b.2)))
    push_cast at this ⊢
    rw [this]
    congr 1
    refine Finset.filter_congr (fun x _ => ?_)
    rw [decide_eq_true_iff]
    simp
  · rw [fpfInvolutionCode, if_neg (by rw [Bool.and_eq_true]; exact h)]

example : (construct [4, 6, 5, 1, 3, 2]).map fpfInvolutionCode = some (some [0, 1, 2, 0, 1, 0]) := by decide +kernel

theorem filter_ne_zero_sum (c : List Nat) : (c.filter (· ≠ 0)).sum = c.sum := by
  induction c with
  | nil => rfl
  | cons a c ih =>
    by_cases ha : a = 0
    · subst ha; simpa using ih
    · rw [List.filter_cons_of_pos (by simpa using ha), List.sum_cons, List.sum_cons, ih]

/-- C66 (shape): the shape is the partition whose parts are the nonzero entries of the code of the inverse; its size is the
length of the permutation. -/
theorem C66_shape {w : SPerm} (h : isUnsigned w = true) : ∃ mu c, permShape w = some mu ∧ code (inverse w) = some c ∧
    IsPartition mu ∧ mu.Perm (c.filter (· ≠ 0)) ∧ mu.sum = len w := by
  obtain ⟨c, h1, -, -, -, h2, -⟩ := (C66_code (inverse w)).1 (inverse_unsigned h)
  have h3 := Verif.Partition.sortDescTrim_spec c
  refine ⟨_, c, by rw [permShape, h1]; rfl, h1, h3.2, h3.1, ?_⟩
  rw [h3.1.sum_eq, filter_ne_zero_sum, h2, len_inverse]

example : (construct [3, 1, 4, 2]).map permShape = some (some [2, 1]) := by decide +kernel

/-- C66 (shapes of involutions): `involution_shape` is a partition of size `involution_length`, the transpose of the partition
formed by the code; likewise for `fpf_involution_shape`. -/
theorem C66_involution_shape {w : SPerm} (h : isUnsigned w = true) :
    (isInvolution w = true → ∃ mu c, involutionShape w = some mu ∧ involutionCode w = some c ∧ IsPartition mu ∧
      (∀ k, mu.getD k 0 = c.countP (fun a => k < a)) ∧ mu.sum = involutionLength w) ∧
    (isFpfInvolution w = true → ∃ mu c, fpfInvolutionShape w = some mu ∧ fpfInvolutionCode w = some c ∧ IsPartition mu ∧
      (∀ k, mu.getD k 0 = c.countP (fun a => k < a)) ∧ (mu.sum : Int) = fpfInvolutionLength w) := by
  have key : ∀ c : List Nat, IsPartition (Verif.Partition.transpose (Verif.Partition.sortDescTrim c)) ∧
      (∀ k, (Verif.Partition.transpose (Verif.Partition.sortDescTrim c)).getD k 0 = c.countP (fun a => k < a)) ∧
      (Verif.Partition.transpose (Verif.Partition.sortDescTrim c)).sum = c.sum := by
    intro c
    obtain ⟨h1, h2⟩ := Verif.Partition.sortDescTrim_spec c
    refine ⟨Verif.Partition.transpose_isPartition h2, fun k => ?_, ?_⟩
    · have e1 : c.countP (fun a => decide (k < a)) = (Verif.Partition.sortDescTrim c).countP (fun a => decide (k < a)) := by
        rw [h1.countP_eq, List.countP_filter]
        refine List.countP_congr (fun a _ => ?_)
        simp
        omega
      rw [e1]
      generalize Verif.Partition.sortDescTrim c = mu at h2
      refine Nat.le_antisymm ?_ ?_
      · by_contra hc
        have := (Verif.Partition.lt_getD_transpose h2.1 (mu.countP (fun a => decide (k < a))) k).1 (by omega)
        exact absurd this (by
          rw [not_lt]
          exact Verif.Perm.getD_countP_le h2.1 k)
      · by_contra hc
        have h5 := (Verif.Partition.lt_getD_transpose h2.1 ((Verif.Partition.transpose mu).getD k 0) k).not.1 (by omega)
        exact h5 (Verif.Perm.lt_of_lt_countP h2.1 (by omega))
    · rw [Verif.Partition.transpose_sum h2, h1.sum_eq, filter_ne_zero_sum]
  constructor
  · intro hw
    obtain ⟨c, h1, -, h2, -⟩ := (C66_involution_code w).1 ⟨h, hw⟩
    refine ⟨_, c, by rw [involutionShape, if_pos hw, h1]; rfl, h1, (key c).1, (key c).2.1, ?_⟩
    rw [(key c).2.2, h2]
  · intro hw
    obtain ⟨c, h1, -, h2, -⟩ := (C66_fpf_involution_code w).1 ⟨h, hw⟩
    refine ⟨_, c, by rw [fpfInvolutionShape, if_pos hw, h1]; rfl, h1, (key c).1, (key c).2.1, ?_⟩
    rw [(key c).2.2, h2]

example : (construct [3, 5, 1, 4, 2]).map involutionShape = some (some [3, 1]) := by decide +kernel
example : (construct [4, 6, 5, 1, 3, 2]).map fpfInvolutionShape = some (some [3, 1]) := by decide +kernel

end Verif.Perm
