import Verif.Lemmas.PermCodes

/-! Grassmannian permutations. -/

namespace Verif.Perm

open Verif.Part Verif.Partition

attribute [-simp] List.getD_eq_getElem?_getD
attribute [local irreducible] mul s inverse identity len

/-- `v(i) = i + a_i` for the entries of `a`, and `v` increases after them. -/
structure IsGr (v : SPerm) (a : List Nat) : Prop where
  pos : isUnsigned v = true
  val : ∀ k < a.length, v.call ((k : Int) + 1) = (k : Int) + 1 + a.getD k 0
  inc : ∀ i : Int, (a.length : Int) < i → v.call i < v.call (i + 1)

theorem sorted_getD {a : List Nat} (h : a.Pairwise (· ≤ ·)) {j k : Nat} (hjk : j ≤ k) (hk : k < a.length) :
    a.getD j 0 ≤ a.getD k 0 := by
  rw [List.getD_eq_getElem _ _ hk, List.getD_eq_getElem _ _ (by omega)]
  rcases lt_or_eq_of_le hjk with h1 | h1
  · exact List.pairwise_iff_getElem.1 h j k (by omega) hk h1
  · subst h1; exact le_rfl

theorem IsGr.lt_of_lt {v : SPerm} {a : List Nat} (h : IsGr v a) {i j : Int} (hi : (a.length : Int) < i) (hij : i < j) :
    v.call i < v.call j := by
  obtain ⟨d, rfl⟩ : ∃ d : Nat, j = i + 1 + d := ⟨(j - i - 1).toNat, by omega⟩
  clear hij
  induction d with
  | zero => have := h.inc i hi; push_cast; rwa [add_zero]
  | succ d ih =>
    have := h.inc (i + 1 + d) (by omega)
    push_cast
    rw [← add_assoc]
    omega

theorem IsGr.card_rowSet {v : SPerm} {a : List Nat} (h : IsGr v a) (ha : a.Pairwise (· ≤ ·)) (k : Nat) :
    (rowSet v ((k : Int) + 1)).card = a.getD k 0 := by
  by_cases hk : k < a.length
  · have hval : ∀ j < a.length, v.call ((j : Int) + 1) = (j : Int) + 1 + a.getD j 0 := h.val
    have hsplit : Finset.Ioo 0 (v.call ((k : Int) + 1)) =
        rowSet v ((k : Int) + 1) ∪ (Finset.range k).image (fun j : Nat => v.call ((j : Int) + 1)) := by
      ext x
      rw [Finset.mem_Ioo, Finset.mem_union, mem_rowSet, Finset.mem_image]
      constructor
      · rintro ⟨h1, h2⟩
        by_cases h3 : (k : Int) + 1 < (inverse v).call x
        · exact Or.inl ⟨h1, h2, h3⟩
        · right
          have h4 := inverse_pos h.pos h1
          have h5 := call_inverse v x
          have h6 : (inverse v).call x ≠ (k : Int) + 1 := by intro he; rw [he] at h5; omega
          refine ⟨((inverse v).call x - 1).toNat, Finset.mem_range.2 (by omega), ?_⟩
          rw [show ((((inverse v).call x - 1).toNat : Nat) : Int) + 1 = (inverse v).call x by omega, h5]
      · rintro (⟨h1, h2, -⟩ | ⟨j, hj, rfl⟩)
        · exact ⟨h1, h2⟩
        · rw [Finset.mem_range] at hj
          have := sorted_getD ha (le_of_lt hj) hk
          rw [hval j (by omega), hval k hk]
          omega
    have hdis : Disjoint (rowSet v ((k : Int) + 1)) ((Finset.range k).image (fun j : Nat => v.call ((j : Int) + 1))) := by
      rw [Finset.disjoint_left]
      intro x hx hx'
      obtain ⟨j, hj, rfl⟩ := Finset.mem_image.1 hx'
      rw [mem_rowSet, inverse_call] at hx
      rw [Finset.mem_range] at hj
      omega
    have hc := congrArg Finset.card hsplit
    rw [Finset.card_union_of_disjoint hdis, Finset.card_image_of_injective, Finset.card_range, Int.card_Ioo, hval k hk] at hc
    · omega
    · intro i j he
      have := (call_odd v).inj _ _ he
      omega
  · rw [List.getD_eq_default _ _ (by omega), Finset.card_eq_zero, Finset.eq_empty_iff_forall_notMem]
    intro x hx
    rw [mem_rowSet] at hx
    have := h.lt_of_lt (i := (k : Int) + 1) (by omega) hx.2.2
    rw [call_inverse] at this
    omega

theorem IsGr.unique {v u : SPerm} {a : List Nat} (h : IsGr v a) (h' : IsGr u a) (ha : a.Pairwise (· ≤ ·)) : v = u := by
  refine rows_inj h.pos h'.pos (fun i hi => ?_)
  have e1 := h.card_rowSet ha (i - 1).toNat
  have e2 := h'.card_rowSet ha (i - 1).toNat
  rw [show (((i - 1).toNat : Nat) : Int) + 1 = i by omega] at e1 e2
  rw [e1, e2]

/-! ### the constructor -/

theorem length_start (mu : List Nat) : (grassmannianStart mu).length = mu.length := by
  rw [grassmannianStart, List.length_map, List.length_zipIdx, List.length_insertionSort]

theorem getElem_start (mu : List Nat) {k : Nat} (hk : k < (grassmannianStart mu).length) :
    (grassmannianStart mu)[k] = k + 1 + (mu.insertionSort (· ≤ ·)).getD k 0 := by
  have h2 : k < (mu.insertionSort (· ≤ ·)).length := by rw [List.length_insertionSort, ← length_start]; exact hk
  simp only [grassmannianStart, List.getElem_map, List.getElem_zipIdx]
  rw [List.getD_eq_getElem _ _ h2]
  omega

theorem start_sorted (mu : List Nat) : (grassmannianStart mu).Pairwise (· < ·) := by
  rw [List.pairwise_iff_getElem]
  intro i j hi hj hij
  have h2 : j < (mu.insertionSort (· ≤ ·)).length := by rw [List.length_insertionSort, ← length_start]; exact hj
  rw [getElem_start, getElem_start]
  have := sorted_getD (List.pairwise_insertionSort (· ≤ ·) mu) (le_of_lt hij) h2
  omega

/-- The missing numbers. -/
def missing (mu : List Nat) : List Nat :=
  (pyRange 1 ((grassmannianStart mu).getLastD 0 + 1)).filter (fun x => decide (x ∉ grassmannianStart mu))

theorem line_eq (mu : List Nat) : grassmannianLine mu = grassmannianStart mu ++ missing mu := by
  rw [grassmannianLine]
  split
  · rename_i h
    rw [missing, h]
    rfl
  · rfl

theorem line_perm (mu : List Nat) : (grassmannianLine mu).Perm (pyRange 1 ((grassmannianStart mu).getLastD 0 + 1)) := by
  rw [line_eq]
  have hnd : (grassmannianStart mu).Nodup := (start_sorted mu).imp (fun {a b} h => ne_of_lt h)
  refine (List.perm_ext_iff_of_nodup ?_ (nodup_pyRange _ _)).2 (fun x => ?_)
  · rw [List.nodup_append]
    refine ⟨hnd, (nodup_pyRange _ _).filter _, ?_⟩
    intro a ha b hb hab
    subst hab
    rw [missing, List.mem_filter, decide_eq_true_iff] at hb
    exact hb.2 ha
  · rw [List.mem_append, missing, List.mem_filter, decide_eq_true_iff]
    constructor
    · rintro (h | h)
      · obtain ⟨k, hk, rfl⟩ := List.mem_iff_getElem.1 h
        rw [mem_pyRange]
        refine ⟨by rw [getElem_start]; omega, ?_⟩
        have hl : (grassmannianStart mu).getLastD 0 = (grassmannianStart mu)[(grassmannianStart mu).length - 1] := by
          rw [List.getLastD_eq_getLast?, List.getLast?_eq_getElem?, List.getElem?_eq_getElem (by omega)]
          rfl
        rw [hl]
        rcases lt_or_eq_of_le (show k ≤ (grassmannianStart mu).length - 1 by omega) with h1 | h1
        · have := List.pairwise_iff_getElem.1 (start_sorted mu) k _ hk (by omega) h1
          omega
        · subst h1; omega
      · exact h.1
    · intro h
      by_cases hx : x ∈ grassmannianStart mu
      · exact Or.inl hx
      · exact Or.inr ⟨h, hx⟩

theorem length_line_gr (mu : List Nat) : (grassmannianLine mu).length = (grassmannianStart mu).getLastD 0 := by
  rw [(line_perm mu).length_eq, pyRange, List.length_range']
  omega

theorem isOneline_gr (mu : List Nat) : isOneline ((grassmannianLine mu).map (fun x : Nat => (x : Int))) = true := by
  rw [isOneline_iff, List.length_map, length_line_gr]
  constructor
  · intro k hk
    exact ⟨((k + 1 : Nat) : Int), List.mem_map.2 ⟨k + 1, (line_perm mu).mem_iff.2 (mem_pyRange.2 (by omega)), rfl⟩, by omega⟩
  · intro a ha
    obtain ⟨x, hx, rfl⟩ := List.mem_map.1 ha
    have := mem_pyRange.1 ((line_perm mu).mem_iff.1 hx)
    omega

theorem missing_sorted (mu : List Nat) : (missing mu).Pairwise (· < ·) :=
  (List.pairwise_lt_range' (pos := by omega)).filter _

theorem getGrassmannian_spec (mu : List Nat) : ∃ v, getGrassmannian mu = some (inverse v) ∧
    v.rank ≤ (grassmannianStart mu).getLastD 0 ∧ IsGr v (mu.insertionSort (· ≤ ·)) := by
  obtain ⟨v, hv, hc⟩ := construct_spec (isOneline_gr mu)
  have hlen := length_line_gr mu
  have hr : (mu.insertionSort (· ≤ ·)).length = (grassmannianStart mu).length := by
    rw [List.length_insertionSort, length_start]
  have hle : (grassmannianStart mu).length + (missing mu).length = (grassmannianStart mu).getLastD 0 := by
    rw [← hlen, line_eq, List.length_append]
  have hin : ∀ k : Nat, k < (grassmannianStart mu).getLastD 0 →
      v.call ((k : Int) + 1) = (((grassmannianLine mu).getD k 0 : Nat) : Int) := by
    intro k hk
    rw [hc, lineCall, List.length_map, if_pos (by omega), show ((k : Int) + 1 - 1).toNat = k by omega,
      List.getD_eq_getElem _ _ (by rw [List.length_map]; omega), List.getElem_map, List.getD_eq_getElem _ _ (by omega)]
  have hout : ∀ i : Int, ((grassmannianStart mu).getLastD 0 : Int) < i → v.call i = i := by
    intro i hi
    rw [hc, lineCall, List.length_map, if_neg (by omega), if_neg (by omega)]
  refine ⟨v, by rw [getGrassmannian, hv]; rfl, ?_, ?_, ?_, ?_⟩
  · refine rank_le_of_odd ⟨(call_odd v).neg, (call_odd v).inj, fun i hi => ?_, fun i hi => ?_⟩
    · have ho := lineCall_odd (isOneline_gr mu)
      rw [hc]
      have := ho.bound i (by rw [List.length_map]; omega)
      rwa [List.length_map, hlen] at this
    · have ho := lineCall_odd (isOneline_gr mu)
      rw [hc]
      exact ho.out i (by rw [List.length_map]; omega)
  · rw [isUnsigned_iff]
    intro i hi
    by_cases h1 : i ≤ (grassmannianStart mu).getLastD 0
    · have := hin (i - 1).toNat (by omega)
      rw [show (((i - 1).toNat : Nat) : Int) + 1 = i by omega] at this
      rw [this, List.getD_eq_getElem _ _ (by omega)]
      have := mem_pyRange.1 ((line_perm mu).mem_iff.1 (List.getElem_mem (l := grassmannianLine mu) (n := (i - 1).toNat) (by omega)))
      omega
    · rw [hout i (by omega)]; exact hi
  · intro k hk
    rw [hin k (by omega), line_eq, List.getD_append _ _ _ _ (by omega), List.getD_eq_getElem _ _ (by omega), getElem_start]
    push_cast
    rfl
  · intro i hi
    rw [hr] at hi
    by_cases h1 : i < (grassmannianStart mu).getLastD 0
    · have e1 := hin (i - 1).toNat (by omega)
      have e2 := hin i.toNat (by omega)
      rw [show (((i - 1).toNat : Nat) : Int) + 1 = i by omega] at e1
      rw [show ((i.toNat : Nat) : Int) = i by omega] at e2
      rw [e1, e2, line_eq, List.getD_append_right _ _ _ _ (by omega), List.getD_append_right _ _ _ _ (by omega),
        List.getD_eq_getElem _ _ (by omega), List.getD_eq_getElem _ _ (by omega)]
      have := List.pairwise_iff_getElem.1 (missing_sorted mu) ((i - 1).toNat - (grassmannianStart mu).length)
        (i.toNat - (grassmannianStart mu).length) (by omega) (by omega) (by omega)
      omega
    · rw [hout (i + 1) (by omega)]
      by_cases h2 : i = (grassmannianStart mu).getLastD 0
      · have e1 := hin (i - 1).toNat (by omega)
        rw [show (((i - 1).toNat : Nat) : Int) + 1 = i by omega] at e1
        rw [e1, List.getD_eq_getElem _ _ (by omega)]
        have := mem_pyRange.1 ((line_perm mu).mem_iff.1 (List.getElem_mem (l := grassmannianLine mu) (n := (i - 1).toNat) (by omega)))
        omega
      · rw [hout i (by omega)]; omega

/-! ### the shape -/

theorem isPartition_perm_eq {mu nu : List Nat} (h : mu.Perm nu) (h1 : IsPartition mu) (h2 : IsPartition nu) : mu = nu :=
  List.Perm.eq_of_pairwise (fun _ _ _ _ e1 e2 => le_antisymm e2 e1) h1.1 h2.1 h

theorem sortDescTrim_congr {c d : List Nat} (h : (c.filter (· ≠ 0)).Perm (d.filter (· ≠ 0))) : sortDescTrim c = sortDescTrim d := by
  have h1 := sortDescTrim_spec c
  have h2 := sortDescTrim_spec d
  exact isPartition_perm_eq ((h1.1.trans h).trans h2.1.symm) h1.2 h2.2

theorem sortDescTrim_self {mu : List Nat} (h : IsPartition mu) : sortDescTrim mu = mu := by
  have h1 := sortDescTrim_spec mu
  refine isPartition_perm_eq ?_ h1.2 h
  have : mu.filter (· ≠ 0) = mu := by
    rw [List.filter_eq_self]
    intro a ha
    have := h.2 a ha
    simp; omega
  rw [this] at h1
  exact h1.1

/-- Sequences that agree after adding zeros have the same nonzero entries. -/
theorem filter_eq_of_getD : ∀ (c d : List Nat), (∀ k, c.getD k 0 = d.getD k 0) → c.filter (· ≠ 0) = d.filter (· ≠ 0)
  | [], [], _ => rfl
  | [], b :: d, h => by
    have h0 := h 0
    rw [List.getD_nil, List.getD_cons_zero] at h0
    rw [List.filter_cons_of_neg (by simp [← h0])]
    refine filter_eq_of_getD [] d (fun k => ?_)
    have := h (k + 1)
    rwa [List.getD_cons_succ, List.getD_nil] at this
  | a :: c, [], h => by
    have h0 := h 0
    rw [List.getD_nil, List.getD_cons_zero] at h0
    rw [List.filter_cons_of_neg (by simp [h0])]
    refine filter_eq_of_getD c [] (fun k => ?_)
    have := h (k + 1)
    rwa [List.getD_cons_succ, List.getD_nil] at this
  | a :: c, b :: d, h => by
    have h0 := h 0
    rw [List.getD_cons_zero, List.getD_cons_zero] at h0
    subst h0
    have ih := filter_eq_of_getD c d (fun k => by
      have := h (k + 1)
      rwa [List.getD_cons_succ, List.getD_cons_succ] at this)
    by_cases ha : a = 0
    · rw [List.filter_cons_of_neg (by simp [ha]), List.filter_cons_of_neg (by simp [ha]), ih]
    · rw [List.filter_cons_of_pos (by simpa using ha), List.filter_cons_of_pos (by simpa using ha), ih]

theorem IsGr.shape {v : SPerm} {a : List Nat} (h : IsGr v a) (ha : a.Pairwise (· ≤ ·)) :
    permShape (inverse v) = some (sortDescTrim a) := by
  rw [permShape, inverse_inverse, code_eq h.pos]
  simp only [Option.map_some, Option.some.injEq]
  refine sortDescTrim_congr (List.Perm.of_eq (filter_eq_of_getD _ _ (fun k => ?_)))
  by_cases hk : k < v.rank
  · have hl : k < ((pyRange 1 (1 + v.rank)).map (fun i : Nat => (rowSet v i).card)).length := by simp [pyRange]; omega
    rw [List.getD_eq_getElem _ _ hl, List.getElem_map, ← h.card_rowSet ha k]
    have : (pyRange 1 (1 + v.rank))[k]'(by simp [pyRange]; omega) = k + 1 := by simp [pyRange]; omega
    rw [this]
    push_cast
    rfl
  · rw [List.getD_eq_default _ _ (by simp [pyRange]; omega), ← h.card_rowSet ha k, rowSet_out (by omega), Finset.card_empty]

theorem sortDescTrim_sort (mu : List Nat) : sortDescTrim (mu.insertionSort (· ≤ ·)) = sortDescTrim mu :=
  sortDescTrim_congr ((List.perm_insertionSort _ mu).filter _)

theorem sort_of_partition {mu : List Nat} (h : IsPartition mu) : mu.insertionSort (· ≤ ·) = mu.reverse := by
  refine List.Perm.eq_of_pairwise (le := (· ≤ ·)) (fun _ _ _ _ e1 e2 => le_antisymm e1 e2) (List.pairwise_insertionSort (· ≤ ·) mu) ?_
    ((List.perm_insertionSort _ mu).trans (List.reverse_perm mu).symm)
  rw [List.pairwise_reverse]
  exact h.1

/-- A permutation whose only descent is at `r` and with `v(1) > 1`. -/
theorem isGr_of_descents {v : SPerm} (hu : isUnsigned v = true) {r : Nat}
    (hd : ∀ i : Int, 0 < i → i ≠ r → v.call i < v.call (i + 1)) (h1 : r ≠ 0 → v.call 1 ≠ 1) :
    ∃ mu, IsPartition mu ∧ IsGr v mu.reverse ∧ mu.length = r := by
  obtain ⟨a, ha⟩ : ∃ a : List Nat, a = (List.range r).map (fun k : Nat => (v.call ((k : Int) + 1) - (k + 1)).toNat) := ⟨_, rfl⟩
  have hlen : a.length = r := by rw [ha]; simp
  have hstep : ∀ k : Nat, k < r → (k : Int) + 1 + 1 ≤ v.call ((k : Int) + 1) := by
    intro k
    induction k with
    | zero =>
      intro hk
      have e1 := isUnsigned_iff.1 hu 1 (by omega)
      have e2 := h1 (by omega)
      simp only [Int.natCast_zero, zero_add]
      omega
    | succ k ih =>
      intro hk
      have e1 := ih (by omega)
      have e2 := hd ((k : Int) + 1) (by omega) (by omega)
      push_cast
      omega
  have hget : ∀ k < r, ((a.getD k 0 : Nat) : Int) = v.call ((k : Int) + 1) - (k + 1) := by
    intro k hk
    rw [List.getD_eq_getElem _ _ (by omega)]
    simp only [ha, List.getElem_map, List.getElem_range]
    have := hstep k hk
    omega
  have hsort : a.Pairwise (· ≤ ·) := by
    rw [List.pairwise_iff_getElem]
    intro i j hi hj hij
    rw [← List.getD_eq_getElem _ 0 hi, ← List.getD_eq_getElem _ 0 hj]
    obtain ⟨d, rfl⟩ : ∃ d, j = i + 1 + d := ⟨j - i - 1, by omega⟩
    clear hij
    induction d with
    | zero =>
      have e1 := hget i (by omega)
      have e2 := hget (i + 1) (by omega)
      have e3 := hd ((i : Int) + 1) (by omega) (by omega)
      rw [add_zero]
      push_cast at e2
      omega
    | succ d ih =>
      have e0 := ih (by omega)
      have e1 := hget (i + 1 + d) (by omega)
      have e2 := hget (i + 1 + d + 1) (by omega)
      have e3 := hd (((i + 1 + d : Nat) : Int) + 1) (by omega) (by omega)
      rw [← add_assoc]
      push_cast at e1 e2 e3
      omega
  refine ⟨a.reverse, ⟨?_, ?_⟩, ⟨hu, ?_, ?_⟩, by rw [List.length_reverse, hlen]⟩
  · rw [List.pairwise_reverse]
    exact hsort
  · intro x hx
    rw [List.mem_reverse] at hx
    obtain ⟨k, hk, rfl⟩ := List.mem_iff_getElem.1 hx
    rw [← List.getD_eq_getElem _ 0 hk]
    have e1 := hget k (by omega)
    have := hstep k (by omega)
    omega
  · rw [List.reverse_reverse]
    intro k hk
    rw [hget k (by omega)]
    omega
  · rw [List.reverse_reverse]
    intro i hi
    exact hd i (by omega) (by omega)

end Verif.Perm
