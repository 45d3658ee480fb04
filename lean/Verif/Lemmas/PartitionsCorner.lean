import Verif.Lemmas.Partitions
import Mathlib.Data.List.Sublists

set_option linter.unusedSectionVars false

/-! Lemmas about removing corners. -/

namespace Verif.Partition

open Part

attribute [-simp] List.getD_eq_getElem?_getD
attribute [local simp] List.getD_cons_zero List.getD_cons_succ

/-- `mu` with the part of row `r` (from 1) decreased by one, a resulting zero dropped. -/
def decRow (mu : List Nat) (r : Nat) : List Nat := trim (mu.set (r - 1) (mu.getD (r - 1) 0 - 1))

theorem getD_set (mu : List Nat) (i k v : Nat) (hi : i < mu.length) :
    (mu.set i v).getD k 0 = if k = i then v else mu.getD k 0 := by
  rw [List.getD_eq_getElem?_getD, List.getElem?_set, List.getD_eq_getElem?_getD]
  by_cases h : i = k
  · subst h; simp [hi]
  · rw [if_neg h, if_neg (Ne.symm h)]

/-- The rows that end in a corner box (`gap = 0`: plain, `gap = 1`: shifted), with the partition that results. -/
theorem remove_core {mu : List Nat} (hp : ∀ a ∈ mu, 0 < a) (gap row : Nat) :
    (if row = 1 ∧ mu.length > 1 ∧ mu.getD 1 0 + gap < mu.getD 0 0 then some ((mu.getD 0 0 - 1) :: mu.drop 1)
      else if 1 < row ∧ row < mu.length ∧ mu.getD row 0 + gap < mu.getD (row - 1) 0 then
        some (mu.set (row - 1) (mu.getD (row - 1) 0 - 1))
      else if row = mu.length ∧ mu.getLastD 0 > 1 then some (mu.dropLast ++ [mu.getLastD 0 - 1])
      else if row = mu.length ∧ mu.getLastD 0 = 1 then some mu.dropLast
      else none) =
    if 1 ≤ row ∧ (if row < mu.length then mu.getD row 0 + gap else 0) < mu.getD (row - 1) 0
      then some (decRow mu row) else none := by
  rcases Nat.lt_trichotomy row mu.length with hlt | heq | hgt
  · have h3 : ¬ (row = mu.length ∧ mu.getLastD 0 > 1) := by omega
    have h4 : ¬ (row = mu.length ∧ mu.getLastD 0 = 1) := by omega
    rw [if_neg h3, if_neg h4, if_pos hlt]
    have htrim : 1 ≤ row → mu.getD row 0 + gap < mu.getD (row - 1) 0 →
        decRow mu row = mu.set (row - 1) (mu.getD (row - 1) 0 - 1) := by
      intro h1 h2
      apply trim_of_pos
      intro a ha
      have hpos := (getD_pos_iff hp row).2 hlt
      rcases List.mem_or_eq_of_mem_set ha with h | h
      · exact hp a h
      · omega
    by_cases h1 : row = 1
    · subst h1
      have h2 : ¬ (1 < 1 ∧ 1 < mu.length ∧ mu.getD 1 0 + gap < mu.getD (1 - 1) 0) := by omega
      rw [if_neg h2]
      by_cases h5 : mu.getD 1 0 + gap < mu.getD 0 0
      · rw [if_pos ⟨rfl, hlt, h5⟩, if_pos ⟨le_refl _, h5⟩, htrim le_rfl h5]
        cases mu with
        | nil => simp at hlt
        | cons a t => simp
      · rw [if_neg (fun h => h5 h.2.2), if_neg (fun h => h5 h.2)]
    · rw [if_neg (fun h => h1 h.1)]
      by_cases h5 : 1 ≤ row ∧ mu.getD row 0 + gap < mu.getD (row - 1) 0
      · rw [if_pos ⟨by omega, hlt, h5.2⟩, if_pos h5, htrim h5.1 h5.2]
      · rw [if_neg (fun h => h5 ⟨by omega, h.2.2⟩), if_neg h5]
  · have h1 : ¬ (row = 1 ∧ mu.length > 1 ∧ mu.getD 1 0 + gap < mu.getD 0 0) := by omega
    have h2 : ¬ (1 < row ∧ row < mu.length ∧ mu.getD row 0 + gap < mu.getD (row - 1) 0) := by omega
    have h0 : ¬ row < mu.length := by omega
    rw [if_neg h1, if_neg h2, if_neg h0]
    rcases List.eq_nil_or_concat mu with rfl | ⟨t, a, rfl⟩
    · simp at heq; subst heq; simp
    · have ha : 0 < a := hp a (by simp)
      simp at heq
      subst heq
      have hg : (t ++ [a]).getD (t.length + 1 - 1) 0 = a := by
        rw [List.getD_append_right _ _ _ _ (by simp)]; simp
      simp only [List.concat_eq_append] at *
      simp only [hg, List.length_append, List.length_singleton, true_and, List.dropLast_concat]
      have hl : (t ++ [a]).getLastD 0 = a := by simp
      rw [hl, if_pos (show 1 ≤ t.length + 1 ∧ 0 < a by omega)]
      rw [decRow, hg, Nat.add_sub_cancel]
      have hset : (t ++ [a]).set t.length (a - 1) = t ++ [a - 1] := by
        rw [List.set_append_right _ _ le_rfl]; simp
      rw [hset]
      by_cases h1 : a > 1
      · rw [if_pos h1, trim_of_pos]
        intro x hx
        rcases List.mem_append.1 hx with h | h
        · exact hp x (by simp [h])
        · simp at h; omega
      · have : a = 1 := by omega
        subst this
        rw [if_neg (by omega), if_pos rfl]
        have : trim (t ++ [1 - 1]) = trim t := by simp [trim]
        rw [this, trim_of_pos (fun x hx => hp x (by simp [hx]))]
  · have h1 : ¬ (row = 1 ∧ mu.length > 1 ∧ mu.getD 1 0 + gap < mu.getD 0 0) := by omega
    have h2 : ¬ (1 < row ∧ row < mu.length ∧ mu.getD row 0 + gap < mu.getD (row - 1) 0) := by omega
    rw [if_neg h1, if_neg h2, if_neg (by omega), if_neg (by omega), if_neg]
    rw [List.getD_eq_default mu 0 (by omega : mu.length ≤ row - 1)]
    omega

theorem removeInnerCorner_eq {mu : List Nat} (hp : ∀ a ∈ mu, 0 < a) (row : Nat) :
    removeInnerCorner mu row =
      if 1 ≤ row ∧ (if row < mu.length then mu.getD row 0 + 0 else 0) < mu.getD (row - 1) 0
        then some (decRow mu row) else none := by
  rw [← remove_core hp 0 row]; rfl

theorem removeShiftedInnerCorner_eq {mu : List Nat} (hp : ∀ a ∈ mu, 0 < a) (row : Nat) :
    removeShiftedInnerCorner mu row =
      if 1 ≤ row ∧ (if row < mu.length then mu.getD row 0 + 1 else 0) < mu.getD (row - 1) 0
        then some (decRow mu row) else none := by
  rw [← remove_core hp 1 row]; rfl

theorem getD_decRow (mu : List Nat) {r : Nat} (hr : 1 ≤ r) (hr2 : r ≤ mu.length) (k : Nat) :
    (decRow mu r).getD k 0 = mu.getD k 0 - (if k + 1 = r then 1 else 0) := by
  rw [decRow, getD_trim, getD_set _ _ _ _ (by omega)]
  by_cases h : k = r - 1
  · subst h; rw [if_pos rfl, if_pos (by omega)]
  · rw [if_neg h, if_neg (by omega)]; rfl

/-! ### combinations -/

theorem mem_combinations {α : Type*} (l : List α) (k : Nat) (s : List α) :
    s ∈ combinations l k ↔ s.Sublist l ∧ s.length = k := by
  induction l generalizing k s with
  | nil =>
    cases k with
    | zero =>
      simp only [combinations, List.mem_singleton, List.sublist_nil]
      exact ⟨fun h => ⟨h, by simp [h]⟩, fun h => h.1⟩
    | succ k =>
      simp only [combinations, List.not_mem_nil, List.sublist_nil, false_iff]
      rintro ⟨rfl, h⟩
      simp at h
  | cons x xs ih =>
    cases k with
    | zero =>
      simp only [combinations, List.mem_singleton, List.length_eq_zero_iff]
      exact ⟨fun h => ⟨by simp [h], h⟩, fun h => h.2⟩
    | succ k =>
      simp only [combinations, List.mem_append, List.mem_map, ih]
      constructor
      · rintro (⟨t, ⟨h1, h2⟩, rfl⟩ | ⟨h1, h2⟩)
        · exact ⟨h1.cons_cons _, by simp [h2]⟩
        · exact ⟨h1.cons _, h2⟩
      · rintro ⟨h1, h2⟩
        cases h1 with
        | cons _ h => right; exact ⟨h, h2⟩
        | cons_cons _ h => left; exact ⟨_, ⟨h, by simpa using h2⟩, rfl⟩

theorem nodup_combinations {α : Type*} (l : List α) (hl : l.Nodup) (k : Nat) : (combinations l k).Nodup := by
  induction l generalizing k with
  | nil => cases k <;> simp [combinations]
  | cons x xs ih =>
    rw [List.nodup_cons] at hl
    cases k with
    | zero => simp [combinations]
    | succ k =>
      rw [combinations, List.nodup_append]
      refine ⟨(ih hl.2 k).map (by intro a b h; simpa using h), ih hl.2 _, ?_⟩
      rintro a ha b hb rfl
      simp only [List.mem_map] at ha
      obtain ⟨t, _, rfl⟩ := ha
      have := ((mem_combinations _ _ _).1 hb).1
      exact hl.1 (this.subset (by simp))

theorem nodup_allCombinations {α : Type*} (l : List α) (hl : l.Nodup) (n : Nat) :
    ((List.range n).flatMap (fun k => combinations l k)).Nodup := by
  rw [List.nodup_flatMap]
  refine ⟨fun k _ => nodup_combinations l hl k, ?_⟩
  refine List.nodup_range.imp ?_
  intro a b hab
  simp only [Function.onFun, List.disjoint_left]
  intro s h1 h2
  rw [mem_combinations] at h1 h2
  exact hab (h1.2.symm.trans h2.2)

theorem mem_allCombinations {α : Type*} (l : List α) (s : List α) :
    s ∈ (List.range (l.length + 1)).flatMap (fun k => combinations l k) ↔ s.Sublist l := by
  simp only [List.mem_flatMap, List.mem_range, mem_combinations]
  constructor
  · rintro ⟨_, _, h, _⟩; exact h
  · intro h; exact ⟨s.length, by have := h.length_le; omega, h, rfl⟩

/-! ### removing several corners -/

/-- Row `r` ends in a corner that can be removed. -/
def CornerRow (gap : Nat) (mu : List Nat) (r : Nat) : Prop :=
  1 ≤ r ∧ (if mu.getD r 0 = 0 then 0 else mu.getD r 0 + gap) < mu.getD (r - 1) 0

instance (gap : Nat) (mu : List Nat) (r : Nat) : Decidable (CornerRow gap mu r) := by
  unfold CornerRow; infer_instance

theorem cornerRow_iff {mu : List Nat} (hp : ∀ a ∈ mu, 0 < a) (gap r : Nat) :
    CornerRow gap mu r ↔
      1 ≤ r ∧ (if r < mu.length then mu.getD r 0 + gap else 0) < mu.getD (r - 1) 0 := by
  unfold CornerRow
  have := getD_pos_iff hp r
  by_cases h : r < mu.length
  · have h2 := this.2 h
    rw [if_pos h, if_neg (by omega)]
  · have h2 : mu.getD r 0 = 0 := by
      by_contra hc; exact h (this.1 (by omega))
    rw [if_neg h, if_pos h2]

theorem cornerRow_le_length {mu : List Nat} {gap r : Nat} (h : CornerRow gap mu r) : r ≤ mu.length := by
  by_contra hc
  have := h.2
  rw [List.getD_eq_default mu 0 (by omega : mu.length ≤ r - 1)] at this
  omega

theorem decRow_pairwise {mu : List Nat} (h : mu.Pairwise (· ≥ ·)) {gap r : Nat} (hc : CornerRow gap mu r) :
    IsPartition (decRow mu r) := by
  apply trim_isPartition
  have hl := cornerRow_le_length hc
  rw [pairwise_ge_iff] at h ⊢
  intro i
  have h1 := hc.1
  rw [getD_set _ _ _ _ (by omega), getD_set _ _ _ _ (by omega)]
  have hi := h i
  have h2 := hc.2
  by_cases h3 : i + 1 = r - 1
  · rw [if_pos h3, if_neg (by omega)]
    rw [h3] at hi; omega
  · rw [if_neg h3]
    by_cases h4 : i = r - 1
    · rw [if_pos h4]
      have : i + 1 = r := by omega
      rw [this]
      split at h2 <;> omega
    · rw [if_neg h4]; exact hi

/-- Removing corners in several rows, from top to bottom, succeeds and decreases exactly these rows. -/
theorem foldlM_remove (gap : Nat) (rem : List Nat → Nat → Option (List Nat))
    (hrem : ∀ mu r, IsPartition mu → CornerRow gap mu r → rem mu r = some (decRow mu r))
    (s : List Nat) (hs : s.Pairwise (· < ·)) :
    ∀ mu, IsPartition mu → (∀ r ∈ s, CornerRow gap mu r) →
      ∃ lam, s.foldlM rem mu = some lam ∧ IsPartition lam ∧
        ∀ k, lam.getD k 0 = mu.getD k 0 - (if k + 1 ∈ s then 1 else 0) := by
  induction s with
  | nil => intro mu hm _; exact ⟨mu, rfl, hm, fun k => by simp⟩
  | cons r s ih =>
    intro mu hm hc
    have hcr := hc r (by simp)
    rw [List.pairwise_cons] at hs
    have hg := getD_decRow mu hcr.1 (cornerRow_le_length hcr)
    obtain ⟨lam, h1, h2, h3⟩ := ih hs.2 (decRow mu r) (decRow_pairwise hm.1 hcr) (by
      intro r' hr'
      have hlt := hs.1 r' hr'
      have hc' := hc r' (by simp [hr'])
      unfold CornerRow at hc' ⊢
      rw [hg, hg]
      have e1 : ¬ r' + 1 = r := by omega
      rw [if_neg e1]
      by_cases e2 : r' - 1 + 1 = r
      · omega
      · rw [if_neg e2]; simpa using hc')
    refine ⟨lam, ?_, h2, ?_⟩
    · rw [List.foldlM_cons, hrem mu r hm hcr]; exact h1
    · intro k
      rw [h3, hg]
      by_cases e1 : k + 1 = r
      · have : k + 1 ∉ s := fun h => by have := hs.1 _ h; omega
        rw [if_pos e1, if_neg this, if_pos (by simp [e1])]; rfl
      · by_cases e2 : k + 1 ∈ s
        · rw [if_neg e1, if_pos e2, if_pos (by simp [e2])]; rfl
        · rw [if_neg e1, if_neg e2, if_neg (by simp [e1, e2])]; rfl

/-- The list of results over all sets of corner rows. -/
theorem removeCorners_spec (gap : Nat) (rem : List Nat → Nat → Option (List Nat)) (mu : List Nat)
    (hm : IsPartition mu)
    (hrem : ∀ mu r, IsPartition mu → rem mu r = if CornerRow gap mu r then some (decRow mu r) else none)
    (out : List (Option (List Nat)))
    (hout : out = (List.range (((List.range' 1 mu.length).filter (fun i => (rem mu i).isSome)).length + 1)).flatMap
      (fun k => (combinations ((List.range' 1 mu.length).filter (fun i => (rem mu i).isSome)) k).map
        (fun subset => subset.foldlM rem mu))) :
    out.Nodup ∧ (∀ r ∈ out, ∃ lam, r = some lam) ∧
      ∀ lam, some lam ∈ out ↔ IsPartition lam ∧ ∀ k, lam.getD k 0 = mu.getD k 0 ∨
        (CornerRow gap mu (k + 1) ∧ lam.getD k 0 = mu.getD k 0 - 1) := by
  have hrows : (List.range' 1 mu.length).filter (fun i => (rem mu i).isSome) =
      (List.range' 1 mu.length).filter (fun i => decide (CornerRow gap mu i)) := by
    congr 1
    funext i
    rw [hrem mu i hm]
    split <;> simp [*]
  rw [hrows] at hout
  generalize hR : (List.range' 1 mu.length).filter (fun i => decide (CornerRow gap mu i)) = rows at hout
  have hmem : ∀ r, r ∈ rows ↔ CornerRow gap mu r := by
    intro r
    rw [← hR]
    simp only [List.mem_filter, List.mem_range'_1, decide_eq_true_eq]
    constructor
    · exact fun h => h.2
    · intro h
      have := cornerRow_le_length h
      have := h.1
      exact ⟨by omega, h⟩
  have hsorted : rows.Pairwise (· < ·) := by
    rw [← hR]
    exact List.Pairwise.filter _ (List.pairwise_lt_range' (step := 1))
  have hnd : rows.Nodup := hsorted.imp (fun h => by omega)
  have hout' : out = ((List.range (rows.length + 1)).flatMap (fun k => combinations rows k)).map
      (fun subset => subset.foldlM rem mu) := by
    rw [hout, List.map_flatMap]
  have hfold : ∀ s : List Nat, s.Sublist rows → ∃ lam, s.foldlM rem mu = some lam ∧ IsPartition lam ∧
        ∀ k, lam.getD k 0 = mu.getD k 0 - (if k + 1 ∈ s then 1 else 0) := by
    intro s hs
    refine foldlM_remove gap rem (fun mu r h1 h2 => by rw [hrem mu r h1, if_pos h2]) s (hsorted.sublist hs) mu hm ?_
    intro r hr
    exact (hmem r).1 (hs.subset hr)
  have hposrow : ∀ k, k + 1 ∈ rows → 0 < mu.getD k 0 := by
    intro k hk
    have := ((hmem _).1 hk).2
    simp at this
    omega
  refine ⟨?_, ?_, ?_⟩
  · rw [hout']
    refine (nodup_allCombinations rows hnd _).map_on ?_
    intro s hs t ht hst
    rw [mem_allCombinations] at hs ht
    obtain ⟨l1, h1, h2, h3⟩ := hfold s hs
    obtain ⟨l2, h4, h5, h6⟩ := hfold t ht
    rw [h1, h4] at hst
    cases hst
    have hst : ∀ r, r ∈ s ↔ r ∈ t := by
      intro r
      by_cases hr : r ∈ rows
      · have h0 := ((hmem r).1 hr).1
        obtain ⟨k, rfl⟩ : ∃ k, r = k + 1 := ⟨r - 1, by omega⟩
        have := hposrow k hr
        have e1 := h3 k
        have e2 := h6 k
        by_cases a1 : k + 1 ∈ s <;> by_cases a2 : k + 1 ∈ t <;> simp [a1, a2] at e1 e2 ⊢ <;> omega
      · exact iff_of_false (fun h => hr (hs.subset h)) (fun h => hr (ht.subset h))
    exact ((List.perm_ext_iff_of_nodup (hnd.sublist hs) (hnd.sublist ht)).2 hst).eq_of_pairwise
      (fun a b _ _ h1 h2 => by omega) (hsorted.sublist hs) (hsorted.sublist ht)
  · intro r hr
    rw [hout'] at hr
    obtain ⟨s, hs, rfl⟩ := List.mem_map.1 hr
    rw [mem_allCombinations] at hs
    obtain ⟨lam, h1, _⟩ := hfold s hs
    exact ⟨lam, h1⟩
  · intro lam
    rw [hout']
    simp only [List.mem_map, mem_allCombinations]
    constructor
    · rintro ⟨s, hs, h⟩
      obtain ⟨lam', h1, h2, h3⟩ := hfold s hs
      rw [h1] at h
      cases h
      refine ⟨h2, fun k => ?_⟩
      rw [h3 k]
      by_cases hk : k + 1 ∈ s
      · right
        exact ⟨(hmem _).1 (hs.subset hk), by simp [hk]⟩
      · left; simp [hk]
    · rintro ⟨h1, h2⟩
      let s := rows.filter (fun r => decide (lam.getD (r - 1) 0 ≠ mu.getD (r - 1) 0))
      have hs : s.Sublist rows := List.filter_sublist
      refine ⟨s, hs, ?_⟩
      obtain ⟨lam', h3, h4, h5⟩ := hfold s hs
      rw [h3]
      congr 1
      apply row_ext h4.2 h1.2
      intro k
      rw [h5 k]
      have hmems : k + 1 ∈ s ↔ CornerRow gap mu (k + 1) ∧ lam.getD k 0 ≠ mu.getD k 0 := by
        simp [s, hmem]
      rcases h2 k with h | ⟨h, h'⟩
      · rw [if_neg (by rw [hmems]; exact fun h2 => h2.2 h), h]; rfl
      · have := hposrow k ((hmem _).2 h)
        rw [if_pos (hmems.2 ⟨h, by omega⟩), h']

theorem removeInnerCorner_cornerRow (mu : List Nat) (r : Nat) (hm : IsPartition mu) :
    removeInnerCorner mu r = if CornerRow 0 mu r then some (decRow mu r) else none := by
  rw [removeInnerCorner_eq hm.2]
  simp only [cornerRow_iff hm.2]

theorem removeShiftedInnerCorner_cornerRow (mu : List Nat) (r : Nat) (hm : IsPartition mu) :
    removeShiftedInnerCorner mu r = if CornerRow 1 mu r then some (decRow mu r) else none := by
  rw [removeShiftedInnerCorner_eq hm.2]
  simp only [cornerRow_iff hm.2]

/-! ### corners in terms of diagrams -/

theorem corner_diagram {mu : List Nat} {i j : Nat} :
    (i, j) ∈ Corners (Diagram mu) ↔ CornerRow 0 mu i ∧ j = mu.getD (i - 1) 0 := by
  simp only [Corners, Set.mem_ofPred_eq, mem_diagram, CornerRow, Nat.add_sub_cancel]
  constructor
  · rintro ⟨⟨h1, h2, h3⟩, h4, h5⟩
    refine ⟨⟨h1, ?_⟩, ?_⟩
    · split <;> omega
    · omega
  · rintro ⟨⟨h1, h2⟩, h3⟩
    subst h3
    refine ⟨⟨h1, by omega, le_rfl⟩, ?_, by omega⟩
    split at h2 <;> omega

theorem corner_shiftedDiagram {mu : List Nat} (hs : IsStrict mu) {i j : Nat} :
    (i, j) ∈ Corners (ShiftedDiagram mu) ↔ CornerRow 1 mu i ∧ j + 1 = i + mu.getD (i - 1) 0 := by
  have hst := (pairwise_gt_iff hs.2).1 hs.1 (i - 1)
  simp only [Corners, Set.mem_ofPred_eq, mem_shiftedDiagram, CornerRow, Nat.add_sub_cancel]
  constructor
  · rintro ⟨⟨h1, h2, h3⟩, h4, h5⟩
    rw [Nat.sub_add_cancel h1] at hst
    refine ⟨⟨h1, ?_⟩, ?_⟩
    · split <;> omega
    · omega
  · rintro ⟨⟨h1, h2⟩, h3⟩
    refine ⟨⟨h1, by omega, by omega⟩, ?_, by omega⟩
    split at h2 <;> omega

end Verif.Partition
