import Verif.Lemmas.PartitionsGen
import Verif.Lemmas.PartitionsCorner
import Verif.Lemmas.PartitionsGrowth

/-! Properties C17-C23: partitions. -/

namespace Verif.Partition

open Part

/-! ### C17 -/

/-- C17: transposing a partition with positive parts gives a partition with positive parts whose diagram is the
reflected one, with the same sum; transposing twice gives the partition back. -/
theorem C17_transpose {mu : List Nat} (h : IsPartition mu) :
    IsPartition (transpose mu) ∧ (∀ i j, (i, j) ∈ Diagram (transpose mu) ↔ (j, i) ∈ Diagram mu) ∧
      (transpose mu).sum = mu.sum ∧ transpose (transpose mu) = mu :=
  ⟨transpose_isPartition h, transpose_diagram h, transpose_sum h, transpose_transpose h⟩

example : IsPartition [4, 2, 1] ∧ transpose [4, 2, 1] = [3, 2, 1, 1] := by
  refine ⟨⟨by decide, by decide⟩, by decide⟩

/-! ### C18 -/

/-- The caches that calls of `generate` can leave behind: L349 is the only line that writes to `PARTITIONS`, and it
writes under a 4-tuple. -/
def ReachableCache (C : GenCache) : Prop := ∀ k ∈ C.keys, ∃ n mp s e, k = GenKey.four n mp s e

/-- C18: whatever the cache contains from earlier calls, `generate` yields every partition of `n` within the bounds
exactly once and nothing else, raises no KeyError, and leaves a cache of the same kind behind. -/
theorem C18_generate (strict even : Bool) (n : Nat) (maxPart maxRow : Option Nat) (C : GenCache)
    (hC : ReachableCache C) :
    ∃ l C', generate strict even n maxPart maxRow C = some (l, C') ∧ ReachableCache C' ∧ l.Nodup ∧
      ∀ mu, mu ∈ l ↔ IsPartition mu ∧ mu.sum = n ∧ (∀ m, maxPart = some m → ∀ a ∈ mu, a ≤ m) ∧
        (∀ m, maxRow = some m → mu.length ≤ m) ∧ (strict = true → mu.Pairwise (· > ·)) ∧
        (even = true → ∀ a ∈ mu, a % 2 = 0) :=
  generate_spec strict even n maxPart maxRow C hC

/-- C18: the same for `Partition.all(n, ...)`: all partitions of size at most `n`. -/
theorem C18_all (strict even : Bool) (n : Nat) (maxPart maxRow : Option Nat) (C : GenCache)
    (hC : ReachableCache C) :
    ∃ l C', allUpTo strict even n maxPart maxRow C = some (l, C') ∧ ReachableCache C' ∧ l.Nodup ∧
      ∀ mu, mu ∈ l ↔ IsPartition mu ∧ mu.sum ≤ n ∧ (∀ m, maxPart = some m → ∀ a ∈ mu, a ≤ m) ∧
        (∀ m, maxRow = some m → mu.length ≤ m) ∧ (strict = true → mu.Pairwise (· > ·)) ∧
        (even = true → ∀ a ∈ mu, a % 2 = 0) := by
  obtain ⟨l, C', h1, h2, h3, h4⟩ := allUpTo_spec strict even n maxPart maxRow C hC
  refine ⟨l, C', h1, h2, h3, fun mu => ?_⟩
  rw [h4]
  unfold GenSpec
  tauto

/-- The empty cache, at import time, and the caches after any number of calls are reachable. -/
theorem C18_history (calls : List (Bool × Bool × Nat × Option Nat × Option Nat)) :
    ∃ C, calls.foldlM (fun (C : GenCache) c => (generate c.1 c.2.1 c.2.2.1 c.2.2.2.1 c.2.2.2.2 C).map Prod.snd)
      (Dict.empty : GenCache) = some C ∧ ReachableCache C := by
  suffices h : ∀ C₀ : GenCache, ReachableCache C₀ → ∃ C,
      calls.foldlM (fun (C : GenCache) c => (generate c.1 c.2.1 c.2.2.1 c.2.2.2.1 c.2.2.2.2 C).map Prod.snd)
        C₀ = some C ∧ ReachableCache C from
    h Dict.empty (by intro k hk; simp [Dict.keys, Dict.empty] at hk)
  induction calls with
  | nil => intro C hC; exact ⟨C, rfl, hC⟩
  | cons c calls ih =>
    intro C hC
    obtain ⟨l, C', h1, h2, -⟩ := C18_generate c.1 c.2.1 c.2.2.1 c.2.2.2.1 c.2.2.2.2 C hC
    obtain ⟨C'', h3, h4⟩ := ih C' h2
    refine ⟨C'', ?_, h4⟩
    rw [List.foldlM_cons, h1]
    exact h3

/-- A non-empty cache, as left by an earlier call, is reachable. -/
example : ReachableCache ((Dict.empty : GenCache).set (.four 1 (some 1) false false) [[1]]) := by
  intro k hk
  simp [Dict.keys, Dict.set, Dict.empty, Dict.insertItem] at hk
  exact ⟨_, _, _, _, hk⟩

/-! ### C19 -/

/-- The full statement of C19. -/
def C19_statement : Prop := ∀ (mu nu : List Nat) (strict : Bool), IsPartition mu → IsPartition nu →
  (subpartitions mu nu strict).Nodup ∧ ∀ lam, lam ∈ subpartitions mu nu strict ↔
    IsPartition lam ∧ Diagram nu ⊆ Diagram lam ∧ Diagram lam ⊆ Diagram mu ∧
      (strict = true → lam.Pairwise (· > ·))

/-- C19 for lower bounds `nu` with at most as many rows as `mu`.  Missing: `nu` with more rows than `mu`, see
`C19_violated`. -/
theorem C19_subpartitions_partial {mu nu : List Nat} (strict : Bool) (_hm : IsPartition mu)
    (_hn : IsPartition nu) (hlen : nu.length ≤ mu.length) :
    (subpartitions mu nu strict).Nodup ∧ ∀ lam, lam ∈ subpartitions mu nu strict ↔
      IsPartition lam ∧ Diagram nu ⊆ Diagram lam ∧ Diagram lam ⊆ Diagram mu ∧
        (strict = true → lam.Pairwise (· > ·)) := by
  obtain ⟨h1, h2⟩ := subpartitionsAux_spec (trim nu) strict mu 0
  rw [Nat.zero_add] at h1 h2
  rw [subpartitions]
  constructor
  · refine h1.map_on ?_
    intro x hx y hy hxy
    rw [h2] at hx hy
    apply List.ext_getElem (hx.1.trans hy.1.symm)
    intro i hi hi'
    rw [← List.getD_eq_getElem _ 0 hi, ← List.getD_eq_getElem _ 0 hi', ← getD_trim x, ← getD_trim y, hxy]
  · intro lam
    simp only [List.mem_map, h2, diagram_subset]
    constructor
    · rintro ⟨x, ⟨hx1, hx2, hx3, hx4⟩, rfl⟩
      refine ⟨trim_isPartition hx3, ?_, ?_, ?_⟩
      · intro i
        rw [getD_trim]
        by_cases hi : i < mu.length
        · have := (hx2 i hi).1
          rwa [Nat.zero_add, getD_trim] at this
        · rw [List.getD_eq_default nu 0 (by omega)]; omega
      · intro i
        rw [getD_trim]
        by_cases hi : i < mu.length
        · exact (hx2 i hi).2
        · rw [List.getD_eq_default x 0 (by omega)]; omega
      · intro hs
        rw [pairwise_gt_iff (trim_pos hx3)]
        intro i hi
        rw [getD_trim] at hi ⊢
        rw [getD_trim]
        have := hx4 hs i
        by_cases h : 0 < x.getD (i + 1) 0
        · exact this h
        · omega
    · rintro ⟨hl, hlow, hup, hs⟩
      have hll : lam.length ≤ mu.length := by
        by_contra hc
        push Not at hc
        have h3 := (getD_pos_iff hl.2 mu.length).2 hc
        have h4 := hup mu.length
        rw [List.getD_eq_default mu 0 le_rfl] at h4
        omega
      have hg : ∀ i, (lam ++ List.replicate (mu.length - lam.length) 0).getD i 0 = lam.getD i 0 := by
        intro t
        by_cases h : t < lam.length
        · rw [List.getD_append _ _ _ _ h]
        · rw [List.getD_append_right _ _ _ _ (by omega), List.getD_eq_default lam 0 (by omega)]
          by_cases h2 : t - lam.length < (List.replicate (mu.length - lam.length) 0).length
          · rw [List.getD_eq_getElem _ _ h2]; simp
          · rw [List.getD_eq_default _ _ (by omega)]
      have hpw : (lam ++ List.replicate (mu.length - lam.length) 0).Pairwise (· ≥ ·) := by
        rw [pairwise_ge_iff]
        intro i
        rw [hg, hg]
        exact (pairwise_ge_iff.1 hl.1) i
      refine ⟨lam ++ List.replicate (mu.length - lam.length) 0, ⟨by simp; omega, ?_, hpw, ?_⟩, ?_⟩
      · intro k _
        rw [Nat.zero_add, getD_trim, hg]
        exact ⟨hlow k, hup k⟩
      · intro hs' k hk
        rw [hg, hg] at *
        have := (pairwise_ge_iff.1 hl.1) k
        exact (pairwise_gt_iff hl.2).1 (hs hs') k (by omega)
      · apply row_ext (trim_pos hpw) hl.2
        intro i
        rw [getD_trim, hg]

example : IsPartition [3, 1] ∧ IsPartition [1] ∧ [1].length ≤ [3, 1].length ∧
    subpartitions [3, 1] [1] false = [[1], [2], [3], [1, 1], [2, 1], [3, 1]] ∧
    subpartitions [3, 1] [1] true = [[1], [2], [3], [2, 1], [3, 1]] := by
  refine ⟨⟨by decide, by decide⟩, ⟨by decide, by decide⟩, by decide, by decide, by decide⟩

/-- The code does not look at rows of the lower bound below the last row of `mu`: `subpartitions((1,), (1, 1))`
yields `(1,)`, which does not contain `(1, 1)`. -/
theorem C19_violated : ¬ C19_statement := by
  intro h
  have := (h [1] [1, 1] false ⟨by decide, by decide⟩ ⟨by decide, by decide⟩).2 [1]
  have h1 : [1] ∈ subpartitions [1] [1, 1] false := by decide
  have h2 := (this.1 h1).2.1
  rw [diagram_subset] at h2
  have := h2 1
  simp at this

/-! ### C20 -/

/-- C20: `compositions(n)` lists every sequence of positive integers with sum `n` exactly once. -/
theorem C20_compositions (n : Nat) : (compositions n).Nodup ∧
    ∀ alpha : List Nat, alpha ∈ compositions n ↔ (∀ a ∈ alpha, 0 < a) ∧ alpha.sum = n :=
  ⟨nodup_compositions n, mem_compositions n⟩

/-- C20: `peak_compositions(n)` lists exactly those in which every part except possibly the last is at least 2. -/
theorem C20_peak_compositions (n : Nat) : (peakCompositions n).Nodup ∧
    ∀ alpha : List Nat, alpha ∈ peakCompositions n ↔
      ((∀ a ∈ alpha, 0 < a) ∧ alpha.sum = n) ∧
        ∀ i a, i + 1 < alpha.length → alpha[i]? = some a → 2 ≤ a := by
  refine ⟨(nodup_compositions n).filter _, fun alpha => ?_⟩
  rw [peakCompositions, List.mem_filter, mem_compositions]
  refine and_congr_right fun _ => ?_
  simp only [List.all_eq_true, decide_eq_true_eq]
  constructor
  · intro h i a hi ha
    apply h
    rw [List.mem_iff_getElem?]
    refine ⟨i, ?_⟩
    rw [List.getElem?_dropLast, if_pos (by omega), ha]
  · intro h a ha
    obtain ⟨i, hi⟩ := List.mem_iff_getElem?.1 ha
    rw [List.getElem?_dropLast] at hi
    split at hi
    · exact h i a (by omega) hi
    · simp at hi

example : [2, 3, 1] ∈ peakCompositions 6 ∧ [2, 1, 3] ∉ peakCompositions 6 ∧ [2, 1, 3] ∈ compositions 6 := by
  refine ⟨?_, ?_, ?_⟩
  · rw [(C20_peak_compositions 6).2]
    refine ⟨by decide, fun i a hi ha => ?_⟩
    match i, hi with
    | 0, _ => simp at ha; omega
    | 1, _ => simp at ha; omega
  · rw [(C20_peak_compositions 6).2]
    intro h
    have := h.2 1 1 (by decide) (by decide)
    omega
  · rw [(C20_compositions 6).2]; decide

/-! ### C21 -/

/-- C21: `remove_inner_corner(mu, row)` succeeds exactly when the row has a corner box, and then removes it. -/
theorem C21_remove_inner_corner {mu : List Nat} (hm : IsPartition mu) (row : Nat) :
    (∀ j, (row, j) ∈ Corners (Diagram mu) → ∃ lam, removeInnerCorner mu row = some lam ∧ IsPartition lam ∧
      Diagram lam = Diagram mu \ {(row, j)}) ∧
    ((∀ j, (row, j) ∉ Corners (Diagram mu)) → removeInnerCorner mu row = none) := by
  rw [removeInnerCorner_cornerRow mu row hm]
  simp only [corner_diagram]
  constructor
  · rintro j ⟨hc, rfl⟩
    refine ⟨decRow mu row, by rw [if_pos hc], decRow_pairwise hm.1 hc, ?_⟩
    have hg := getD_decRow mu hc.1 (cornerRow_le_length hc)
    have h1 := hc.1
    ext ⟨i, j⟩
    simp only [Set.mem_sdiff, mem_diagram, hg, Set.mem_singleton_iff, Prod.mk.injEq]
    constructor
    · rintro ⟨e1, e2, e3⟩
      refine ⟨⟨e1, e2, by omega⟩, ?_⟩
      rintro ⟨rfl, rfl⟩
      rw [if_pos (by omega)] at e3
      omega
    · rintro ⟨⟨e1, e2, e3⟩, e4⟩
      refine ⟨e1, e2, ?_⟩
      by_cases h : i - 1 + 1 = row
      · have : i = row := by omega
        subst this
        rw [if_pos h]
        have : j ≠ mu.getD (i - 1) 0 := fun h => e4 ⟨rfl, h⟩
        omega
      · rw [if_neg h]; omega
  · intro h
    rw [if_neg]
    intro hc
    exact h _ ⟨hc, rfl⟩

/-- C21: `remove_inner_corners(mu)` never raises and yields, once each, the partitions obtained by removing a set of
corner boxes. -/
theorem C21_remove_inner_corners {mu : List Nat} (hm : IsPartition mu) :
    (removeInnerCorners mu).Nodup ∧ (∀ r ∈ removeInnerCorners mu, ∃ lam, r = some lam) ∧
      ∀ lam, some lam ∈ removeInnerCorners mu ↔
        IsPartition lam ∧ ∃ S ⊆ Corners (Diagram mu), Diagram lam = Diagram mu \ S := by
  obtain ⟨h1, h2, h3⟩ := removeCorners_spec 0 removeInnerCorner mu hm
    (fun mu r h => removeInnerCorner_cornerRow mu r h) (removeInnerCorners mu) rfl
  refine ⟨h1, h2, fun lam => ?_⟩
  rw [h3]
  refine and_congr_right fun hl => ?_
  constructor
  · intro h
    refine ⟨{b | b ∈ Corners (Diagram mu) ∧ b ∉ Diagram lam}, fun b hb => hb.1, ?_⟩
    ext ⟨i, j⟩
    simp only [Set.mem_sdiff, Set.mem_ofPred_eq, corner_diagram, mem_diagram]
    have := h (i - 1)
    constructor
    · rintro ⟨e1, e2, e3⟩
      refine ⟨⟨e1, e2, by omega⟩, ?_⟩
      rintro ⟨_, e4⟩
      exact e4 ⟨e1, e2, e3⟩
    · rintro ⟨⟨e1, e2, e3⟩, e4⟩
      by_contra hc
      apply e4
      rcases this with h5 | ⟨h5, h6⟩
      · exact absurd ⟨e1, e2, by omega⟩ hc
      · rw [Nat.sub_add_cancel e1] at h5
        refine ⟨⟨h5, by omega⟩, hc⟩
  · rintro ⟨S, hS, hD⟩ k
    have hD' : ∀ i j, (i, j) ∈ Diagram lam ↔ (i, j) ∈ Diagram mu ∧ (i, j) ∉ S := by
      intro i j; rw [hD]; rfl
    simp only [mem_diagram] at hD'
    by_cases hk : (k + 1, mu.getD k 0) ∈ S
    · right
      have hc := corner_diagram.1 (hS hk)
      refine ⟨hc.1, ?_⟩
      have hpos : 0 < mu.getD k 0 := by have := hc.1.2; simp at this; simp; omega
      have e1 := hD' (k + 1) (mu.getD k 0)
      have e2 := hD' (k + 1) (mu.getD k 0 - 1)
      have e2' : 1 < mu.getD k 0 → (k + 1, mu.getD k 0 - 1) ∉ S := by
        intro h hS'
        have := (corner_diagram.1 (hS hS')).2
        simp only [Nat.add_sub_cancel] at this
        omega
      simp only [Nat.add_sub_cancel, hk, not_true, and_false, iff_false] at e1 e2
      by_cases h1 : 1 < mu.getD k 0
      · have := e2.2 ⟨⟨by omega, by omega, by omega⟩, e2' h1⟩
        omega
      · omega
    · left
      have e1 := hD' (k + 1) (mu.getD k 0)
      have e2 := hD' (k + 1) (lam.getD k 0)
      simp only [Nat.add_sub_cancel] at e1 e2
      apply le_antisymm
      · by_cases h : 1 ≤ lam.getD k 0
        · exact (e2.1 ⟨by omega, h, le_rfl⟩).1.2.2
        · omega
      · by_cases h : 1 ≤ mu.getD k 0
        · exact (e1.2 ⟨⟨by omega, h, le_rfl⟩, hk⟩).2.2
        · omega

/-- C21, shifted version of `remove_inner_corner`: returns None when the row has no corner. -/
theorem C21_remove_shifted_inner_corner {mu : List Nat} (hm : IsStrict mu) (row : Nat) :
    (∀ j, (row, j) ∈ Corners (ShiftedDiagram mu) → ∃ lam, removeShiftedInnerCorner mu row = some lam ∧
      IsStrict lam ∧ ShiftedDiagram lam = ShiftedDiagram mu \ {(row, j)}) ∧
    ((∀ j, (row, j) ∉ Corners (ShiftedDiagram mu)) → removeShiftedInnerCorner mu row = none) := by
  have hp := isStrict_isPartition hm
  rw [removeShiftedInnerCorner_cornerRow mu row hp]
  simp only [corner_shiftedDiagram hm]
  constructor
  · rintro j ⟨hc, hj⟩
    have hg := getD_decRow mu hc.1 (cornerRow_le_length hc)
    have hd := decRow_pairwise hp.1 hc
    have h1 := hc.1
    have h2 := hc.2
    refine ⟨decRow mu row, by rw [if_pos hc], ⟨?_, hd.2⟩, ?_⟩
    · rw [pairwise_gt_iff hd.2]
      intro i
      have hst := (pairwise_gt_iff hm.2).1 hm.1 i
      rw [hg, hg]
      by_cases e1 : i + 1 = row
      · rw [if_pos e1, if_neg (by omega)]
        subst e1
        simp only [Nat.add_sub_cancel] at h2
        intro h
        split at h2 <;> omega
      · rw [if_neg e1]
        split <;> omega
    · ext ⟨i, j'⟩
      simp only [Set.mem_sdiff, mem_shiftedDiagram, hg, Set.mem_singleton_iff, Prod.mk.injEq]
      constructor
      · rintro ⟨e1, e2, e3⟩
        refine ⟨⟨e1, e2, by omega⟩, ?_⟩
        rintro ⟨rfl, rfl⟩
        rw [if_pos (by omega)] at e3
        omega
      · rintro ⟨⟨e1, e2, e3⟩, e4⟩
        refine ⟨e1, e2, ?_⟩
        by_cases h : i - 1 + 1 = row
        · have : i = row := by omega
          subst this
          rw [if_pos h]
          have : j' ≠ j := fun h => e4 ⟨rfl, h⟩
          omega
        · rw [if_neg h]; omega
  · intro h
    rw [if_neg]
    intro hc
    have := hc.2
    have h1 := hc.1
    refine h (row + mu.getD (row - 1) 0 - 1) ⟨hc, ?_⟩
    omega

/-- C21, shifted version of `remove_inner_corners`: never returns or meets None, and yields, once each, the strict
partitions obtained by removing a set of corner boxes. -/
theorem C21_remove_shifted_inner_corners {mu : List Nat} (hm : IsStrict mu) :
    (removeShiftedInnerCorners mu).Nodup ∧ (∀ r ∈ removeShiftedInnerCorners mu, ∃ lam, r = some lam) ∧
      ∀ lam, some lam ∈ removeShiftedInnerCorners mu ↔
        IsStrict lam ∧ ∃ S ⊆ Corners (ShiftedDiagram mu), ShiftedDiagram lam = ShiftedDiagram mu \ S := by
  have hp := isStrict_isPartition hm
  obtain ⟨h1, h2, h3⟩ := removeCorners_spec 1 removeShiftedInnerCorner mu hp
    (fun mu r h => removeShiftedInnerCorner_cornerRow mu r h) (removeShiftedInnerCorners mu) rfl
  refine ⟨h1, h2, fun lam => ?_⟩
  rw [h3]
  constructor
  · rintro ⟨hl, h⟩
    refine ⟨⟨?_, hl.2⟩, ?_⟩
    · rw [pairwise_gt_iff hl.2]
      intro i hi
      have hst := (pairwise_gt_iff hm.2).1 hm.1 i
      have e1 := h i
      have e2 := h (i + 1)
      rcases e1 with e1 | ⟨e0, e1⟩
      · rcases e2 with e2 | ⟨_, e2⟩ <;> omega
      · have := e0.2
        simp only [Nat.add_sub_cancel] at this
        split at this <;> rcases e2 with e2 | ⟨_, e2⟩ <;> omega
    · refine ⟨{b | b ∈ Corners (ShiftedDiagram mu) ∧ b ∉ ShiftedDiagram lam}, fun b hb => hb.1, ?_⟩
      ext ⟨i, j⟩
      simp only [Set.mem_sdiff, Set.mem_ofPred_eq, corner_shiftedDiagram hm, mem_shiftedDiagram]
      have := h (i - 1)
      constructor
      · rintro ⟨e1, e2, e3⟩
        refine ⟨⟨e1, e2, by omega⟩, ?_⟩
        rintro ⟨_, e4⟩
        exact e4 ⟨e1, e2, e3⟩
      · rintro ⟨⟨e1, e2, e3⟩, e4⟩
        by_contra hc
        apply e4
        rcases this with h5 | ⟨h5, h6⟩
        · exact absurd ⟨e1, e2, by omega⟩ hc
        · rw [Nat.sub_add_cancel e1] at h5
          refine ⟨⟨h5, by omega⟩, hc⟩
  · rintro ⟨hl, S, hS, hD⟩
    refine ⟨isStrict_isPartition hl, fun k => ?_⟩
    have hD' : ∀ i j, (i, j) ∈ ShiftedDiagram lam ↔ (i, j) ∈ ShiftedDiagram mu ∧ (i, j) ∉ S := by
      intro i j; rw [hD]; rfl
    simp only [mem_shiftedDiagram] at hD'
    by_cases hk : (k + 1, k + mu.getD k 0) ∈ S
    · right
      have hc := (corner_shiftedDiagram hm).1 (hS hk)
      refine ⟨hc.1, ?_⟩
      have hpos : 0 < mu.getD k 0 := by have := hc.1.2; simp only [Nat.add_sub_cancel] at this; omega
      have e1 := hD' (k + 1) (k + mu.getD k 0)
      have e2 := hD' (k + 1) (k + mu.getD k 0 - 1)
      have e2' : 1 < mu.getD k 0 → (k + 1, k + mu.getD k 0 - 1) ∉ S := by
        intro h hS'
        have := ((corner_shiftedDiagram hm).1 (hS hS')).2
        simp only [Nat.add_sub_cancel] at this
        omega
      simp only [Nat.add_sub_cancel, hk, not_true, and_false, iff_false] at e1 e2
      by_cases h1 : 1 < mu.getD k 0
      · have := e2.2 ⟨⟨by omega, by omega, by omega⟩, e2' h1⟩
        omega
      · omega
    · left
      have e1 := hD' (k + 1) (k + mu.getD k 0)
      have e2 := hD' (k + 1) (k + lam.getD k 0)
      simp only [Nat.add_sub_cancel] at e1 e2
      apply le_antisymm
      · by_cases h : 1 ≤ lam.getD k 0
        · have := (e2.1 ⟨by omega, by omega, by omega⟩).1.2.2
          omega
        · omega
      · by_cases h : 1 ≤ mu.getD k 0
        · have := (e1.2 ⟨⟨by omega, by omega, by omega⟩, hk⟩).2.2
          omega
        · omega

example : IsPartition [3, 3, 1] ∧ removeInnerCorner [3, 3, 1] 1 = none ∧ removeInnerCorner [3, 3, 1] 2 = some [3, 2, 1] ∧
    removeInnerCorners [3, 3, 1] = [some [3, 3, 1], some [3, 2, 1], some [3, 3], some [3, 2]] := by
  refine ⟨⟨by decide, by decide⟩, by decide, by decide, by decide⟩

example : IsStrict [4, 2, 1] ∧ removeShiftedInnerCorner [4, 2, 1] 2 = none ∧
    removeShiftedInnerCorners [4, 2, 1] = [some [4, 2, 1], some [3, 2, 1], some [4, 2], some [3, 2]] := by
  refine ⟨⟨by decide, by decide⟩, by decide, by decide⟩

/-! ### C22 -/

/-- C22: the growth diagram of every matrix `c` with `n` rows and `m` columns is computed without running forever;
each entry is a partition whose size is the sum of the matrix entries weakly above and to the left; neighbouring
entries differ by horizontal strips; the growth diagram of the transposed matrix is the transposed array. -/
theorem C22_growth_diagram (c : Nat → Nat → Nat) (m n : Nat) :
    ∃ g g' : Nat → Nat → List Nat,
      growthDiagram c m n = some ((List.range (n + 1)).map (fun i => (List.range (m + 1)).map (g i))) ∧
      growthDiagram (fun i j => c j i) n m = some ((List.range (m + 1)).map (fun i => (List.range (n + 1)).map (g' i))) ∧
      ∀ i ≤ n, ∀ j ≤ m, IsPartition (g i j) ∧
        (g i j).sum = ∑ a ∈ Finset.Icc 1 i, ∑ b ∈ Finset.Icc 1 j, c a b ∧
        (1 ≤ i → Diagram (g (i - 1) j) ⊆ Diagram (g i j) ∧
          IsHorizontalStrip (Diagram (g i j) \ Diagram (g (i - 1) j))) ∧
        (1 ≤ j → Diagram (g i (j - 1)) ⊆ Diagram (g i j) ∧
          IsHorizontalStrip (Diagram (g i j) \ Diagram (g i (j - 1)))) ∧
        g' j i = g i j := by
  refine ⟨gEntry c, gEntry (fun i j => c j i), growthDiagram_eq c m n, growthDiagram_eq _ n m, ?_⟩
  intro i _ j _
  obtain ⟨h1, h2, h3⟩ := gEntry_inv c i j
  refine ⟨h1, ?_, fun _ => HS_diagram h1.1 h2, fun _ => HS_diagram h1.1 h3, gEntry_transpose c i j⟩
  rw [gEntry_sum]
  have hIcc : ∀ n, ∀ f : Nat → Nat, ∑ a ∈ Finset.Icc 1 n, f a = ∑ a ∈ Finset.range n, f (a + 1) := by
    intro n f
    rw [Finset.range_eq_Ico, Finset.sum_Ico_add' f 0 n 1]
    rfl
  rw [hIcc]
  exact Finset.sum_congr rfl (fun a _ => (hIcc _ _).symm)

example : growthDiagram (fun i j => if (i, j) ∈ [(1, 2), (2, 1), (3, 3)] then 1 else 0) 3 3 =
    some [[[], [], [], []], [[], [], [1], [1]], [[], [1], [1, 1], [1, 1]], [[], [1], [1, 1], [2, 1]]] := by
  decide

/-! ### C23 -/

/-- C23: `contains` is containment of diagrams. -/
theorem C23_contains {mu nu : List Nat} (_hm : IsPartition mu) (hn : IsPartition nu) :
    contains mu nu = true ↔ Diagram nu ⊆ Diagram mu := by
  rw [contains_iff hn.2, diagram_subset]

/-- C23: `contains` is also containment of shifted diagrams. -/
theorem C23_contains_shifted {mu nu : List Nat} (_hm : IsStrict mu) (hn : IsStrict nu) :
    contains mu nu = true ↔ ShiftedDiagram nu ⊆ ShiftedDiagram mu := by
  rw [contains_iff hn.2, shiftedDiagram_subset]

/-- C23: `shape` lists the diagram, `from_shape` recovers the partition from the boxes in any order. -/
theorem C23_from_shape {mu : List Nat} (hm : IsPartition mu) :
    (∀ b, b ∈ shape mu ↔ b ∈ Diagram mu) ∧ (shape mu).Nodup ∧
      ∀ sh : List (Nat × Nat), sh.Nodup → (∀ b, b ∈ sh ↔ b ∈ Diagram mu) → fromShape sh = mu := by
  refine ⟨fun b => mem_shape, nodup_shapeFrom _ _, fun sh hnd hmem => ?_⟩
  have hperm : sh.Perm (shape mu) := by
    refine (List.perm_ext_iff_of_nodup hnd (nodup_shapeFrom _ _)).2 fun b => ?_
    rw [hmem, ← mem_shape]; rfl
  apply fromShape_of_counts hm.2
  · rintro ⟨i, j⟩ hb
    exact (mem_diagram.1 ((hmem _).1 hb)).1
  · intro i
    rw [hperm.countP_eq]
    have := countP_shapeFrom mu 0 i
    simpa [shape] using this

/-- C23: the same for shifted shapes of strict partitions. -/
theorem C23_from_shifted_shape {mu : List Nat} (hm : IsStrict mu) :
    (∀ b, b ∈ shiftedShape mu ↔ b ∈ ShiftedDiagram mu) ∧ (shiftedShape mu).Nodup ∧
      ∀ sh : List (Nat × Nat), sh.Nodup → (∀ b, b ∈ sh ↔ b ∈ ShiftedDiagram mu) → fromShape sh = mu := by
  refine ⟨fun b => mem_shiftedShape, nodup_shiftedShapeFrom _ _, fun sh hnd hmem => ?_⟩
  have hperm : sh.Perm (shiftedShape mu) := by
    refine (List.perm_ext_iff_of_nodup hnd (nodup_shiftedShapeFrom _ _)).2 fun b => ?_
    rw [hmem, ← mem_shiftedShape]; rfl
  apply fromShape_of_counts hm.2
  · rintro ⟨i, j⟩ hb
    exact (mem_shiftedDiagram.1 ((hmem _).1 hb)).1
  · intro i
    rw [hperm.countP_eq]
    have := countP_shiftedShapeFrom mu 0 i
    simpa [shiftedShape] using this

/-- C23: `skew` is the difference of the diagrams. -/
theorem C23_skew {mu nu : List Nat} (_hm : IsPartition mu) (_hn : IsPartition nu) (b : Nat × Nat) :
    b ∈ skew mu nu ↔ b ∈ Diagram mu \ Diagram nu := by
  obtain ⟨i, j⟩ := b
  rw [skew, mem_skewFrom, Set.mem_sdiff, mem_diagram, mem_diagram]
  simp only [Bool.false_eq_true, if_false, Nat.sub_zero]
  omega

/-- C23: `skew` with `shifted=True` is the difference of the shifted diagrams. -/
theorem C23_skew_shifted {mu nu : List Nat} (_hm : IsStrict mu) (_hn : IsStrict nu) (b : Nat × Nat) :
    b ∈ skew mu nu true ↔ b ∈ ShiftedDiagram mu \ ShiftedDiagram nu := by
  obtain ⟨i, j⟩ := b
  rw [skew, mem_skewFrom, Set.mem_sdiff, mem_shiftedDiagram, mem_shiftedDiagram]
  simp only [if_true, Nat.sub_zero]
  omega

example : IsPartition [3, 2] ∧ IsPartition [2] ∧ contains [3, 2] [2] = true ∧
    skew [3, 2] [2] = [(1, 3), (2, 1), (2, 2)] ∧
    fromShape [(2, 2), (1, 3), (1, 1), (2, 1), (1, 2)] = [3, 2] := by
  refine ⟨⟨by decide, by decide⟩, ⟨by decide, by decide⟩, by decide, by decide, by decide⟩

end Verif.Partition
