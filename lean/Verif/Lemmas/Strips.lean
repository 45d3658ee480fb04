import Verif.Lemmas.Tableau
import Verif.Lemmas.PartitionsCorner
import Verif.Lemmas.PartitionsGrowth
import Mathlib.Algebra.Order.BigOperators.Group.Finset

set_option linter.unusedSectionVars false

/-! What `_horizontal_strips` returns. -/

namespace Verif.Tableaux

open Part Partition

attribute [-simp] List.getD_eq_getElem?_getD
attribute [local simp] List.getD_cons_zero List.getD_cons_succ

/-- The smallest allowed part in row `i` (from 0). -/
def coreRow (mu lam : List Nat) (i : Nat) : Nat := max (mu.getD (i + 1) 0) (lam.getD i 0)

theorem getD_stripCore {mu lam : List Nat} (h : ∀ i, lam.getD i 0 ≤ mu.getD i 0) (i : Nat) :
    (stripCore mu lam).getD i 0 = coreRow mu lam i := by
  rw [stripCore, getD_map_range, coreRow]
  by_cases hi : i < mu.length
  · rw [if_pos hi]
    by_cases hl : i < lam.length
    · rw [if_pos hl]
    · rw [if_neg hl, List.getD_eq_default lam 0 (by omega)]; omega
  · rw [if_neg hi]
    have := h i
    rw [List.getD_eq_default mu 0 (by omega)] at this
    rw [List.getD_eq_default mu 0 (by omega : mu.length ≤ i + 1)]
    omega

theorem coreRow_le {mu lam : List Nat} (hm : mu.Pairwise (· ≥ ·)) (h : ∀ i, lam.getD i 0 ≤ mu.getD i 0) (i : Nat) :
    coreRow mu lam i ≤ mu.getD i 0 := by
  have := (pairwise_ge_iff.1 hm) i
  have := h i
  unfold coreRow; omega

/-- The elements of the levels. -/
def InLevel (mu core nu : List Nat) : Prop :=
  nu.length = mu.length ∧ ∀ i, core.getD i 0 ≤ nu.getD i 0 ∧ nu.getD i 0 ≤ mu.getD i 0

theorem sum_getD_le {l l' : List Nat} (hl : l.length = l'.length) (h : ∀ i, l.getD i 0 ≤ l'.getD i 0) :
    l.sum ≤ l'.sum := by
  rw [sum_eq_range l l.length le_rfl, sum_eq_range l' l.length (by omega)]
  exact Finset.sum_le_sum (fun i _ => h i)

theorem exists_lt_of_sum_lt {l l' : List Nat} (hl : l.length = l'.length) (h : l.sum < l'.sum) :
    ∃ i, i < l.length ∧ l.getD i 0 < l'.getD i 0 := by
  by_contra hc
  push Not at hc
  have := sum_getD_le hl.symm (fun i => by
    by_cases hi : i < l.length
    · exact hc i hi
    · rw [List.getD_eq_default l' 0 (by omega)]; omega)
  omega

theorem sum_set (l : List Nat) (i v : Nat) (hi : i < l.length) :
    (l.set i v).sum + l.getD i 0 = l.sum + v := by
  induction l generalizing i with
  | nil => simp at hi
  | cons a t ih =>
    cases i with
    | zero => simp; omega
    | succ i =>
      have := ih i (by simpa using hi)
      simp; omega

theorem mem_nextLevel {mu core : List Nat} (hcore : core.length = mu.length) {k : Nat} {level : List (List Nat)}
    (hlev : ∀ nu, nu ∈ level ↔ InLevel mu core nu ∧ nu.sum = core.sum + k) (nu : List Nat) :
    nu ∈ nextLevel mu level ↔ InLevel mu core nu ∧ nu.sum = core.sum + (k + 1) := by
  rw [nextLevel, List.mem_dedup]
  simp only [List.mem_flatMap, List.mem_range, List.mem_map, List.mem_filter, decide_eq_true_eq, hlev]
  constructor
  · rintro ⟨i, hi, nu', ⟨⟨⟨h1, h2⟩, h3⟩, h4⟩, rfl⟩
    refine ⟨⟨by simpa using h1, fun j => ?_⟩, ?_⟩
    · rw [getD_set _ _ _ _ (by omega)]
      have := h2 j
      split
      · rename_i h; subst h; omega
      · exact this
    · have := sum_set nu' i (nu'.getD i 0 + 1) (by omega)
      omega
  · rintro ⟨⟨h1, h2⟩, h3⟩
    obtain ⟨i, hi, hlt⟩ := exists_lt_of_sum_lt (l := core) (l' := nu) (by omega) (by omega)
    have hg := getD_set nu i
    refine ⟨i, by omega, nu.set i (nu.getD i 0 - 1), ⟨⟨⟨by simpa using h1, fun j => ?_⟩, ?_⟩, ?_⟩, ?_⟩
    · rw [getD_set _ _ _ _ (by omega)]
      have := h2 j
      split
      · rename_i h; subst h; omega
      · exact this
    · have := sum_set nu i (nu.getD i 0 - 1) (by omega)
      omega
    · rw [getD_set _ _ _ _ (by omega), if_pos rfl]
      have := h2 i
      omega
    · rw [getD_set _ _ _ _ (by omega), if_pos rfl, List.set_set]
      apply List.ext_getElem (by simp)
      intro j hj hj'
      rw [List.getElem_set]
      split
      · rename_i h; subst h
        rw [← List.getD_eq_getElem _ 0 hj']; omega
      · rfl

theorem level_empty {mu core : List Nat} (hcore : core.length = mu.length) {k : Nat}
    (h : ∀ nu, ¬ (InLevel mu core nu ∧ nu.sum = core.sum + k)) (d : Nat) :
    ∀ nu, ¬ (InLevel mu core nu ∧ nu.sum = core.sum + (k + d)) := by
  induction d with
  | zero => exact h
  | succ d ih =>
    intro nu hnu
    have := (mem_nextLevel (level := []) hcore (k := k + d)
      (fun nu => ⟨fun h => by simp at h, fun h => absurd h (ih nu)⟩) nu).2 (by
        rw [Nat.add_assoc k d 1]; exact hnu)
    simp [nextLevel] at this

theorem stripLoop_spec {mu core : List Nat} (hcore : core.length = mu.length) (fuel : Nat) :
    ∀ (k : Nat) (level : List (List Nat)), level.Nodup →
      (∀ nu, nu ∈ level ↔ InLevel mu core nu ∧ nu.sum = core.sum + k) → mu.sum + 1 < core.sum + k + fuel →
      1 ≤ fuel →
      ∃ nus : List (List Nat), stripLoop mu core fuel level = some (nus.map (stripRecord mu core)) ∧ nus.Nodup ∧
        ∀ nu, nu ∈ nus ↔ InLevel mu core nu ∧ core.sum + k ≤ nu.sum := by
  induction fuel with
  | zero => intro k level _ _ _ h; omega
  | succ fuel ih =>
    intro k level hnd hlev hf _
    rw [stripLoop]
    split
    · rename_i he
      rw [List.isEmpty_iff] at he
      subst he
      refine ⟨[], by simp, by simp, fun nu => ?_⟩
      constructor
      · intro h; simp at h
      · rintro ⟨h1, h2⟩
        have := level_empty hcore (k := k) (fun nu h => by have := (hlev nu).2 h; simp at this)
          (nu.sum - (core.sum + k)) nu ⟨h1, by omega⟩
        exact this.elim
    · rename_i he
      obtain ⟨nu0, hnu0⟩ := List.exists_mem_of_ne_nil level (by simpa using he)
      rw [hlev] at hnu0
      have hle := sum_getD_le hnu0.1.1 (fun i => (hnu0.1.2 i).2)
      obtain ⟨nus, h1, h2, h3⟩ := ih (k + 1) (nextLevel mu level) (List.nodup_dedup _)
        (mem_nextLevel hcore hlev) (by omega) (by omega)
      refine ⟨level ++ nus, by rw [h1]; simp, ?_, fun nu => ?_⟩
      · rw [List.nodup_append]
        refine ⟨hnd, h2, ?_⟩
        rintro a ha b hb rfl
        rw [hlev] at ha
        rw [h3] at hb
        omega
      · rw [List.mem_append, hlev, h3]
        constructor
        · rintro (⟨h1, h2⟩ | ⟨h1, h2⟩)
          · exact ⟨h1, by omega⟩
          · exact ⟨h1, by omega⟩
        · rintro ⟨h1, h2⟩
          by_cases h : nu.sum = core.sum + k
          · left; exact ⟨h1, h⟩
          · right; exact ⟨h1, by omega⟩

/-- The partitions `nu` with `mu/nu` a horizontal strip and `lam` contained in `nu`. -/
def IsStrip (mu lam nu : List Nat) : Prop :=
  IsPartition nu ∧ ∀ i, coreRow mu lam i ≤ nu.getD i 0 ∧ nu.getD i 0 ≤ mu.getD i 0

/-- The record made for the strip `nu`. -/
structure StripRec (mu lam : List Nat) (s : List Nat × List (Nat × Nat) × List (Nat × Nat)) : Prop where
  strip : IsStrip mu lam s.1
  diff_mem : ∀ b, b ∈ s.2.1 ↔ b ∈ Diagram mu ∧ b ∉ Diagram s.1
  diff_nodup : s.2.1.Nodup
  corner_mem : ∀ b, b ∈ s.2.2 ↔ ∃ i, coreRow mu lam i < s.1.getD i 0 ∧ b = (i + 1, s.1.getD i 0)
  corner_nodup : s.2.2.Nodup

theorem stripRecord_fst {mu core nu : List Nat} (hpos : ∀ a ∈ mu, 0 < a)
    (hcore : ∀ i, mu.getD (i + 1) 0 ≤ core.getD i 0) (h : InLevel mu core nu) :
    (stripRecord mu core nu).1 = trim nu := by
  simp only [stripRecord]
  rcases List.eq_nil_or_concat nu with rfl | ⟨t, a, rfl⟩
  · simp [trim]
  · simp only [List.concat_eq_append] at *
    have ht : ∀ x ∈ t, 0 < x := by
      intro x hx
      obtain ⟨i, hi, rfl⟩ := List.mem_iff_getElem.1 hx
      have h1 := h.1
      have h2 := (h.2 i).1
      rw [List.getD_append _ _ _ _ hi, List.getD_eq_getElem _ _ hi] at h2
      have h3 := hcore i
      have h4 := (getD_pos_iff hpos (i + 1)).2 (by simp at h1; omega)
      omega
    have hl : (t ++ [a]).getLastD 0 = a := by simp
    rw [hl]
    by_cases ha : a > 0
    · rw [if_pos ha, trim_of_pos]
      intro x hx
      rcases List.mem_append.1 hx with h | h
      · exact ht x h
      · simp at h; omega
    · have : a = 0 := by omega
      subst this
      rw [if_neg ha, List.dropLast_concat]
      have : trim (t ++ [0]) = trim t := by simp [trim]
      rw [this, trim_of_pos ht]

theorem mem_diffBoxes {mu nu : List Nat} {b : Nat × Nat} :
    b ∈ (List.range mu.length).flatMap (fun i =>
      (List.range' (nu.getD i 0) (mu.getD i 0 - nu.getD i 0)).map (fun j => (i + 1, j + 1))) ↔
    b ∈ Diagram mu ∧ b ∉ Diagram nu := by
  obtain ⟨i, j⟩ := b
  simp only [List.mem_flatMap, List.mem_range, List.mem_map, List.mem_range'_1, Prod.mk.injEq, mem_diagram]
  constructor
  · rintro ⟨i', hi', j', hj', rfl, rfl⟩
    simp only [Nat.add_sub_cancel]
    omega
  · rintro ⟨⟨h1, h2, h3⟩, h4⟩
    refine ⟨i - 1, ?_, j - 1, ?_, by omega, by omega⟩
    · by_contra hc
      rw [List.getD_eq_default mu 0 (by omega)] at h3
      omega
    · omega

theorem nodup_diffBoxes (mu nu : List Nat) :
    ((List.range mu.length).flatMap (fun i =>
      (List.range' (nu.getD i 0) (mu.getD i 0 - nu.getD i 0)).map (fun j => (i + 1, j + 1)))).Nodup := by
  rw [List.nodup_flatMap]
  refine ⟨fun i _ => (List.nodup_range' _).map (by intro x y h; simpa using h), ?_⟩
  refine List.nodup_range.imp ?_
  intro a b hab
  simp only [Function.onFun, List.disjoint_left, List.mem_map]
  rintro x ⟨e, _, rfl⟩ ⟨e', _, h⟩
  simp at h
  omega

theorem diagram_trim (nu : List Nat) : Diagram (trim nu) = Diagram nu := by
  ext ⟨i, j⟩
  rw [mem_diagram, mem_diagram, getD_trim]

theorem stripRecord_rec {mu lam nu : List Nat} (hm : IsPartition mu) (hsub : ∀ i, lam.getD i 0 ≤ mu.getD i 0)
    (h : InLevel mu (stripCore mu lam) nu) : StripRec mu lam (stripRecord mu (stripCore mu lam) nu) := by
  have hcore := getD_stripCore hsub
  have hfst := stripRecord_fst hm.2 (fun i => by rw [hcore]; exact le_max_left _ _) h
  have hpw : nu.Pairwise (· ≥ ·) := by
    rw [pairwise_ge_iff]
    intro i
    have h1 := (h.2 i).1
    have h2 := (h.2 (i + 1)).2
    rw [hcore] at h1
    unfold coreRow at h1
    omega
  refine ⟨?_, ?_, ?_, ?_, ?_⟩
  · rw [hfst]
    refine ⟨trim_isPartition hpw, fun i => ?_⟩
    rw [getD_trim, ← hcore]
    exact h.2 i
  · intro b
    rw [hfst, diagram_trim]
    exact mem_diffBoxes
  · exact nodup_diffBoxes mu nu
  · intro b
    rw [hfst]
    have e : (stripRecord mu (stripCore mu lam) nu).2.2 =
      ((List.range (stripRecord mu (stripCore mu lam) nu).1.length).filter
        (fun i => decide ((stripCore mu lam).getD i 0 < (stripRecord mu (stripCore mu lam) nu).1.getD i 0))).map
        (fun i => (i + 1, (stripRecord mu (stripCore mu lam) nu).1.getD i 0)) := rfl
    rw [e, hfst]
    simp only [List.mem_map, List.mem_filter, List.mem_range, decide_eq_true_eq, hcore]
    constructor
    · rintro ⟨i, ⟨_, h2⟩, rfl⟩; exact ⟨i, h2, rfl⟩
    · rintro ⟨i, h2, rfl⟩
      refine ⟨i, ⟨?_, h2⟩, rfl⟩
      rw [← getD_pos_iff (trim_pos hpw)]; omega
  · refine (List.nodup_range.filter _).map ?_
    intro x y h
    simp at h; omega

/-- `_horizontal_strips(mu, lam)` ends and lists each `nu` between the core and `mu` once, with the right boxes. -/
theorem horizontalStrips_spec {mu lam : List Nat} (hm : IsPartition mu) (hl : IsPartition lam)
    (hc : contains mu lam = true) :
    horizontalStrips? mu lam = some (horizontalStrips mu lam) ∧
    ((horizontalStrips mu lam).map Prod.fst).Nodup ∧
    (∀ s ∈ horizontalStrips mu lam, StripRec mu lam s) ∧
    (∀ nu, IsStrip mu lam nu → ∃ s ∈ horizontalStrips mu lam, s.1 = nu) := by
  have hsub := (contains_iff hl.2).1 hc
  have hcoreg := getD_stripCore hsub
  have hclen : (stripCore mu lam).length = mu.length := by simp [stripCore]
  have hinit : ∀ nu, nu ∈ [stripCore mu lam] ↔
      InLevel mu (stripCore mu lam) nu ∧ nu.sum = (stripCore mu lam).sum + 0 := by
    intro nu
    rw [List.mem_singleton]
    constructor
    · rintro rfl
      exact ⟨⟨hclen, fun i => ⟨le_rfl, by rw [hcoreg]; exact coreRow_le hm.1 hsub i⟩⟩, rfl⟩
    · rintro ⟨h1, h2⟩
      by_contra hne
      have : ∃ i, (stripCore mu lam).getD i 0 ≠ nu.getD i 0 := by
        by_contra hall
        push Not at hall
        apply hne
        apply List.ext_getElem (by rw [h1.1, hclen])
        intro i hi hi'
        rw [← List.getD_eq_getElem _ 0 hi, ← List.getD_eq_getElem _ 0 hi', hall]
      obtain ⟨i, hi⟩ := this
      have hlt : (stripCore mu lam).getD i 0 < nu.getD i 0 := by have := (h1.2 i).1; omega
      have hin : i < nu.length := by
        by_contra hc
        rw [List.getD_eq_default nu 0 (by omega)] at hlt
        omega
      have h3 := sum_set nu i ((stripCore mu lam).getD i 0) hin
      have h4 := sum_getD_le (l := stripCore mu lam) (l' := nu.set i ((stripCore mu lam).getD i 0))
        (by rw [hclen, List.length_set, h1.1]) (fun j => by
          rw [getD_set _ _ _ _ hin]
          split
          · rename_i h; rw [h]
          · exact (h1.2 j).1)
      omega
  obtain ⟨nus, h1, h2, h3⟩ := stripLoop_spec hclen (mu.sum + 2) 0 [stripCore mu lam] (by simp) hinit
    (by omega) (by omega)
  have he? : horizontalStrips? mu lam = some (nus.map (stripRecord mu (stripCore mu lam))) := by
    rw [horizontalStrips?, if_pos hc, h1]
  have he : horizontalStrips mu lam = nus.map (stripRecord mu (stripCore mu lam)) := by
    rw [horizontalStrips, he?]; rfl
  have hfst : ∀ nu ∈ nus, (stripRecord mu (stripCore mu lam) nu).1 = trim nu := by
    intro nu hnu
    exact stripRecord_fst hm.2 (fun i => by rw [hcoreg]; exact le_max_left _ _) ((h3 nu).1 hnu).1
  refine ⟨by rw [he?, he], ?_, ?_, ?_⟩
  · rw [he, List.map_map]
    refine h2.map_on ?_
    intro x hx y hy hxy
    simp only [Function.comp] at hxy
    rw [hfst x hx, hfst y hy] at hxy
    have hx' := ((h3 x).1 hx).1
    have hy' := ((h3 y).1 hy).1
    apply List.ext_getElem (hx'.1.trans hy'.1.symm)
    intro i hi hi'
    rw [← List.getD_eq_getElem _ 0 hi, ← List.getD_eq_getElem _ 0 hi', ← getD_trim x, ← getD_trim y, hxy]
  · intro s hs
    rw [he] at hs
    obtain ⟨nu, hnu, rfl⟩ := List.mem_map.1 hs
    exact stripRecord_rec hm hsub ((h3 nu).1 hnu).1
  · intro nu hnu
    have hlen : nu.length ≤ mu.length := by
      by_contra hc
      have h5 := (getD_pos_iff hnu.1.2 mu.length).2 (by omega)
      have h6 := (hnu.2 mu.length).2
      rw [List.getD_eq_default mu 0 le_rfl] at h6
      omega
    have hg : ∀ i, (nu ++ List.replicate (mu.length - nu.length) 0).getD i 0 = nu.getD i 0 := by
      intro t
      by_cases h : t < nu.length
      · rw [List.getD_append _ _ _ _ h]
      · rw [List.getD_append_right _ _ _ _ (by omega), List.getD_eq_default nu 0 (by omega)]
        by_cases h2 : t - nu.length < (List.replicate (mu.length - nu.length) 0).length
        · rw [List.getD_eq_getElem _ _ h2]; simp
        · rw [List.getD_eq_default _ _ (by omega)]
    have hin : InLevel mu (stripCore mu lam) (nu ++ List.replicate (mu.length - nu.length) 0) := by
      refine ⟨by simp; omega, fun i => ?_⟩
      rw [hg, hcoreg]
      exact hnu.2 i
    have hmem := (h3 _).2 ⟨hin, by
      have := sum_getD_le (l := stripCore mu lam) (l' := nu ++ List.replicate (mu.length - nu.length) 0)
        (by rw [hclen, hin.1]) (fun i => (hin.2 i).1)
      omega⟩
    refine ⟨stripRecord mu (stripCore mu lam) (nu ++ List.replicate (mu.length - nu.length) 0), ?_, ?_⟩
    · rw [he]; exact List.mem_map.2 ⟨_, hmem, rfl⟩
    · rw [hfst _ hmem]
      have hpw : (nu ++ List.replicate (mu.length - nu.length) 0).Pairwise (· ≥ ·) := by
        rw [pairwise_ge_iff]
        intro i
        rw [hg, hg]
        exact (pairwise_ge_iff.1 hnu.1.1) i
      apply row_ext (trim_pos hpw) hnu.1.2
      intro i
      rw [getD_trim, hg]

theorem horizontalStrips_inj {mu lam : List Nat} (hnd : ((horizontalStrips mu lam).map Prod.fst).Nodup)
    {s s' : List Nat × List (Nat × Nat) × List (Nat × Nat)} (hs : s ∈ horizontalStrips mu lam)
    (hs' : s' ∈ horizontalStrips mu lam) (h : s.1 = s'.1) : s = s' :=
  List.inj_on_of_nodup_map hnd hs hs' h

end Verif.Tableaux
