import Verif.Model.Rpp
import Verif.Lemmas.LayerGen

/-! The strips of reverse plane partitions: every shape between two given ones is found once. -/

attribute [-simp] List.getD_eq_getElem?_getD

namespace Verif.Tableaux

open Tab Verif.Part Partition

/-- A shape containing `lam`. -/
def Above (sh : Bool) (lam nu : List Nat) : Prop := IsShape sh nu ∧ ∀ j, lam.getD j 0 ≤ nu.getD j 0

theorem getD_set_nat (l : List Nat) (i a j : Nat) :
    (l.set i a).getD j 0 = if j = i ∧ i < l.length then a else l.getD j 0 := by
  rw [List.getD_eq_getElem?_getD, List.getD_eq_getElem?_getD, List.getElem?_set]
  by_cases h : j = i
  · subst h
    by_cases h2 : j < l.length
    · simp [h2]
    · simp [h2]
  · rw [if_neg (fun e => h e.symm), if_neg (fun e => h e.1)]

/-- A trimmed list that decreases has positive entries. -/
theorem trim_pos_of {l : List Nat} (h : (trim l).Pairwise (· ≥ ·)) : ∀ a ∈ trim l, 0 < a := by
  by_cases hne : trim l = []
  · simp [hne]
  · intro a ha
    have hl := trim_last l hne
    have := List.Pairwise.rel_getLast h ha
    simp only [ge_iff_le] at this
    omega

theorem all_ge_iff (nu : List Nat) :
    (List.range (nu.length - 1)).all (fun j => decide (nu.getD j 0 ≥ nu.getD (j + 1) 0)) = true ↔
      nu.Pairwise (· ≥ ·) := by
  rw [pairwise_ge_iff, List.all_eq_true]
  simp only [List.mem_range, decide_eq_true_eq]
  constructor
  · intro h i
    by_cases hi : i < nu.length - 1
    · exact h i hi
    · rw [List.getD_eq_default nu _ (by omega : nu.length ≤ i + 1)]
      exact Nat.zero_le _
  · intro h i _
    exact h i

/-- The box removed from row `i`. -/
def RowRemoves (sh : Bool) (lam : List Nat) (i : Nat) (rb : List Nat → Option (List Nat)) : Prop :=
  ∀ nu, Above sh lam nu → ∀ nu', rb nu = some nu' ↔
    Above sh lam nu' ∧ nu'.getD i 0 + 1 = nu.getD i 0 ∧ ∀ j ≠ i, nu'.getD j 0 = nu.getD j 0

theorem trim_set_eq {nu nu' : List Nat} {i : Nat} (hi : i < nu.length) (h0 : 0 < nu.getD i 0)
    (hp : ∀ a ∈ nu', 0 < a) (ht : ∀ a ∈ trim (nu.set i (nu.getD i 0 - 1)), 0 < a) :
    trim (nu.set i (nu.getD i 0 - 1)) = nu' ↔
      nu'.getD i 0 + 1 = nu.getD i 0 ∧ ∀ j ≠ i, nu'.getD j 0 = nu.getD j 0 := by
  constructor
  · rintro rfl
    constructor
    · rw [getD_trim, getD_set_nat, if_pos ⟨rfl, hi⟩]
      omega
    · intro j hj
      rw [getD_trim, getD_set_nat, if_neg (fun h => hj h.1)]
  · rintro ⟨h1, h2⟩
    refine row_ext ht hp (fun j => ?_)
    rw [getD_trim, getD_set_nat]
    split
    · rename_i h; rw [h.1]; omega
    · rename_i h
      have : j ≠ i := fun e => h ⟨e, hi⟩
      exact (h2 j this).symm

theorem trim_pos_of_getD {l nu' : List Nat} (hp : ∀ a ∈ nu', 0 < a) (h : ∀ j, nu'.getD j 0 = l.getD j 0) :
    ∀ a ∈ trim l, 0 < a := by
  have hlen : ∀ j, 0 < (trim l).getD j 0 ↔ j < nu'.length := fun j => by
    rw [getD_trim, ← h, getD_pos_iff hp]
  intro a ha
  obtain ⟨j, hj, rfl⟩ := List.getElem_of_mem ha
  rw [← List.getD_eq_getElem _ 0 hj]
  rw [hlen]
  have hne : trim l ≠ [] := by rintro e; rw [e] at hj; simp at hj
  have hl := trim_last l hne
  rw [List.getLast_eq_getElem, ← List.getD_eq_getElem _ 0] at hl
  have := (hlen _).1 (Nat.pos_of_ne_zero hl)
  omega

theorem rppRemoveBox_row {lam : List Nat} (hl : ∀ a ∈ lam, 0 < a) (i : Nat) :
    RowRemoves false lam i (rppRemoveBox lam i) := by
  intro nu hnu nu'
  unfold rppRemoveBox
  by_cases h : i < nu.length ∧ nu.getD i 0 > 0
  · rw [if_pos h]
    simp only []
    constructor
    · intro he
      split at he
      · rename_i hge
        rw [all_ge_iff] at hge
        split at he
        · rename_i hc
          rw [contains_iff hl] at hc
          obtain rfl := Option.some.inj he
          have hp := trim_pos_of hge
          exact ⟨⟨⟨hge, hp⟩, hc⟩, (trim_set_eq h.1 h.2 hp hp).1 rfl⟩
        · cases he
      · cases he
    · rintro ⟨hA, h1, h2⟩
      have hp : ∀ a ∈ trim (nu.set i (nu.getD i 0 - 1)), 0 < a := by
        refine trim_pos_of_getD hA.1.pos (fun j => ?_)
        rw [getD_set_nat]
        split
        · rename_i e; rw [e.1]; omega
        · rename_i e
          exact h2 j (fun e' => e ⟨e', h.1⟩)
      rw [(trim_set_eq h.1 h.2 hA.1.pos hp).2 ⟨h1, h2⟩]
      have hs : IsPartition nu' := hA.1
      rw [if_pos ((all_ge_iff _).2 hs.1), if_pos ((contains_iff hl).2 hA.2)]
  · rw [if_neg h]
    constructor
    · intro he; cases he
    · rintro ⟨_, h1, _⟩
      have : 0 < nu.getD i 0 := by omega
      exact absurd ⟨(getD_pos_iff hnu.1.pos i).1 this, this⟩ h

theorem shiftedRppRemoveBox_row (i : Nat) : RowRemoves true [] i (shiftedRppRemoveBox i) := by
  intro nu hnu nu'
  unfold shiftedRppRemoveBox
  have hall : ∀ l : List Nat, (List.range (l.length - 1)).all (fun j => decide (l.getD j 0 > l.getD (j + 1) 0)) = true ↔
      l.Pairwise (· > ·) := fun l => isStrictPartition_iff l
  by_cases h : i < nu.length ∧ nu.getD i 0 > 0
  · rw [if_pos h]
    simp only []
    constructor
    · intro he
      split at he
      · rename_i hge
        rw [hall] at hge
        obtain rfl := Option.some.inj he
        have hp := trim_pos_of (hge.imp (fun h => Nat.le_of_lt h))
        exact ⟨⟨⟨hge, hp⟩, by simp⟩, (trim_set_eq h.1 h.2 hp hp).1 rfl⟩
      · cases he
    · rintro ⟨hA, h1, h2⟩
      have hp : ∀ a ∈ trim (nu.set i (nu.getD i 0 - 1)), 0 < a := by
        refine trim_pos_of_getD hA.1.pos (fun j => ?_)
        rw [getD_set_nat]
        split
        · rename_i e; rw [e.1]; omega
        · rename_i e
          exact h2 j (fun e' => e ⟨e', h.1⟩)
      rw [(trim_set_eq h.1 h.2 hA.1.pos hp).2 ⟨h1, h2⟩]
      have hs : IsStrict nu' := hA.1
      rw [if_pos ((hall _).2 hs.1)]
  · rw [if_neg h]
    constructor
    · intro he; cases he
    · rintro ⟨_, h1, _⟩
      have : 0 < nu.getD i 0 := by omega
      exact absurd ⟨(getD_pos_iff hnu.1.pos i).1 this, this⟩ h

/-- A shape with given rows. -/
theorem exists_shape_rows {sh : Bool} (f : Nat → Nat) (N : Nat) (h0 : ∀ j ≥ N, f j = 0)
    (hd : ∀ j, 0 < f (j + 1) → f (j + 1) + (if sh then 1 else 0) ≤ f j) :
    ∃ nu, IsShape sh nu ∧ ∀ j, nu.getD j 0 = f j := by
  have hget : ∀ j, (trim ((List.range N).map f)).getD j 0 = f j := by
    intro j
    rw [getD_trim]
    by_cases hj : j < N
    · rw [List.getD_eq_getElem _ _ (by simpa using hj)]; simp
    · rw [List.getD_eq_default _ _ (by simp; omega), h0 j (by omega)]
  have hanti : ∀ j, f (j + 1) ≤ f j := by
    intro j
    have := hd j
    omega
  have hp : ∀ a ∈ trim ((List.range N).map f), 0 < a := by
    apply trim_pos
    rw [List.pairwise_map]
    exact List.pairwise_lt_range.imp (fun {a b} h => antitone_nat_of_succ_le hanti h.le)
  refine ⟨_, isShape_of hp ?_, hget⟩
  intro j
  rw [hget, hget]
  exact hd j

theorem getD_le_sum (nu : List Nat) (i : Nat) : nu.getD i 0 ≤ nu.sum := by
  induction nu generalizing i with
  | nil => simp
  | cons a t ih =>
    cases i with
    | zero => simp [List.getD_cons_zero]
    | succ i => rw [List.getD_cons_succ, List.sum_cons]; have := ih i; omega

/-- What `remove_all_boxes` yields when boxes are removed in row `i`. -/
theorem mem_removeAllBoxes_row {sh : Bool} {lam : List Nat} {i : Nat} {rb : List Nat → Option (List Nat)}
    (hrb : RowRemoves sh lam i rb) (fuel : Nat) {nu : List Nat} (hnu : Above sh lam nu) (hf : nu.getD i 0 ≤ fuel)
    (nu' : List Nat) : nu' ∈ removeAllBoxes rb fuel nu ↔
      Above sh lam nu' ∧ nu'.getD i 0 ≤ nu.getD i 0 ∧ ∀ j ≠ i, nu'.getD j 0 = nu.getD j 0 := by
  have hself : Above sh lam nu' → nu'.getD i 0 = nu.getD i 0 → (∀ j ≠ i, nu'.getD j 0 = nu.getD j 0) → nu' = nu := by
    intro hA h1 h2
    refine row_ext hA.1.pos hnu.1.pos (fun j => ?_)
    by_cases hj : j = i
    · rw [hj, h1]
    · exact h2 j hj
  induction fuel generalizing nu with
  | zero =>
    rw [removeAllBoxes, List.mem_singleton]
    constructor
    · rintro rfl; exact ⟨hnu, le_rfl, fun _ _ => rfl⟩
    · rintro ⟨hA, h1, h2⟩
      exact hself hA (by omega) h2
  | succ fuel ih =>
    rw [removeAllBoxes, List.mem_cons]
    constructor
    · rintro (rfl | h)
      · exact ⟨hnu, le_rfl, fun _ _ => rfl⟩
      · cases hr : rb nu with
        | none => simp [hr] at h
        | some nu1 =>
          simp only [hr] at h
          obtain ⟨hA, h1, h2⟩ := (hrb nu hnu nu1).1 hr
          obtain ⟨h3, h4, h5⟩ := (ih hA (by omega) (fun hB e1 e2 => row_ext hB.1.pos hA.1.pos (fun j => by
            by_cases hj : j = i
            · rw [hj, e1]
            · exact e2 j hj))).1 h
          exact ⟨h3, by omega, fun j hj => (h5 j hj).trans (h2 j hj)⟩
    · rintro ⟨hA, h1, h2⟩
      by_cases he : nu'.getD i 0 = nu.getD i 0
      · exact Or.inl (hself hA he h2)
      · right
        -- one box less in row `i`
        obtain ⟨nu1, hs1, hg1⟩ := exists_shape_rows (sh := sh)
          (fun j => if j = i then nu.getD i 0 - 1 else nu.getD j 0) nu.length (by
            intro j hj
            rw [List.getD_eq_default nu _ hj]
            split
            · rename_i e; rw [← e, List.getD_eq_default nu _ hj]
            · rfl) (by
            intro j
            have e1 := hnu.1.next j
            have e2 := hA.1.next j
            by_cases hj : j = i
            · rw [if_pos hj, if_neg (by omega)]
              rw [h2 (j + 1) (by omega)] at e2
              subst hj
              intro h0
              have := e2 h0
              omega
            · rw [if_neg hj]
              by_cases hj' : j + 1 = i
              · rw [if_pos hj', ← hj']
                intro h0
                have := e1 (by omega)
                omega
              · rw [if_neg hj']
                exact e1)
        have hA1 : Above sh lam nu1 := by
          refine ⟨hs1, fun j => ?_⟩
          rw [hg1]
          have a1 := hnu.2 j
          have a2 := hA.2 j
          split
          · rename_i e; subst e; omega
          · exact a1
        have hr : rb nu = some nu1 := (hrb nu hnu nu1).2 ⟨hA1, by rw [hg1, if_pos rfl]; omega, fun j hj => by
          rw [hg1, if_neg hj]⟩
        rw [hr]
        simp only
        refine (ih hA1 (by rw [hg1, if_pos rfl]; omega) (fun hB e1 e2 => row_ext hB.1.pos hA1.1.pos (fun j => by
            by_cases hj : j = i
            · rw [hj, e1]
            · exact e2 j hj))).2 ⟨hA, by rw [hg1, if_pos rfl]; omega, fun j hj => ?_⟩
        rw [hg1, if_neg hj]
        exact h2 j hj

/-- All shapes between `lam` and `mu` are found. -/
theorem mem_removeLoop_row {sh : Bool} {lam mu : List Nat} {rb : Nat → List Nat → Option (List Nat)}
    (hrb : ∀ i, RowRemoves sh lam i (rb i)) (hmu : Above sh lam mu) (i : Nat) (level : List (List Nat))
    (hlevel : ∀ nu, nu ∈ level ↔ Above sh lam nu ∧ (∀ j, nu.getD j 0 ≤ mu.getD j 0) ∧ ∀ j < i, nu.getD j 0 = mu.getD j 0)
    (nu : List Nat) : nu ∈ removeLoop rb i level ↔ 0 < i ∧ Above sh lam nu ∧ ∀ j, nu.getD j 0 ≤ mu.getD j 0 := by
  induction i generalizing level with
  | zero => simp [removeLoop]
  | succ i ih =>
    have hnew : ∀ nu, nu ∈ level.flatMap (fun nu => removeAllBoxes (rb i) nu.sum nu) ↔
        Above sh lam nu ∧ (∀ j, nu.getD j 0 ≤ mu.getD j 0) ∧ ∀ j < i, nu.getD j 0 = mu.getD j 0 := by
      intro nu
      rw [List.mem_flatMap]
      constructor
      · rintro ⟨nu1, h1, h2⟩
        obtain ⟨hA, hB, hC⟩ := (hlevel nu1).1 h1
        obtain ⟨h3, h4, h5⟩ := (mem_removeAllBoxes_row (hrb i) _ hA (getD_le_sum _ _) nu).1 h2
        refine ⟨h3, fun j => ?_, fun j hj => ?_⟩
        · by_cases hj : j = i
          · subst hj; have := hB j; omega
          · rw [h5 j hj]; exact hB j
        · rw [h5 j (by omega)]; exact hC j (by omega)
      · rintro ⟨hA, hB, hC⟩
        obtain ⟨nu1, hs1, hg1⟩ := exists_shape_rows (sh := sh)
          (fun j => if j = i then mu.getD i 0 else nu.getD j 0) mu.length (by
            intro j hj
            have := hB j
            rw [List.getD_eq_default mu _ hj] at this
            split
            · rename_i e; rw [← e, List.getD_eq_default mu _ hj]
            · omega) (by
            intro j
            have e1 := hmu.1.next j
            have e2 := hA.1.next j
            have e3 := hB j
            have e4 := hB (j + 1)
            by_cases hj : j = i
            · rw [if_pos hj, if_neg (by omega)]
              subst hj
              intro h0
              have := e2 h0
              omega
            · rw [if_neg hj]
              by_cases hj' : j + 1 = i
              · rw [if_pos hj', ← hj']
                intro h0
                rw [hC j (by omega)]
                exact e1 h0
              · rw [if_neg hj']
                exact e2)
        have hA1 : Above sh lam nu1 := by
          refine ⟨hs1, fun j => ?_⟩
          rw [hg1]
          have a1 := hmu.2 j
          have a2 := hA.2 j
          split
          · rename_i e; subst e; exact a1
          · exact a2
        refine ⟨nu1, (hlevel nu1).2 ⟨hA1, fun j => ?_, fun j hj => ?_⟩,
          (mem_removeAllBoxes_row (hrb i) _ hA1 (getD_le_sum _ _) nu).2 ⟨hA, ?_, fun j hj => ?_⟩⟩
        · rw [hg1]
          split
          · rename_i e; rw [e]
          · exact hB j
        · rw [hg1]
          split
          · rename_i e; rw [e]
          · exact hC j (by omega)
        · rw [hg1, if_pos rfl]; exact hB i
        · rw [hg1, if_neg hj]
    rw [removeLoop]
    rw [List.mem_append, hnew, ih _ hnew]
    constructor
    · rintro (⟨h1, h2, _⟩ | ⟨_, h1, h2⟩)
      · exact ⟨by omega, h1, h2⟩
      · exact ⟨by omega, h1, h2⟩
    · rintro ⟨_, h1, h2⟩
      by_cases hi : 0 < i
      · exact Or.inr ⟨hi, h1, h2⟩
      · exact Or.inl ⟨h1, h2, fun j hj => by omega⟩

theorem mem_start {sh : Bool} {lam mu : List Nat} (hmu : Above sh lam mu) (nu : List Nat) :
    nu ∈ [mu] ↔ Above sh lam nu ∧ (∀ j, nu.getD j 0 ≤ mu.getD j 0) ∧ ∀ j < mu.length, nu.getD j 0 = mu.getD j 0 := by
  rw [List.mem_singleton]
  constructor
  · rintro rfl
    exact ⟨hmu, fun _ => le_rfl, fun _ _ => rfl⟩
  · rintro ⟨h1, h2, h3⟩
    refine row_ext h1.1.pos hmu.1.pos (fun j => ?_)
    by_cases hj : j < mu.length
    · exact h3 j hj
    · have := h2 j
      rw [List.getD_eq_default mu _ (by omega)] at *
      omega

theorem nodup_skewFrom (shifted : Bool) (nu : List Nat) (mu : List Nat) (k : Nat) : (skewFrom shifted nu k mu).Nodup := by
  induction mu generalizing k with
  | nil => simp [skewFrom]
  | cons a mu ih =>
    rw [skewFrom, List.nodup_append]
    refine ⟨?_, ih _, ?_⟩
    · apply List.Nodup.map
      · intro x y h; simpa using h
      · exact List.nodup_range'
    · rintro ⟨i, j⟩ h1 ⟨i', j'⟩ h2 he
      rw [mem_skewFrom] at h2
      simp only [List.mem_map, Prod.mk.injEq] at h1
      obtain ⟨x, _, hx, _⟩ := h1
      rw [Prod.mk.injEq] at he
      omega

theorem mem_skew_shape {sh : Bool} {mu nu : List Nat} {b : Nat × Nat} :
    b ∈ skew mu nu sh ↔ b ∈ shapeSet sh mu ∧ b ∉ shapeSet sh nu := by
  obtain ⟨i, j⟩ := b
  rw [skew, mem_skewFrom, mem_shapeSet, mem_shapeSet]
  unfold off
  cases sh <;> simp <;> omega

/-- `_rpp_horizontal_strips(mu, lam)`: every partition between `lam` and `mu`, once. -/
theorem rppHorizontalStrips_spec {mu lam : List Nat} (hm : IsPartition mu) (hl : IsPartition lam) :
    (∀ s, s ∈ rppHorizontalStrips mu lam ↔ IsPartition s.1 ∧ (∀ j, lam.getD j 0 ≤ s.1.getD j 0) ∧
      (∀ j, s.1.getD j 0 ≤ mu.getD j 0) ∧ s.2 = skew mu s.1) ∧ (rppHorizontalStrips mu lam).Nodup := by
  unfold rppHorizontalStrips
  by_cases h1 : mu = lam
  · subst h1
    rw [if_pos rfl]
    refine ⟨?_, List.nodup_singleton _⟩
    rintro ⟨nu, d⟩
    rw [List.mem_singleton, Prod.mk.injEq]
    have hempty : skew mu mu = [] := by
      rw [List.eq_nil_iff_forall_not_mem]
      intro b hb
      have := (mem_skew_shape (sh := false)).1 hb
      exact this.2 this.1
    constructor
    · rintro ⟨rfl, rfl⟩
      exact ⟨hm, fun _ => le_rfl, fun _ => le_rfl, hempty.symm⟩
    · rintro ⟨h2, h3, h4, h5⟩
      have : nu = mu := row_ext h2.2 hm.2 (fun j => le_antisymm (h4 j) (h3 j))
      subst this
      exact ⟨rfl, (show d = _ from h5).trans hempty⟩
  · rw [if_neg h1]
    by_cases h2 : contains mu lam = true
    · rw [if_pos h2]
      have hA : Above false lam mu := ⟨hm, (contains_iff hl.2).1 h2⟩
      have hpos : 0 < mu.length := by
        rw [List.length_pos_iff]
        rintro rfl
        apply h1
        refine row_ext (by simp) hl.2 (fun j => ?_)
        have := hA.2 j
        have e : ([] : List Nat).getD j 0 = 0 := rfl
        omega
      refine ⟨?_, ?_⟩
      · rintro ⟨nu, d⟩
        simp only [List.mem_map, List.mem_dedup, Prod.mk.injEq]
        have hmem := mem_removeLoop_row (rppRemoveBox_row hl.2) hA mu.length [mu] (mem_start hA)
        constructor
        · rintro ⟨nu1, h3, rfl, rfl⟩
          obtain ⟨_, h4, h5⟩ := (hmem nu1).1 h3
          exact ⟨h4.1, h4.2, h5, rfl⟩
        · rintro ⟨h3, h4, h5, h6⟩
          exact ⟨nu, (hmem nu).2 ⟨hpos, ⟨h3, h4⟩, h5⟩, rfl, h6.symm⟩
      · refine (List.nodup_dedup _).map ?_
        intro x y h
        exact (Prod.mk.injEq _ _ _ _ ▸ h).1
    · rw [if_neg h2]
      refine ⟨?_, List.nodup_nil⟩
      rintro ⟨nu, d⟩
      constructor
      · intro h; simp at h
      · rintro ⟨h3, h4, h5, h6⟩
        exact absurd ((contains_iff hl.2).2 (fun j => (h4 j).trans (h5 j))) h2

/-- The shifted version. -/
theorem shiftedRppHorizontalStrips_spec {mu : List Nat} (hm : IsStrict mu) :
    ∃ l, shiftedRppHorizontalStrips mu = some l ∧ (∀ s, s ∈ l ↔ IsStrict s.1 ∧
      (∀ j, s.1.getD j 0 ≤ mu.getD j 0) ∧ s.2 = skew mu s.1 true) ∧ l.Nodup := by
  unfold shiftedRppHorizontalStrips
  rw [if_pos ((isStrictPartition_iff mu).2 hm.1)]
  by_cases h1 : mu = []
  · subst h1
    rw [if_pos rfl]
    refine ⟨_, rfl, ?_, List.nodup_singleton _⟩
    rintro ⟨nu, d⟩
    rw [List.mem_singleton, Prod.mk.injEq]
    constructor
    · rintro ⟨rfl, rfl⟩
      exact ⟨hm, fun _ => le_rfl, rfl⟩
    · rintro ⟨h2, h3, h4⟩
      have : nu = [] := row_ext h2.2 (by simp) (fun j => le_antisymm (h3 j) (by simp))
      subst this
      exact ⟨rfl, h4⟩
  · rw [if_neg h1]
    refine ⟨_, rfl, ?_, ?_⟩
    · have hA : Above true [] mu := ⟨hm, by simp⟩
      rintro ⟨nu, d⟩
      simp only [List.mem_map, List.mem_dedup, Prod.mk.injEq]
      have hmem := mem_removeLoop_row shiftedRppRemoveBox_row hA mu.length [mu] (mem_start hA)
      constructor
      · rintro ⟨nu1, h3, rfl, rfl⟩
        obtain ⟨_, h4, h5⟩ := (hmem nu1).1 h3
        exact ⟨h4.1, h5, rfl⟩
      · rintro ⟨h3, h5, h6⟩
        exact ⟨nu, (hmem nu).2 ⟨List.length_pos_iff.2 h1, ⟨h3, by simp⟩, h5⟩, rfl, h6.symm⟩
    · refine (List.nodup_dedup _).map ?_
      intro x y h
      exact (Prod.mk.injEq _ _ _ _ ▸ h).1

end Verif.Tableaux
