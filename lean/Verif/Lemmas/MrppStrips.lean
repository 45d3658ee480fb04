import Verif.Lemmas.RppStrips

/-! The strips of marked reverse plane partitions: removing boxes from columns finds every strict partition inside the
given one. -/

attribute [-simp] List.getD_eq_getElem?_getD

namespace Verif.Tableaux

open Tab Verif.Part Partition

theorem IsStrict.next' {nu : List Nat} (h : IsStrict nu) (j : Nat) (h0 : 0 < nu.getD (j + 1) 0) :
    nu.getD (j + 1) 0 + 1 ≤ nu.getD j 0 := by
  have := IsShape.next (sh := true) (show IsShape true nu from h) j h0
  simpa using this

/-- Row ends weakly decrease. -/
theorem IsStrict.ends {nu : List Nat} (h : IsStrict nu) {j k : Nat} (hjk : j ≤ k) (h0 : 0 < nu.getD k 0) :
    k + nu.getD k 0 ≤ j + nu.getD j 0 := by
  induction k, hjk using Nat.le_induction with
  | base => exact le_rfl
  | succ k hk ih =>
    have h1 := IsStrict.next' h k h0
    have := ih (by omega)
    omega

/-- The box removed from column `i + 1`. -/
theorem removeColumnBox_some {i : Nat} {nu nu1 : List Nat} (hnu : IsStrict nu)
    (h : shiftedRppRemoveColumnBox i nu = some nu1) : ∃ j, j + nu.getD j 0 = i + 1 ∧ 0 < nu.getD j 0 ∧
      (∀ k > j, 0 < nu.getD k 0 → k + nu.getD k 0 ≠ i + 1) ∧ IsStrict nu1 ∧ nu1.getD j 0 + 1 = nu.getD j 0 ∧
      ∀ k ≠ j, nu1.getD k 0 = nu.getD k 0 := by
  unfold shiftedRppRemoveColumnBox at h
  cases hf : (List.range nu.length).reverse.find? (fun j => decide (j + nu.getD j 0 = i + 1)) with
  | none => rw [hf] at h; cases h
  | some j =>
    rw [hf] at h
    have h : trim (nu.set j (nu.getD j 0 - 1)) = nu1 := Option.some.inj h
    have hj := List.find?_some hf
    have hmem := List.mem_of_find?_eq_some hf
    simp only [decide_eq_true_eq] at hj
    have hjl : j < nu.length := by simpa using hmem
    have hpos : 0 < nu.getD j 0 := (getD_pos_iff hnu.2 j).2 hjl
    have hlast : ∀ k > j, 0 < nu.getD k 0 → k + nu.getD k 0 ≠ i + 1 := by
      intro k hk h0 he
      have hkl : k < nu.length := (getD_pos_iff hnu.2 k).1 h0
      obtain ⟨_, as, bs, h1, h2⟩ := List.find?_eq_some_iff_append.1 hf
      have hsplit : (List.range nu.length).reverse = as ++ j :: bs := h1
      have hsort : (List.range nu.length).reverse.Pairwise (· > ·) := by
        rw [List.pairwise_reverse]
        exact List.pairwise_lt_range
      have hkmem : k ∈ (List.range nu.length).reverse := by simpa using hkl
      rw [hsplit] at hkmem hsort
      rw [List.mem_append, List.mem_cons] at hkmem
      rcases hkmem with hk' | rfl | hk'
      · have := h2 k hk'
        simp at this
        exact this he
      · omega
      · have := (List.pairwise_cons.1 (List.pairwise_append.1 hsort).2.1).1 k hk'
        omega
    obtain ⟨nu2, hs2, hg2⟩ := exists_shape_rows (sh := true)
      (fun k => if k = j then nu.getD j 0 - 1 else nu.getD k 0) nu.length (by
        intro k hk
        rw [if_neg (by omega), List.getD_eq_default nu _ hk]) (by
        intro k h0
        simp only [if_true]
        by_cases hk : k = j
        · subst hk
          rw [if_neg (by omega)] at h0 ⊢
          rw [if_pos rfl]
          have h1 := IsStrict.next' hnu k h0
          have h2 := hlast (k + 1) (by omega) h0
          omega
        · rw [if_neg hk]
          by_cases hk' : k + 1 = j
          · subst hk'
            rw [if_pos rfl] at h0 ⊢
            have h1 := IsStrict.next' hnu k (by omega)
            omega
          · rw [if_neg hk'] at h0 ⊢
            exact IsStrict.next' hnu k h0)
    have hs2 : IsStrict nu2 := hs2
    have he : nu2 = nu1 := by
      rw [← h]
      symm
      refine (trim_set_eq hjl hpos hs2.2 ?_).2 ⟨by rw [hg2, if_pos rfl]; omega, fun k hk => by rw [hg2, if_neg hk]⟩
      refine trim_pos_of_getD hs2.2 (fun k => ?_)
      rw [hg2, getD_set_nat]
      by_cases hk : k = j
      · rw [if_pos hk, if_pos ⟨hk, hjl⟩]
      · rw [if_neg hk, if_neg (fun e => hk e.1)]
    rw [← he]
    exact ⟨j, hj, hpos, hlast, hs2, by rw [hg2, if_pos rfl]; omega, fun k hk => by rw [hg2, if_neg hk]⟩

theorem removeColumnBox_none {i : Nat} {nu : List Nat} (hnu : IsStrict nu)
    (h : shiftedRppRemoveColumnBox i nu = none) (j : Nat) (h0 : 0 < nu.getD j 0) : j + nu.getD j 0 ≠ i + 1 := by
  unfold shiftedRppRemoveColumnBox at h
  cases hf : (List.range nu.length).reverse.find? (fun j => decide (j + nu.getD j 0 = i + 1)) with
  | some j => rw [hf] at h; cases h
  | none =>
    have := List.find?_eq_none.1 hf j (by simpa using (getD_pos_iff hnu.2 j).1 h0)
    simpa using this

/-- What `remove_all_boxes` yields when boxes are removed in column `i + 1`; `r` bounds the rows. -/
theorem mem_removeAllBoxes_col {i : Nat} (fuel : Nat) {nu : List Nat} (hnu : IsStrict nu) (r : Nat) (hf : r ≤ fuel)
    (hr : ∀ j ≥ r, 0 < nu.getD j 0 → j + nu.getD j 0 ≠ i + 1) (nu' : List Nat) :
    nu' ∈ removeAllBoxes (shiftedRppRemoveColumnBox i) fuel nu ↔ IsStrict nu' ∧
      ∀ j, nu'.getD j 0 = nu.getD j 0 ∨ (j + nu.getD j 0 = i + 1 ∧ nu'.getD j 0 + 1 = nu.getD j 0) := by
  have hself : ∀ {nu : List Nat}, IsStrict nu → IsStrict nu' → (∀ j, nu'.getD j 0 = nu.getD j 0) → nu' = nu :=
    fun h1 h2 h => row_ext h2.2 h1.2 h
  induction fuel generalizing nu r with
  | zero =>
    rw [removeAllBoxes, List.mem_singleton]
    constructor
    · rintro rfl; exact ⟨hnu, fun j => Or.inl rfl⟩
    · rintro ⟨hA, h⟩
      refine hself hnu hA (fun j => ?_)
      rcases h j with h | h
      · exact h
      · exact absurd h.1 (hr j (by omega) (by omega))
  | succ fuel ih =>
    rw [removeAllBoxes, List.mem_cons]
    cases hb : shiftedRppRemoveColumnBox i nu with
    | none =>
      simp only [List.not_mem_nil, or_false]
      constructor
      · rintro rfl; exact ⟨hnu, fun j => Or.inl rfl⟩
      · rintro ⟨hA, h⟩
        refine hself hnu hA (fun j => ?_)
        rcases h j with h | h
        · exact h
        · exact absurd h.1 (removeColumnBox_none hnu hb j (by omega))
    | some nu1 =>
      simp only
      obtain ⟨j, hj, hpos, hlast, hs1, hg1, hg1'⟩ := removeColumnBox_some hnu hb
      have hjr : j < r := by
        by_contra hc
        exact hr j (by omega) hpos hj
      have hr1 : ∀ k ≥ j, 0 < nu1.getD k 0 → k + nu1.getD k 0 ≠ i + 1 := by
        intro k hk h0
        by_cases hkj : k = j
        · subst hkj; omega
        · rw [hg1' k hkj] at h0 ⊢
          exact hlast k (by omega) h0
      have hih := ih hs1 j (by omega) hr1
      refine (or_congr Iff.rfl hih).trans ?_
      constructor
      · rintro (rfl | ⟨hA, h⟩)
        · exact ⟨hnu, fun j => Or.inl rfl⟩
        · refine ⟨hA, fun k => ?_⟩
          by_cases hkj : k = j
          · subst hkj
            rcases h k with h | h
            · right; exact ⟨hj, by omega⟩
            · omega
          · have := h k
            rwa [hg1' k hkj] at this
      · rintro ⟨hA, h⟩
        by_cases he : nu'.getD j 0 = nu.getD j 0
        · left
          refine hself hnu hA (fun k => ?_)
          rcases h k with h1 | ⟨h1, h2⟩
          · exact h1
          · exfalso
            -- row `k` was shortened, although row `j` below still ends in that column
            have hkj : k ≠ j := by rintro rfl; omega
            have hlt : k < j := by
              by_contra hc
              exact hlast k (by omega) (by omega) h1
            have := IsStrict.ends hA hlt.le (by omega)
            omega
        · right
          refine ⟨hA, fun k => ?_⟩
          by_cases hkj : k = j
          · subst hkj
            rcases h k with h1 | h1
            · exact absurd h1 he
            · left; omega
          · rw [hg1' k hkj]
            exact h k

theorem length_le_sum_of_pos {l : List Nat} (h : ∀ a ∈ l, 0 < a) : l.length ≤ l.sum := by
  induction l with
  | nil => simp
  | cons a l ih =>
    have h1 := h a (by simp)
    have h2 := ih (fun b hb => h b (by simp [hb]))
    rw [List.length_cons, List.sum_cons]
    omega

/-- All strict partitions inside `mu` are found. -/
theorem mem_removeLoop_col {mu : List Nat} (hmu : IsStrict mu) (i : Nat) (level : List (List Nat))
    (hlevel : ∀ nu, nu ∈ level ↔ IsStrict nu ∧ (∀ j, nu.getD j 0 ≤ mu.getD j 0) ∧
      ∀ j, nu.getD j 0 = mu.getD j 0 ∨ i ≤ j + nu.getD j 0)
    (nu : List Nat) : nu ∈ removeLoop shiftedRppRemoveColumnBox i level ↔
      0 < i ∧ IsStrict nu ∧ ∀ j, nu.getD j 0 ≤ mu.getD j 0 := by
  induction i generalizing level with
  | zero => simp [removeLoop]
  | succ i ih =>
    have hfuel : ∀ nu : List Nat, IsStrict nu → ∀ j ≥ nu.sum, 0 < nu.getD j 0 → j + nu.getD j 0 ≠ i + 1 := by
      intro nu hnu j hj h0
      have h1 : j < nu.length := (getD_pos_iff hnu.2 j).1 h0
      have h2 : nu.length ≤ nu.sum := by
        exact length_le_sum_of_pos hnu.2
      omega
    have hnew : ∀ nu, nu ∈ level.flatMap (fun nu => removeAllBoxes (shiftedRppRemoveColumnBox i) nu.sum nu) ↔
        IsStrict nu ∧ (∀ j, nu.getD j 0 ≤ mu.getD j 0) ∧ ∀ j, nu.getD j 0 = mu.getD j 0 ∨ i ≤ j + nu.getD j 0 := by
      intro nu
      rw [List.mem_flatMap]
      constructor
      · rintro ⟨nu1, h1, h2⟩
        obtain ⟨hA, hB, hC⟩ := (hlevel nu1).1 h1
        obtain ⟨h3, h4⟩ := (mem_removeAllBoxes_col _ hA _ le_rfl (hfuel nu1 hA) nu).1 h2
        refine ⟨h3, fun j => ?_, fun j => ?_⟩
        · have := hB j
          rcases h4 j with h | h <;> omega
        · have := hC j
          rcases h4 j with h | h <;> omega
      · rintro ⟨hA, hB, hC⟩
        obtain ⟨nu1, hs1, hg1⟩ := exists_shape_rows (sh := true)
          (fun j => if nu.getD j 0 < mu.getD j 0 ∧ j + nu.getD j 0 = i then nu.getD j 0 + 1 else nu.getD j 0) mu.length (by
            intro j hj
            have := hB j
            rw [List.getD_eq_default mu _ hj] at this ⊢
            rw [if_neg (by omega)]
            omega) (by
            intro j
            have b1 := hB j
            have b2 := hB (j + 1)
            have c1 := hC j
            have c2 := hC (j + 1)
            have e1 := IsStrict.next' hmu j
            have e2 := IsStrict.next' hA j
            simp only [if_true]
            split_ifs <;> omega)
        have hs1 : IsStrict nu1 := hs1
        refine ⟨nu1, (hlevel nu1).2 ⟨hs1, fun j => ?_, fun j => ?_⟩,
          (mem_removeAllBoxes_col _ hs1 _ le_rfl (hfuel nu1 hs1) nu).2 ⟨hA, fun j => ?_⟩⟩
        · rw [hg1]
          have := hB j
          split_ifs <;> omega
        · rw [hg1]
          have := hB j
          have := hC j
          split_ifs <;> omega
        · rw [hg1]
          split_ifs <;> omega
    rw [removeLoop]
    rw [List.mem_append, hnew, ih _ hnew]
    constructor
    · rintro (⟨h1, h2, _⟩ | ⟨_, h1, h2⟩)
      · exact ⟨by omega, h1, h2⟩
      · exact ⟨by omega, h1, h2⟩
    · rintro ⟨_, h1, h2⟩
      by_cases hi : 0 < i
      · exact Or.inr ⟨hi, h1, h2⟩
      · exact Or.inl ⟨h1, h2, fun j => Or.inr (by omega)⟩

/-- `_shifted_rpp_vertical_strips(mu)`: every strict partition inside `mu`, once. -/
theorem shiftedRppVerticalStrips_spec {mu : List Nat} (hm : IsStrict mu) :
    ∃ l, shiftedRppVerticalStrips mu = some l ∧ (∀ s, s ∈ l ↔ IsStrict s.1 ∧
      (∀ j, s.1.getD j 0 ≤ mu.getD j 0) ∧ s.2 = skew mu s.1 true) ∧ l.Nodup := by
  unfold shiftedRppVerticalStrips
  rw [if_pos ((isStrictPartition_iff mu).2 hm.1)]
  by_cases h1 : mu = []
  · subst h1
    rw [if_pos rfl]
    refine ⟨_, rfl, ?_, List.nodup_singleton _⟩
    rintro ⟨nu, d⟩
    rw [List.mem_singleton, Prod.mk.injEq]
    constructor
    · rintro ⟨rfl, rfl⟩
      exact ⟨hm, fun _ => le_rfl, rfl⟩
    · rintro ⟨h2, h3, h4⟩
      have : nu = [] := row_ext h2.2 (by simp) (fun j => le_antisymm (h3 j) (by simp))
      subst this
      exact ⟨rfl, h4⟩
  · rw [if_neg h1]
    have hhead : mu.headD 0 = mu.getD 0 0 := by cases mu <;> rfl
    have h0 : 0 < mu.getD 0 0 := (getD_pos_iff hm.2 0).2 (List.length_pos_iff.2 h1)
    have hstart : ∀ nu, nu ∈ [mu] ↔ IsStrict nu ∧ (∀ j, nu.getD j 0 ≤ mu.getD j 0) ∧
        ∀ j, nu.getD j 0 = mu.getD j 0 ∨ mu.headD 0 ≤ j + nu.getD j 0 := by
      intro nu
      rw [List.mem_singleton]
      constructor
      · rintro rfl
        exact ⟨hm, fun _ => le_rfl, fun _ => Or.inl rfl⟩
      · rintro ⟨g1, g2, g3⟩
        refine row_ext g1.2 hm.2 (fun j => ?_)
        rcases g3 j with h | h
        · exact h
        · have e1 := g2 j
          by_cases hj : 0 < mu.getD j 0
          · have := IsStrict.ends hm (Nat.zero_le j) hj
            omega
          · omega
    refine ⟨_, rfl, ?_, ?_⟩
    · rintro ⟨nu, d⟩
      simp only [List.mem_map, List.mem_dedup, Prod.mk.injEq]
      have hmem := mem_removeLoop_col hm (mu.headD 0) [mu] hstart
      constructor
      · rintro ⟨nu1, h3, rfl, rfl⟩
        obtain ⟨_, h4, h5⟩ := (hmem nu1).1 h3
        exact ⟨h4, h5, rfl⟩
      · rintro ⟨h3, h5, h6⟩
        exact ⟨nu, (hmem nu).2 ⟨by omega, h3, h5⟩, rfl, h6.symm⟩
    · refine (List.nodup_dedup _).map ?_
      intro x y h
      exact (Prod.mk.injEq _ _ _ _ ▸ h).1

end Verif.Tableaux
