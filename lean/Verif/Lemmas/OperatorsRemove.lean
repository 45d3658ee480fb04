import Verif.Lemmas.Operators
import Mathlib.Algebra.BigOperators.Group.Finset.Basic
import Mathlib.Algebra.BigOperators.Intervals
import Mathlib.Tactic.Ring

/-! The operators of operators.py that remove boxes. -/

attribute [-simp] List.getD_eq_getElem?_getD

namespace Verif.Operators

open Verif.Part Partition Dualops

section Parts

variable {mu nu : List Nat} {i row : Nat}

theorem decRow_lower (hm : IsStrict mu) (h1 : 1 ≤ row) (h2 : mu.getD (row - 1) 0 = i + 1) (hi : i ∉ mu) :
    decRow mu row = lower i mu := by
  have hst := (strict_iff.1 hm).2
  have hlen : row ≤ mu.length := by
    by_contra hc
    rw [List.getD_eq_default _ _ (by omega)] at h2
    omega
  have hget := getD_decRow mu h1 hlen
  have hge := pairwise_ge_iff.1 (isStrict_isPartition hm).1
  have hmem : i + 1 ∈ mu := (mem_iff hm.2).2 ⟨by omega, _, h2⟩
  -- the row below is shorter
  have hbelow : mu.getD row 0 < i ∨ (i = 0 ∧ mu.getD row 0 = 0) := by
    have h3 := hst (row - 1) (by omega)
    rw [Nat.sub_add_cancel h1] at h3
    by_cases h4 : mu.getD row 0 = i
    · by_cases h5 : i = 0
      · exact Or.inr ⟨h5, by omega⟩
      · exact absurd ((mem_iff hm.2).2 ⟨by omega, _, h4⟩) hi
    · left
      omega
  have hpos : ∀ a ∈ decRow mu row, 0 < a := by
    rw [decRow]
    refine trim_pos (pairwise_ge_iff.2 (fun k => ?_))
    have e1 := hget k
    have e2 := hget (k + 1)
    rw [decRow, getD_trim] at e1 e2
    rw [e1, e2]
    have := hge k
    by_cases h3 : k + 1 = row
    · rw [h3, if_pos rfl, if_neg (by omega)]
      rw [show k = row - 1 by omega]
      omega
    · rw [if_neg h3]
      omega
  have hstrict : IsStrict (decRow mu row) := by
    refine strict_iff.2 ⟨hpos, fun k hk => ?_⟩
    rw [hget] at hk ⊢
    rw [hget]
    have := hst k
    by_cases h3 : k + 1 = row
    · rw [if_pos h3] at hk ⊢
      rw [h3, if_neg (by omega)]
      rw [show k = row - 1 by omega] at hk ⊢
      omega
    · rw [if_neg h3] at hk ⊢
      have := this (by omega)
      omega
  refine strict_ext hstrict (lower_strict hm hi) (fun t => ?_)
  rw [mem_lower hmem, mem_iff hpos, mem_iff hm.2]
  constructor
  · rintro ⟨h0, k, hk⟩
    refine ⟨h0, ?_⟩
    rw [hget] at hk
    by_cases h3 : k + 1 = row
    · rw [if_pos h3, show k = row - 1 by omega, h2] at hk
      left
      omega
    · rw [if_neg h3] at hk
      refine Or.inr ⟨⟨h0, k, by omega⟩, fun ht => ?_⟩
      rcases lt_trichotomy k (row - 1) with h | h | h
      · have := strict_lt hm h (by omega)
        omega
      · omega
      · have := strict_lt hm h (by omega)
        omega
  · rintro ⟨h0, rfl | ⟨⟨_, k, hk⟩, ht⟩⟩
    · exact ⟨h0, row - 1, by rw [hget, if_pos (by omega), h2]; omega⟩
    · refine ⟨h0, k, ?_⟩
      rw [hget, if_neg, hk]
      · omega
      · intro h3
        rw [show k = row - 1 by omega] at hk
        omega

theorem cornerRow_parts (hm : IsStrict mu) (h1 : 1 ≤ row) (h2 : mu.getD (row - 1) 0 = i + 1) :
    CornerRow 1 mu row ↔ i ∉ mu := by
  rw [CornerRow, h2]
  have hst := (strict_iff.1 hm).2 (row - 1) (by omega)
  rw [Nat.sub_add_cancel h1, h2] at hst
  constructor
  · rintro ⟨_, h3⟩ hi
    obtain ⟨h0, k, hk⟩ := (mem_iff hm.2).1 hi
    have h4 : row ≤ k := by
      by_contra hc
      rcases Nat.lt_or_ge k (row - 1) with h | h
      · have := strict_lt hm h (by omega)
        omega
      · rw [show k = row - 1 by omega] at hk
        omega
    have h5 : mu.getD k 0 ≤ mu.getD row 0 := getD_antitone (isStrict_isPartition hm).1 h4
    split at h3 <;> omega
  · intro hi
    refine ⟨h1, ?_⟩
    split
    · omega
    · rename_i h0
      by_contra hc
      exact hi ((mem_iff hm.2).2 ⟨by omega, row, by omega⟩)

theorem removeShifted_parts (hm : IsStrict mu) (h1 : 1 ≤ row) (h2 : mu.getD (row - 1) 0 = i + 1) :
    removeShiftedInnerCorner mu row = if i ∈ mu then none else some (lower i mu) := by
  rw [removeShiftedInnerCorner_cornerRow mu row (isStrict_isPartition hm)]
  by_cases hi : i ∈ mu
  · rw [if_pos hi, if_neg]
    rw [cornerRow_parts hm h1 h2]
    exact fun h => h hi
  · rw [if_neg hi, if_pos ((cornerRow_parts hm h1 h2).2 hi), decRow_lower hm h1 h2 hi]

theorem remove_parts (hm : IsStrict mu) (h1 : 1 ≤ row) (h2 : mu.getD (row - 1) 0 = i + 1) (hi : i ∉ mu) :
    removeInnerCorner mu row = some (lower i mu) := by
  rw [removeInnerCorner_cornerRow mu row (isStrict_isPartition hm), decRow_lower hm h1 h2 hi, if_pos]
  have := (cornerRow_parts hm h1 h2).2 hi
  refine ⟨this.1, ?_⟩
  have := this.2
  split at this <;> split <;> omega

theorem inner_row (hm : IsStrict mu) (h : findShiftedInnerCorner mu i = some row) :
    1 ≤ row ∧ mu.getD (row - 1) 0 = i + 1 ∧ i + 1 ∈ mu ∧ i ∉ mu := by
  have hc := (findShiftedInnerCorner_spec hm i row).1 h
  obtain ⟨h1, h2⟩ := (corner_shiftedDiagram hm).1 hc
  refine ⟨h1.1, by omega, (inner_iff hm).1 ⟨row, h⟩⟩

/-- The row of the part that has been made smaller. -/
theorem getD_lower (hm : IsStrict mu) (h1 : 1 ≤ row) (h2 : mu.getD (row - 1) 0 = i + 1) (hi : i ∉ mu) :
    (lower i mu).getD (row - 1) 0 = i := by
  have hlen : row ≤ mu.length := by
    by_contra hc
    rw [List.getD_eq_default _ _ (by omega)] at h2
    omega
  rw [← decRow_lower hm h1 h2 hi, getD_decRow mu h1 hlen, if_pos (by omega), h2]
  rfl

/-! ### rows -/

/-- `mu` is `nu` with a horizontal strip on the diagonals `a, ..., b`. -/
def HStrip (a b : Nat) (nu mu : List Nat) : Prop := IsStrict nu ∧ HCond a b nu ∧ PartMove a b nu mu

theorem hStrip_self (hm : IsStrict mu) (h : i + 1 ∈ mu) : HStrip i i nu mu ↔ i ∉ mu ∧ nu = lower i mu := by
  constructor
  · rintro ⟨h1, h2, h3⟩
    obtain ⟨e1, e2⟩ := (adds_iff h1 hm).1 ⟨hm, h2.1, h2.2 _ (by omega) le_rfl, h3⟩
    exact ⟨e1.2, e2⟩
  · rintro ⟨h1, h2⟩
    have hl := lower_strict hm h1
    have ha := (adds_iff (h2 ▸ hl) hm).2 ⟨⟨h, h1⟩, h2⟩
    exact ⟨h2 ▸ hl, ⟨ha.part, fun t t1 t2 => by rw [show t = i + 1 by omega]; exact ha.free⟩, ha.parts⟩

theorem hStrip_lower (hm : IsStrict mu) (h1 : i + 2 ∈ mu) (h2 : i + 1 ∉ mu) {a : Nat} (ha : a ≤ i) :
    HStrip a i nu (lower (i + 1) mu) ↔ HStrip a (i + 1) nu mu := by
  have hl : ∀ t, t ∈ lower (i + 1) mu ↔ 0 < t ∧ (t = i + 1 ∨ (t ∈ mu ∧ t ≠ i + 1 + 1)) := fun t => mem_lower h1
  constructor
  · rintro ⟨h3, h4, h5⟩
    have hk : i + 2 ∉ nu := by
      intro hc
      have := (h5 (i + 2)).2 (Or.inr ⟨hc, by omega⟩)
      rw [hl] at this
      omega
    refine ⟨h3, ⟨h4.1, fun t t1 t2 => ?_⟩, fun t => ?_⟩
    · by_cases h6 : t = i + 2
      · rw [h6]
        exact hk
      · exact h4.2 t t1 (by omega)
    · have e := h5 t
      rw [hl] at e
      have e0 : t ∈ mu → 0 < t := hm.2 t
      have e1 : t ∈ nu → 0 < t := h3.2 t
      by_cases t1 : t = i + 2
      · rw [t1]
        simp [h1]
      · by_cases t2 : t = i + 1
        · have := h4.2 t (by omega) (by omega)
          rw [t2] at this ⊢
          constructor
          · intro h; exact absurd h h2
          · rintro (h | h)
            · omega
            · exact absurd h.1 this
        · have : t ≠ i + 1 + 1 := t1
          tauto
  · rintro ⟨h3, h4, h5⟩
    refine ⟨h3, ⟨h4.1, fun t t1 t2 => h4.2 t t1 (by omega)⟩, fun t => ?_⟩
    have e := h5 t
    rw [hl]
    have e0 : t ∈ mu → 0 < t := hm.2 t
    have e1 : t ∈ nu → 0 < t := h3.2 t
    by_cases t1 : t = i + 2
    · have := h4.2 t (by omega) (by omega)
      rw [t1] at this ⊢
      constructor
      · rintro ⟨_, h | h⟩
        · omega
        · omega
      · rintro (h | h)
        · omega
        · exact absurd h.1 this
    · by_cases t2 : t = i + 1
      · rw [t2]
        simp
      · have : t ≠ i + 1 + 1 := t1
        tauto

theorem hStrip_blocked (h1 : i + 1 ∈ mu) {a : Nat} (ha : a ≤ i + 1) : ¬ HStrip a (i + 1) nu mu := by
  rintro ⟨_, h4, h5⟩
  rcases (h5 (i + 1)).1 h1 with h | h
  · omega
  · exact h4.2 (i + 1) (by omega) (by omega) h.1

/-! ### columns -/

/-- `mu` is `nu` with a vertical strip on the diagonals `a, ..., b`. -/
def VStrip (a b : Nat) (nu mu : List Nat) : Prop := IsStrict nu ∧ VCond a b nu ∧ PartMove a b nu mu

theorem vStrip_self (hm : IsStrict mu) (h : i + 1 ∈ mu) : VStrip i i nu mu ↔ i ∉ mu ∧ nu = lower i mu := by
  rw [← hStrip_self hm h]
  refine and_congr_right (fun _ => and_congr_left (fun _ => ?_))
  rw [VCond, HCond]
  constructor
  · rintro ⟨h1, h2⟩
    exact ⟨h1 i le_rfl le_rfl, fun t t1 t2 => by rwa [show t = i + 1 by omega]⟩
  · rintro ⟨h1, h2⟩
    exact ⟨fun t t1 t2 => by rwa [show t = i by omega], h2 _ (by omega) le_rfl⟩

theorem vStrip_lower (hm : IsStrict mu) (h1 : i + 1 ∈ mu) (h2 : i ∉ mu) {b : Nat} (hb : i + 1 ≤ b) :
    VStrip (i + 1) b nu (lower i mu) ↔ VStrip i b nu mu := by
  have hl : ∀ t, t ∈ lower i mu ↔ 0 < t ∧ (t = i ∨ (t ∈ mu ∧ t ≠ i + 1)) := fun t => mem_lower h1
  constructor
  · rintro ⟨h3, h4, h5⟩
    have hi : i = 0 ∨ i ∈ nu := by
      by_cases h0 : i = 0
      · exact Or.inl h0
      · right
        rcases (h5 i).1 ((hl i).2 ⟨by omega, Or.inl rfl⟩) with h | h
        · omega
        · exact h.1
    have hi1 : i + 1 ∈ nu := (h4.1 (i + 1) le_rfl hb).resolve_left (by omega)
    refine ⟨h3, ⟨fun t t1 t2 => ?_, h4.2⟩, fun t => ?_⟩
    · by_cases h6 : t = i
      · rw [h6]
        exact hi
      · exact h4.1 t (by omega) t2
    · have e := h5 t
      rw [hl] at e
      have e0 : t ∈ mu → 0 < t := hm.2 t
      have e1 : t ∈ nu → 0 < t := h3.2 t
      by_cases t1 : t = i
      · rw [t1]
        constructor
        · intro h; exact absurd h h2
        · rintro (h | h)
          · omega
          · exact absurd rfl h.2
      · by_cases t2 : t = i + 1
        · rw [t2]
          simp [h1, hi1]
        · tauto
  · rintro ⟨h3, h4, h5⟩
    refine ⟨h3, ⟨fun t t1 t2 => h4.1 t (by omega) t2, h4.2⟩, fun t => ?_⟩
    have e := h5 t
    rw [hl]
    have e0 : t ∈ mu → 0 < t := hm.2 t
    have e1 : t ∈ nu → 0 < t := h3.2 t
    by_cases t1 : t = i
    · rw [t1]
      have := h4.1 i le_rfl (by omega)
      constructor
      · rintro ⟨h0, _⟩
        exact Or.inr ⟨this.resolve_left (by omega), by omega⟩
      · rintro (h | h)
        · omega
        · exact ⟨h3.2 _ h.1, Or.inl rfl⟩
    · by_cases t2 : t = i + 1
      · rw [t2]
        constructor
        · rintro ⟨_, h | h⟩
          · omega
          · omega
        · rintro (h | h)
          · omega
          · omega
      · tauto

theorem vStrip_corner {b : Nat} (hb : i ≤ b) (h : VStrip i b nu mu) : i + 1 ∈ mu ∧ i ∉ mu := by
  obtain ⟨h3, h4, h5⟩ := h
  constructor
  · rw [h5]
    by_cases h0 : i = b
    · left
      omega
    · exact Or.inr ⟨(h4.1 (i + 1) (by omega) (by omega)).resolve_left (by omega), by omega⟩
  · rw [h5]
    rintro (h | h)
    · omega
    · exact h.2 rfl

end Parts

theorem sum_set_pred {l : List Nat} {n : Nat} (hn : n < l.length) (h : 0 < l.getD n 0) :
    (l.set n (l.getD n 0 - 1)).sum + 1 = l.sum := by
  induction l generalizing n with
  | nil => exact absurd hn (by simp)
  | cons a l ih =>
    cases n with
    | zero =>
      rw [List.getD_cons_zero] at h ⊢
      rw [List.set_cons_zero, List.sum_cons, List.sum_cons]
      omega
    | succ n =>
      rw [List.getD_cons_succ] at h ⊢
      rw [List.set_cons_succ, List.sum_cons, List.sum_cons]
      have := ih (by simpa using hn) h
      omega

theorem hStrip_unique {a a' b : Nat} {nu mu : List Nat} (ha : a ≤ b) (ha' : a' ≤ b) (h : HStrip a b nu mu)
    (h' : HStrip a' b nu mu) : a = a' := by
  rcases lt_trichotomy a a' with hc | hc | hc
  · exact absurd (h'.2.1.1.resolve_left (by omega)) (h.2.1.2 a' hc (by omega))
  · exact hc
  · exact absurd (h.2.1.1.resolve_left (by omega)) (h'.2.1.2 a hc (by omega))

theorem vStrip_unique {a b b' : Nat} {nu mu : List Nat} (hb : a ≤ b) (hb' : a ≤ b') (h : VStrip a b nu mu)
    (h' : VStrip a b' nu mu) : b = b' := by
  rcases lt_trichotomy b b' with hc | hc | hc
  · exact absurd ((h'.2.1.1 (b + 1) (by omega) (by omega)).resolve_left (by omega)) h.2.1.2
  · exact hc
  · exact absurd ((h.2.1.1 (b' + 1) (by omega) (by omega)).resolve_left (by omega)) h'.2.1.2

theorem hStrip_iff {a b : Nat} (hab : a ≤ b) {nu mu : List Nat} (hn : IsStrict nu) (hm : IsStrict mu) :
    HStrip a b nu mu ↔ AddsRow a b nu mu := by
  rw [← rowMove_iff hab]
  constructor
  · rintro ⟨_, h2⟩
    exact (horizontalOp_some hn hab ((horizontalOp_iff hn hab).2 ⟨hm, h2⟩)).2
  · intro h
    exact ⟨hn, h.parts hn hm⟩

theorem vStrip_iff {a b : Nat} (hab : a ≤ b) {nu mu : List Nat} (hn : IsStrict nu) (hm : IsStrict mu) :
    VStrip a b nu mu ↔ AddsColumn a b nu mu := by
  rw [← colMove_iff hab]
  constructor
  · rintro ⟨_, h2⟩
    exact (verticalOp_some hn hab ((verticalOp_iff hn hab).2 ⟨hm, h2⟩)).2
  · intro h
    exact ⟨hn, h.parts hn hm hab⟩

/-- A strip has at most as many boxes as the shape. -/
theorem vStrip_bound {a s : Nat} {nu mu : List Nat} (h : VStrip a (a + s) nu mu) : s ≤ mu.sum := by
  have h1 : a + s + 1 ∈ mu := (h.2.2 _).2 (Or.inl rfl)
  have := List.single_le_sum (fun _ _ => Nat.zero_le _) _ h1
  omega

section Loops

variable {R : Type*} [CommRing R] [DecidableEq R]

open scoped Classical in
theorem rowRemoveLoop_spec (beta : R) {row : Nat} (h1 : 1 ≤ row) (k : Nat) : ∀ (mu : List Nat) (e : Nat) (ans : Res R),
    IsStrict mu → mu.getD (row - 1) 0 = k → ∀ nu, coef (rowRemoveLoop beta row k mu e ans) nu = coef ans nu +
      ∑ a ∈ Finset.range k, if HStrip a (k - 1) nu mu then (-beta) ^ (e + (k - 1 - a)) else 0 := by
  induction k with
  | zero =>
    intro mu e ans _ _ nu
    rw [rowRemoveLoop, Finset.sum_range_zero, add_zero]
  | succ k ih =>
    intro mu e ans hm h2 nu
    have hmem : k + 1 ∈ mu := (mem_iff hm.2).2 ⟨by omega, _, h2⟩
    rw [rowRemoveLoop, removeShifted_parts hm h1 h2]
    by_cases hk : k ∈ mu
    · rw [if_pos hk]
      change coef ans nu = _
      rw [Finset.sum_eq_zero, add_zero]
      intro a ha
      rw [Finset.mem_range] at ha
      rw [if_neg]
      obtain ⟨j, rfl⟩ : ∃ j, k = j + 1 := ⟨k - 1, by have := hm.2 k hk; omega⟩
      rw [Nat.add_sub_cancel]
      exact hStrip_blocked hk (by omega)
    · rw [if_neg hk]
      change coef (rowRemoveLoop beta row k (lower k mu) (e + 1) _) nu = _
      rw [ih _ _ _ (lower_strict hm hk) (getD_lower hm h1 h2 hk), Finset.sum_range_succ, Nat.add_sub_cancel]
      have e1 : coef (some (plus ans (single (lower k mu) ((-beta) ^ e)))) nu = coef ans nu +
          if HStrip k k nu mu then (-beta) ^ (e + (k - k)) else 0 := by
        change (plus ans _).get nu = _
        rw [coef_plus, get_single, Nat.sub_self, Nat.add_zero]
        congr 1
        by_cases h3 : lower k mu = nu
        · rw [if_pos h3, if_pos ((hStrip_self hm hmem).2 ⟨hk, h3.symm⟩)]
        · rw [if_neg h3, if_neg (fun h => h3 ((hStrip_self hm hmem).1 h).2.symm)]
      rw [e1]
      have e2 : ∑ a ∈ Finset.range k, (if HStrip a (k - 1) nu (lower k mu) then (-beta) ^ (e + 1 + (k - 1 - a)) else 0) =
          ∑ a ∈ Finset.range k, if HStrip a k nu mu then (-beta) ^ (e + (k - a)) else 0 := by
        refine Finset.sum_congr rfl (fun a ha => ?_)
        rw [Finset.mem_range] at ha
        obtain ⟨j, rfl⟩ : ∃ j, k = j + 1 := ⟨k - 1, by omega⟩
        rw [Nat.add_sub_cancel, show e + 1 + (j - a) = e + (j + 1 - a) by omega]
        exact if_congr (hStrip_lower hm hmem hk (by omega)) rfl rfl
      rw [e2]
      abel

open scoped Classical in
theorem rowRemoveStep_spec (beta : R) (index : Int) (ans : Res R) {p : List Nat × R} (hp : IsStrict p.1) :
    ∃ r, rowRemoveStep beta index ans p = some r ∧ ∀ nu, coef r nu = coef ans nu +
      ∑ a ∈ Finset.range (index.natAbs + 1), if HStrip a index.natAbs nu p.1 then (-beta) ^ (index.natAbs - a) else 0 := by
  rw [rowRemoveStep]
  obtain ⟨i, hi⟩ : ∃ i, index.natAbs = i := ⟨_, rfl⟩
  rw [hi]
  cases h : findShiftedInnerCorner p.1 i with
  | none =>
    refine ⟨_, rfl, fun nu => ?_⟩
    rw [Finset.sum_eq_zero, add_zero]
    intro a ha
    rw [Finset.mem_range] at ha
    rw [if_neg]
    rintro hs
    obtain ⟨h1, h2, h3⟩ := hs
    have hno : ¬ (i + 1 ∈ p.1 ∧ i ∉ p.1) := by
      rw [← inner_iff hp]
      simp [h]
    apply hno
    refine ⟨(h3 _).2 (Or.inl rfl), fun hc => ?_⟩
    rcases (h3 _).1 hc with h4 | h4
    · omega
    · exact h2.2 i (by omega) (by omega) h4.1
  | some row =>
    obtain ⟨h1, h2, h3, h4⟩ := inner_row hp h
    refine ⟨_, rfl, fun nu => ?_⟩
    rw [rowRemoveLoop_spec beta h1 (i + 1) p.1 0 ans hp h2, Nat.add_sub_cancel]
    simp only [Nat.zero_add]

open scoped Classical in
theorem columnRemoveLoop_spec (beta : R) (fuel : Nat) : ∀ (i : Nat) (mu : List Nat) (e : Nat) (ans : Res R),
    IsStrict mu → mu.sum < fuel → ∃ r, columnRemoveLoop beta fuel i mu (findShiftedInnerCorner mu i) e ans = some r ∧
      ∀ nu, coef r nu = coef ans nu + ∑ s ∈ Finset.range fuel, if VStrip i (i + s) nu mu then (-beta) ^ (e + s) else 0 := by
  induction fuel with
  | zero =>
    intro i mu e ans _ h
    omega
  | succ fuel ih =>
    intro i mu e ans hm hf
    cases h : findShiftedInnerCorner mu i with
    | none =>
      refine ⟨ans, rfl, fun nu => ?_⟩
      rw [Finset.sum_eq_zero, add_zero]
      intro s _
      rw [if_neg]
      intro hs
      obtain ⟨r, hr⟩ := (inner_iff hm).2 (vStrip_corner (by omega) hs)
      rw [h] at hr
      exact absurd hr (by simp)
    | some row =>
      obtain ⟨h1, h2, h3, h4⟩ := inner_row hm h
      have hl := lower_strict hm h4
      have hsum : (lower i mu).sum + 1 = mu.sum := by
        have hlen : row - 1 < mu.length := by
          by_contra hc
          rw [List.getD_eq_default _ _ (by omega)] at h2
          omega
        rw [← decRow_lower hm h1 h2 h4, decRow, sum_trim]
        exact sum_set_pred hlen (by omega)
      obtain ⟨r, e1, e2⟩ := ih (i + 1) (lower i mu) (e + 1) (some (plus ans (single (lower i mu) ((-beta) ^ e)))) hl
        (by omega)
      refine ⟨r, ?_, fun nu => ?_⟩
      · rw [columnRemoveLoop]
        rw [remove_parts hm h1 h2 h4]
        exact e1
      · rw [e2, Finset.sum_range_succ']
        have e3 : coef (some (plus ans (single (lower i mu) ((-beta) ^ e)))) nu = coef ans nu +
            if VStrip i i nu mu then (-beta) ^ e else 0 := by
          change (plus ans _).get nu = _
          rw [coef_plus, get_single]
          congr 1
          by_cases h3' : lower i mu = nu
          · rw [if_pos h3', if_pos ((vStrip_self hm h3).2 ⟨h4, h3'.symm⟩)]
          · rw [if_neg h3', if_neg (fun h => h3' ((vStrip_self hm h3).1 h).2.symm)]
        rw [e3]
        have e4 : ∑ s ∈ Finset.range fuel, (if VStrip (i + 1) (i + 1 + s) nu (lower i mu) then (-beta) ^ (e + 1 + s) else 0) =
            ∑ s ∈ Finset.range fuel, if VStrip i (i + (s + 1)) nu mu then (-beta) ^ (e + (s + 1)) else 0 := by
          refine Finset.sum_congr rfl (fun s _ => ?_)
          rw [show i + 1 + s = i + (s + 1) by omega, show e + 1 + s = e + (s + 1) by omega]
          exact if_congr (vStrip_lower hm h3 h4 (by omega)) rfl rfl
        rw [e4, add_assoc, add_comm (ite _ _ _)]
        simp only [Nat.add_zero]

open scoped Classical in
theorem columnRemoveStep_spec (beta : R) (index : Int) (ans : Res R) {p : List Nat × R} (hp : IsStrict p.1) :
    ∃ r, columnRemoveStep beta index ans p = some r ∧ ∀ nu, coef r nu = coef ans nu +
      ∑ s ∈ Finset.range (p.1.sum + 1), if VStrip index.natAbs (index.natAbs + s) nu p.1 then (-beta) ^ s else 0 := by
  obtain ⟨r, h1, h2⟩ := columnRemoveLoop_spec beta (p.1.sum + 1) index.natAbs p.1 0 ans hp (by omega)
  refine ⟨r, h1, fun nu => ?_⟩
  rw [h2]
  simp only [Nat.zero_add]

theorem items_single [Nontrivial R] (mu : List Nat) : (single mu (1 : R)).dict.items = [(mu, 1)] := by
  change ([(mu, (1 : R))].filter (fun p => decide (p.2 ≠ 0))) = _
  simp

/-- The operator adds up the values of `g` for the keys. -/
def KeySum (op : Arg R → Option (Res R)) (g : List Nat → List Nat → R) : Prop :=
  (∀ v, StrictKeys v → ∃ r, op (.res (some v)) = some r ∧ ∀ nu, coef r nu = (v.dict.keys.map (fun mu => g mu nu)).sum) ∧
    ∀ mu, IsStrict mu → ∃ r, op (.tup mu) = some r ∧ ∀ nu, coef r nu = g mu nu

/-- A loop over the items that looks at the keys only. -/
theorem keys_sum [Nontrivial R] {step : Res R → List Nat × R → Option (Res R)} {g : List Nat → List Nat → R}
    (hstep : ∀ ans p, IsStrict p.1 → ∃ r, step ans p = some r ∧ ∀ nu, coef r nu = coef ans nu + g p.1 nu)
    {op : Arg R → Option (Res R)} (hop : op = decorate (fun v => v.dict.items.foldlM step none)) :
    KeySum op g := by
  subst hop
  constructor
  · intro v hv
    obtain ⟨r, h1, h2⟩ := foldlM_sum (step := step) (g := fun p => g p.1) v.dict.items
      (fun ans p hp => hstep ans p (hv _ (Dict.mem_keys_of_items hp))) none
    refine ⟨r, h1, fun nu => ?_⟩
    rw [h2, coef, zero_add, Dict.keys, List.map_map]
    rfl
  · intro mu hm
    obtain ⟨r, h1, h2⟩ := hstep none (mu, 1) hm
    refine ⟨r, ?_, fun nu => ?_⟩
    · change (single mu (1 : R)).dict.items.foldlM step none = some r
      rw [items_single, List.foldlM_cons, h1]
      rfl
    · rw [h2, coef, zero_add]

end Loops

end Verif.Operators
