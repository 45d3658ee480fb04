import Verif.Lemmas.MrppStrips
import Verif.Lemmas.Vertex
import Mathlib.Data.Finset.Sort

/-! Strict partitions as sets of parts: the columns and rows of a shifted skew shape, in terms of the vertex model. -/

attribute [-simp] List.getD_eq_getElem?_getD

namespace Verif.Tableaux

open Tab Verif.Part Partition Verif.Vertex Finset

/-- The number of elements greater than `p`. -/
def cn (s : Finset ℕ) (p : ℕ) : ℕ := (s.filter (p < ·)).card

theorem cn_succ (s : Finset ℕ) (p : ℕ) : cn s p = cn s (p + 1) + (decide (p + 1 ∈ s)).toNat := by
  unfold cn
  by_cases h : p + 1 ∈ s
  · have : s.filter (p < ·) = insert (p + 1) (s.filter (p + 1 < ·)) := by
      ext a
      simp only [mem_filter, mem_insert]
      constructor
      · rintro ⟨h1, h2⟩
        by_cases h3 : a = p + 1
        · exact Or.inl h3
        · exact Or.inr ⟨h1, by omega⟩
      · rintro (rfl | h1)
        · exact ⟨h, by omega⟩
        · exact ⟨h1.1, by omega⟩
    rw [this, card_insert_of_notMem (by simp)]
    simp [h]
  · have : s.filter (p < ·) = s.filter (p + 1 < ·) := by
      refine filter_congr (fun a ha => ?_)
      have : a ≠ p + 1 := fun e => h (e ▸ ha)
      omega
    rw [this]
    simp [h]

theorem cn_large {s : Finset ℕ} {N : ℕ} (h : s ⊆ Icc 1 N) {p : ℕ} (hp : N ≤ p) : cn s p = 0 := by
  rw [cn, card_eq_zero, filter_eq_empty_iff]
  intro a ha
  have := mem_Icc.1 (h ha)
  omega

theorem cn_anti (s : Finset ℕ) {p q : ℕ} (h : p ≤ q) : cn s q ≤ cn s p := by
  refine card_le_card (fun a ha => ?_)
  rw [mem_filter] at ha ⊢
  exact ⟨ha.1, by omega⟩

section Field
variable {K : Type*} [Field K]

theorem lineVal_C (x : K) (s t : Finset ℕ) (f : ℕ → K) (p : ℕ) (h : ∀ q ≥ p, cn t q ≤ cn s q) :
    lineVal (wC x) s t f p (cn s p - cn t p) = if ∀ q < p, cn t q ≤ cn s q then
      x ^ ((Icc 1 p).filter (fun q => q ∉ s ∧ cn t q < cn s q)).card * f (cn s 0 - cn t 0) else 0 := by
  induction p with
  | zero => simp [lineVal]
  | succ p ih =>
    have hp := h (p + 1) le_rfl
    have es := cn_succ s p
    have et := cn_succ t p
    rw [lineVal]
    by_cases hle : cn t p ≤ cn s p
    · rw [if_pos (by omega)]
      have e : cn s (p + 1) - cn t (p + 1) + (decide (p + 1 ∈ s)).toNat - (decide (p + 1 ∈ t)).toNat = cn s p - cn t p := by
        omega
      rw [e, ih (fun q hq => by
        by_cases hqp : q = p
        · rw [hqp]; exact hle
        · exact h q (by omega))]
      have hiff : (∀ q < p + 1, cn t q ≤ cn s q) ↔ ∀ q < p, cn t q ≤ cn s q := by
        constructor
        · intro h' q hq; exact h' q (by omega)
        · intro h' q hq
          by_cases hqp : q = p
          · rw [hqp]; exact hle
          · exact h' q (by omega)
      simp only [hiff]
      split_ifs with h1
      · rw [← mul_assoc]
        congr 1
        have hI : Icc 1 (p + 1) = insert (p + 1) (Icc 1 p) := by
          ext a; simp only [mem_Icc, mem_insert]; omega
        rw [hI, filter_insert, wC]
        by_cases h2 : p + 1 ∉ s ∧ cn t (p + 1) < cn s (p + 1)
        · rw [if_pos ⟨by simp [h2.1], by omega⟩, if_pos h2, card_insert_of_notMem (by simp), pow_succ']
        · rw [if_neg (fun h3 => h2 ⟨by simpa using h3.1, by omega⟩), if_neg h2, one_mul]
      · rw [mul_zero]
    · rw [if_neg (by omega), if_neg (fun h' => hle (h' p (by omega)))]

theorem lineVal_R (x : K) (s t : Finset ℕ) (f : ℕ → K) (p : ℕ) (h : ∀ q ≥ p, cn t q ≤ cn s q) :
    lineVal (wR x) s t f p (cn s p - cn t p) = if ∀ q < p, cn t q ≤ cn s q then
      x ^ ((Icc 1 p).filter (fun q => q ∈ t ∧ cn t q < cn s q)).card * f (cn s 0 - cn t 0) else 0 := by
  induction p with
  | zero => simp [lineVal]
  | succ p ih =>
    have hp := h (p + 1) le_rfl
    have es := cn_succ s p
    have et := cn_succ t p
    rw [lineVal]
    by_cases hle : cn t p ≤ cn s p
    · rw [if_pos (by omega)]
      have e : cn s (p + 1) - cn t (p + 1) + (decide (p + 1 ∈ s)).toNat - (decide (p + 1 ∈ t)).toNat = cn s p - cn t p := by
        omega
      rw [e, ih (fun q hq => by
        by_cases hqp : q = p
        · rw [hqp]; exact hle
        · exact h q (by omega))]
      have hiff : (∀ q < p + 1, cn t q ≤ cn s q) ↔ ∀ q < p, cn t q ≤ cn s q := by
        constructor
        · intro h' q hq; exact h' q (by omega)
        · intro h' q hq
          by_cases hqp : q = p
          · rw [hqp]; exact hle
          · exact h' q (by omega)
      simp only [hiff]
      split_ifs with h1
      · rw [← mul_assoc]
        congr 1
        have hI : Icc 1 (p + 1) = insert (p + 1) (Icc 1 p) := by
          ext a; simp only [mem_Icc, mem_insert]; omega
        rw [hI, filter_insert, wR]
        by_cases h2 : p + 1 ∈ t ∧ cn t (p + 1) < cn s (p + 1)
        · rw [if_pos ⟨by simp [h2.1], by omega⟩, if_pos h2, card_insert_of_notMem (by simp), pow_succ']
        · rw [if_neg (fun h3 => h2 ⟨by simpa using h3.1, by omega⟩), if_neg h2, one_mul]
      · rw [mul_zero]
    · rw [if_neg (by omega), if_neg (fun h' => hle (h' p (by omega)))]

end Field

/-! ### strict partitions -/

theorem cn_parts {mu : List Nat} (hm : mu.Pairwise (· > ·)) (d k : ℕ) : d < mu.getD k 0 ↔ k < cn mu.toFinset d := by
  induction mu generalizing k with
  | nil => simp [cn]
  | cons a l ih =>
    obtain ⟨h1, h2⟩ := List.pairwise_cons.1 hm
    have hmem : a ∉ l.toFinset := fun h => absurd (h1 a (List.mem_toFinset.1 h)) (by omega)
    rw [List.toFinset_cons]
    by_cases had : d < a
    · have e : cn (insert a l.toFinset) d = cn l.toFinset d + 1 := by
        rw [cn, filter_insert, if_pos had, card_insert_of_notMem (fun h => hmem (mem_filter.1 h).1), cn]
      rw [e]
      cases k with
      | zero => rw [List.getD_cons_zero]; omega
      | succ k =>
        rw [List.getD_cons_succ, ih h2]
        omega
    · have e : cn (insert a l.toFinset) d = 0 := by
        rw [cn, card_eq_zero, filter_eq_empty_iff]
        intro b hb
        rcases mem_insert.1 hb with rfl | hb
        · exact had
        · have := h1 b (List.mem_toFinset.1 hb)
          omega
      rw [e]
      cases k with
      | zero => rw [List.getD_cons_zero]; omega
      | succ k =>
        rw [List.getD_cons_succ]
        by_cases hk : k < l.length
        · rw [List.getD_eq_getElem _ _ hk]
          have := h1 _ (List.getElem_mem hk)
          omega
        · rw [List.getD_eq_default _ _ (by omega)]
          omega

theorem le_iff_cn {mu nu : List Nat} (hm : IsStrict mu) (hn : IsStrict nu) :
    (∀ j, nu.getD j 0 ≤ mu.getD j 0) ↔ ∀ d, cn nu.toFinset d ≤ cn mu.toFinset d := by
  constructor
  · intro h d
    by_contra hc
    have h1 := (cn_parts hn.1 d (cn mu.toFinset d)).2 (by omega)
    have h2 := (cn_parts hm.1 d (cn mu.toFinset d)).1 (lt_of_lt_of_le h1 (h _))
    omega
  · intro h j
    by_contra hc
    have h1 := (cn_parts hn.1 (mu.getD j 0) j).1 (by omega)
    have h2 := (cn_parts hm.1 (mu.getD j 0) j).2 (lt_of_lt_of_le h1 (h _))
    omega

theorem mem_shape_cn {mu : List Nat} (hm : IsStrict mu) {i d : ℕ} :
    (i, i + d) ∈ shapeSet true mu ↔ 1 ≤ i ∧ i ≤ cn mu.toFinset d := by
  rw [mem_shapeSet]
  simp only [off, if_true]
  have := cn_parts hm.1 d (i - 1)
  omega

theorem mem_shape_diag {mu : List Nat} {i j : ℕ} (h : (i, j) ∈ shapeSet true mu) : 1 ≤ i ∧ i ≤ j := by
  rw [mem_shapeSet] at h
  simp only [off, if_true] at h
  omega

theorem cn_lt_add {s : Finset ℕ} {p q : ℕ} (hpq : p < q) (hq : q ∉ s) : cn s p + p < cn s q + q := by
  obtain ⟨r, rfl⟩ : ∃ r, q = p + r + 1 := ⟨q - p - 1, by omega⟩
  have h1 : ∀ r, cn s p ≤ cn s (p + r) + r := by
    intro r
    induction r with
    | zero => simp
    | succ r ih =>
      have := cn_succ s (p + r)
      have := Bool.toNat_le (decide (p + r + 1 ∈ s))
      rw [show p + (r + 1) = p + r + 1 by ring]
      omega
  have h2 := cn_succ s (p + r)
  simp only [hq, decide_false, Bool.toNat_false] at h2
  have := h1 r
  omega

variable {mu nu : List Nat} {N : ℕ}

/-- The number of columns of `mu/nu`. -/
theorem card_cols (hm : IsStrict mu) (hn : IsStrict nu) (hle : ∀ j, nu.getD j 0 ≤ mu.getD j 0) (hN : mu.toFinset ⊆ Icc 1 N)
    {D : Finset (ℕ × ℕ)} (hD : ∀ b, b ∈ D ↔ b ∈ shapeSet true mu ∧ b ∉ shapeSet true nu) :
    (D.image Prod.snd).card = ((Icc 1 N).filter (fun q => q ∉ mu.toFinset ∧ cn nu.toFinset q < cn mu.toFinset q)).card +
      (cn mu.toFinset 0 - cn nu.toFinset 0) := by
  have hc := (le_iff_cn hm hn).1 hle
  obtain ⟨s, hs⟩ : ∃ s, mu.toFinset = s := ⟨_, rfl⟩
  obtain ⟨t, ht⟩ : ∃ t, nu.toFinset = t := ⟨_, rfl⟩
  have hmem : ∀ i d, (i, i + d) ∈ D ↔ 1 ≤ i ∧ cn t d < i ∧ i ≤ cn s d := by
    intro i d
    rw [hD, mem_shape_cn hm, mem_shape_cn hn, hs, ht]
    omega
  have hdiag : ∀ i j, (i, j) ∈ D → i ≤ j := fun i j h => (mem_shape_diag ((hD _).1 h).1).2
  rw [hs, ht] at hc ⊢
  rw [hs] at hN
  have hQ : ∀ q, q ∈ (Icc 1 N).filter (fun q => q ∉ s ∧ cn t q < cn s q) ↔ 1 ≤ q ∧ q ∉ s ∧ cn t q < cn s q := by
    intro q
    rw [mem_filter, mem_Icc]
    constructor
    · rintro ⟨h1, h2, h3⟩; exact ⟨h1.1, h2, h3⟩
    · rintro ⟨h1, h2, h3⟩
      refine ⟨⟨h1, ?_⟩, h2, h3⟩
      by_contra hq
      have := cn_large hN (p := q) (by omega)
      omega
  have e1 : ((Icc 1 N).filter (fun q => q ∉ s ∧ cn t q < cn s q)).card =
      (((Icc 1 N).filter (fun q => q ∉ s ∧ cn t q < cn s q)).image (fun q => cn s q + q)).card := by
    rw [card_image_of_injOn]
    intro a ha b hb hab
    have ha := (hQ a).1 ha
    have hb := (hQ b).1 hb
    rcases Nat.lt_trichotomy a b with h | h | h
    · have := cn_lt_add h hb.2.1
      simp only at hab; omega
    · exact h
    · have := cn_lt_add h ha.2.1
      simp only at hab; omega
  have e2 : cn s 0 - cn t 0 = (Ioc (cn t 0) (cn s 0)).card := (Nat.card_Ioc _ _).symm
  rw [e1, e2, ← card_union_of_disjoint]
  · congr 1
    ext j
    rw [mem_union, mem_image, mem_image, mem_Ioc]
    constructor
    · rintro ⟨⟨i0, j0⟩, hb, rfl⟩
      simp only
      -- the lowest box of the column
      obtain ⟨i, hi, hmax⟩ : ∃ i, (i, j0) ∈ D ∧ ∀ i', (i', j0) ∈ D → i' ≤ i := by
        have hne : (D.filter (fun b => b.2 = j0)).Nonempty := ⟨(i0, j0), mem_filter.2 ⟨hb, rfl⟩⟩
        obtain ⟨⟨i, j'⟩, h1, h2⟩ := exists_max_image _ Prod.fst hne
        obtain ⟨h1', h3⟩ := mem_filter.1 h1
        simp only at h3
        subst h3
        exact ⟨i, h1', fun i' h' => h2 (i', j') (mem_filter.2 ⟨h', rfl⟩)⟩
      have hij := hdiag _ _ hi
      obtain ⟨q, rfl⟩ : ∃ q, j0 = i + q := ⟨j0 - i, by omega⟩
      have h1 := (hmem i q).1 hi
      by_cases hq : q = 0
      · subst hq
        right; simpa using h1.2
      · left
        obtain ⟨p, rfl⟩ : ∃ p, q = p + 1 := ⟨q - 1, by omega⟩
        have h2 : ¬ (1 ≤ i + 1 ∧ cn t p < i + 1 ∧ i + 1 ≤ cn s p) := by
          rw [← hmem]
          intro h
          rw [show i + 1 + p = i + (p + 1) by ring] at h
          have := hmax _ h
          omega
        have es := cn_succ s p
        have et := cn_succ t p
        have := Bool.toNat_le (decide (p + 1 ∈ t))
        refine ⟨p + 1, (hQ _).2 ⟨by omega, ?_, by omega⟩, ?_⟩
        · intro h3
          simp only [h3, decide_true, Bool.toNat_true] at es
          omega
        · have : cn s (p + 1) = i := by omega
          simp only [this]
    · rintro (⟨q, hq, rfl⟩ | h)
      · have hq := (hQ q).1 hq
        exact ⟨(cn s q, cn s q + q), (hmem _ _).2 ⟨by omega, hq.2.2, le_rfl⟩, rfl⟩
      · exact ⟨(j, j), by simpa using (hmem j 0).2 ⟨by omega, h⟩, rfl⟩
  · rw [disjoint_left]
    intro j h1 h2
    obtain ⟨q, hq, rfl⟩ := mem_image.1 h1
    have hq := (hQ q).1 hq
    have := cn_lt_add (s := s) (p := 0) (q := q) (by omega) hq.2.1
    rw [mem_Ioc] at h2
    omega

/-- The number of rows of `mu/nu`. -/
theorem card_rows (hm : IsStrict mu) (hn : IsStrict nu) (hle : ∀ j, nu.getD j 0 ≤ mu.getD j 0) (hN : mu.toFinset ⊆ Icc 1 N)
    {D : Finset (ℕ × ℕ)} (hD : ∀ b, b ∈ D ↔ b ∈ shapeSet true mu ∧ b ∉ shapeSet true nu) :
    (D.image Prod.fst).card = ((Icc 1 N).filter (fun q => q ∈ nu.toFinset ∧ cn nu.toFinset q < cn mu.toFinset q)).card +
      (cn mu.toFinset 0 - cn nu.toFinset 0) := by
  have hc := (le_iff_cn hm hn).1 hle
  obtain ⟨s, hs⟩ : ∃ s, mu.toFinset = s := ⟨_, rfl⟩
  obtain ⟨t, ht⟩ : ∃ t, nu.toFinset = t := ⟨_, rfl⟩
  have hmem : ∀ i d, (i, i + d) ∈ D ↔ 1 ≤ i ∧ cn t d < i ∧ i ≤ cn s d := by
    intro i d
    rw [hD, mem_shape_cn hm, mem_shape_cn hn, hs, ht]
    omega
  have hdiag : ∀ i j, (i, j) ∈ D → i ≤ j := fun i j h => (mem_shape_diag ((hD _).1 h).1).2
  rw [hs, ht] at hc ⊢
  rw [hs] at hN
  have hQ : ∀ q, q ∈ (Icc 1 N).filter (fun q => q ∈ t ∧ cn t q < cn s q) ↔ 1 ≤ q ∧ q ∈ t ∧ cn t q < cn s q := by
    intro q
    rw [mem_filter, mem_Icc]
    constructor
    · rintro ⟨h1, h2, h3⟩; exact ⟨h1.1, h2, h3⟩
    · rintro ⟨h1, h2, h3⟩
      refine ⟨⟨h1, ?_⟩, h2, h3⟩
      by_contra hq
      have := cn_large hN (p := q) (by omega)
      omega
  have hstep : ∀ a b, a < b → b ∈ t → 1 ≤ b → cn t b < cn t a := by
    intro a b hab hb _
    have h1 := cn_succ t (b - 1)
    rw [show b - 1 + 1 = b by omega] at h1
    simp only [hb, decide_true, Bool.toNat_true] at h1
    have := cn_anti t (p := a) (q := b - 1) (by omega)
    omega
  have e1 : ((Icc 1 N).filter (fun q => q ∈ t ∧ cn t q < cn s q)).card =
      (((Icc 1 N).filter (fun q => q ∈ t ∧ cn t q < cn s q)).image (fun q => cn t q + 1)).card := by
    rw [card_image_of_injOn]
    intro a ha b hb hab
    have ha := (hQ a).1 ha
    have hb := (hQ b).1 hb
    simp only at hab
    rcases Nat.lt_trichotomy a b with h | h | h
    · have := hstep _ _ h hb.2.1 hb.1; omega
    · exact h
    · have := hstep _ _ h ha.2.1 ha.1; omega
  have e2 : cn s 0 - cn t 0 = (Ioc (cn t 0) (cn s 0)).card := (Nat.card_Ioc _ _).symm
  rw [e1, e2, ← card_union_of_disjoint]
  · congr 1
    ext i
    rw [mem_union, mem_image, mem_image, mem_Ioc]
    constructor
    · rintro ⟨⟨i0, j0⟩, hb, rfl⟩
      simp only
      have hij := hdiag _ _ hb
      obtain ⟨d0, rfl⟩ : ∃ d, j0 = i0 + d := ⟨j0 - i0, by omega⟩
      have h0 := (hmem i0 d0).1 hb
      -- the leftmost box of the row
      classical
      have hex : ∃ d, cn t d < i0 := ⟨d0, h0.2.1⟩
      obtain ⟨d, hd, hmin⟩ : ∃ d, cn t d < i0 ∧ ∀ d' < d, ¬ cn t d' < i0 :=
        ⟨Nat.find hex, Nat.find_spec hex, fun d' h' => Nat.find_min hex h'⟩
      have hdd : d ≤ d0 := by
        by_contra hc'
        exact hmin d0 (by omega) h0.2.1
      have h1 : i0 ≤ cn s d := h0.2.2.trans (cn_anti s hdd)
      by_cases hd0 : d = 0
      · subst hd0
        right; exact ⟨hd, h1⟩
      · left
        obtain ⟨p, rfl⟩ : ∃ p, d = p + 1 := ⟨d - 1, by omega⟩
        have h2 := hmin p (by omega)
        have et := cn_succ t p
        have hb := Bool.toNat_le (decide (p + 1 ∈ t))
        have h3 : p + 1 ∈ t := by
          by_contra h3
          simp only [h3, decide_false, Bool.toNat_false] at et
          omega
        refine ⟨p + 1, (hQ _).2 ⟨by omega, h3, by omega⟩, by omega⟩
    · rintro (⟨q, hq, rfl⟩ | h)
      · have hq := (hQ q).1 hq
        exact ⟨(cn t q + 1, cn t q + 1 + q), (hmem _ _).2 ⟨by omega, by omega, by omega⟩, rfl⟩
      · exact ⟨(i, i), by simpa using (hmem i 0).2 ⟨by omega, h⟩, rfl⟩
  · rw [disjoint_left]
    intro j h1 h2
    obtain ⟨q, hq, rfl⟩ := mem_image.1 h1
    have hq := (hQ q).1 hq
    have := hstep 0 q (by omega) hq.2.1 hq.1
    rw [mem_Ioc] at h2
    omega

theorem no_diag_iff (hm : IsStrict mu) (hn : IsStrict nu) (hle : ∀ j, nu.getD j 0 ≤ mu.getD j 0)
    {D : Finset (ℕ × ℕ)} (hD : ∀ b, b ∈ D ↔ b ∈ shapeSet true mu ∧ b ∉ shapeSet true nu) :
    (∀ b ∈ D, b.1 ≠ b.2) ↔ cn mu.toFinset 0 - cn nu.toFinset 0 = 0 := by
  have hc := (le_iff_cn hm hn).1 hle
  constructor
  · intro h
    by_contra hne
    refine h (cn mu.toFinset 0, cn mu.toFinset 0) ((hD _).2 ?_) rfl
    have h1 := mem_shape_cn hm (i := cn mu.toFinset 0) (d := 0)
    have h2 := mem_shape_cn hn (i := cn mu.toFinset 0) (d := 0)
    simp only [add_zero] at h1 h2
    rw [h1, h2]
    omega
  · rintro h ⟨i, j⟩ hb he
    simp only at he
    subst he
    have h1 := mem_shape_cn hm (i := i) (d := 0)
    have h2 := mem_shape_cn hn (i := i) (d := 0)
    simp only [add_zero] at h1 h2
    rw [hD, h1, h2] at hb
    omega

/-! ### sets of parts -/

/-- The strict partition with the given parts. -/
def partsOf (u : Finset ℕ) : List ℕ := u.sort (· ≥ ·)

theorem toFinset_partsOf (u : Finset ℕ) : (partsOf u).toFinset = u := by
  ext a
  simp [partsOf]

theorem isStrict_partsOf {u : Finset ℕ} {N : ℕ} (h : u ⊆ Icc 1 N) : IsStrict (partsOf u) := by
  constructor
  · have h1 : (partsOf u).Pairwise (· ≥ ·) := Finset.pairwise_sort u (· ≥ ·)
    have h2 : (partsOf u).Nodup := Finset.sort_nodup u (· ≥ ·)
    exact (h1.and h2).imp (fun h => lt_of_le_of_ne h.1 (Ne.symm h.2))
  · intro a ha
    have : a ∈ u := by rw [← toFinset_partsOf u]; exact List.mem_toFinset.2 ha
    exact (mem_Icc.1 (h this)).1

theorem isStrict_ext {mu nu : List Nat} (hm : IsStrict mu) (hn : IsStrict nu) (h : mu.toFinset = nu.toFinset) : mu = nu := by
  refine row_ext hm.2 hn.2 (fun j => ?_)
  apply le_antisymm
  · exact (le_iff_cn hn hm).2 (fun d => by rw [h]) j
  · exact (le_iff_cn hm hn).2 (fun d => by rw [h]) j

end Verif.Tableaux
