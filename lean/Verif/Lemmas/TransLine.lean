import Verif.Lemmas.VertexInv

/-! Vertical and horizontal strips of shifted shapes in terms of the vertex model. -/

attribute [-simp] List.getD_eq_getElem?_getD

namespace Verif.Tableaux

open Tab Verif.Part Partition Verif.Vertex Finset

section Field
variable {K : Type*} [Field K]

theorem lineVal_V (x : K) (s t : Finset ℕ) (f : ℕ → K) (p : ℕ) (h : ∀ q ≥ p, cn t q ≤ cn s q) :
    lineVal (wV x) s t f p (cn s p - cn t p) = if ∀ q < p, cn t q ≤ cn s q ∧ cn s (q + 1) ≤ cn t q then
      x ^ ((Icc 1 p).filter (fun q => q ∉ s ∧ cn t q < cn s q)).card *
        (x + 1) ^ ((Icc 1 p).filter (fun q => q ∈ s ∧ cn t q < cn s q)).card * f (cn s 0 - cn t 0) else 0 := by
  induction p with
  | zero => simp [lineVal]
  | succ p ih =>
    have hp := h (p + 1) le_rfl
    have es := cn_succ s p
    have et := cn_succ t p
    rw [lineVal]
    by_cases hle : cn t p ≤ cn s p
    swap
    · rw [if_neg (by omega), if_neg (fun h' => hle (h' p (by omega)).1)]
    rw [if_pos (by omega)]
    have e : cn s (p + 1) - cn t (p + 1) + (decide (p + 1 ∈ s)).toNat - (decide (p + 1 ∈ t)).toNat = cn s p - cn t p := by
      omega
    rw [e, ih (fun q hq => by
      by_cases hqp : q = p
      · rw [hqp]; exact hle
      · exact h q (by omega))]
    by_cases hst : cn s (p + 1) ≤ cn t p
    swap
    · rw [wV, if_neg (by omega), zero_mul, if_neg (fun h' => hst (h' p (by omega)).2)]
    have hiff : (∀ q < p + 1, cn t q ≤ cn s q ∧ cn s (q + 1) ≤ cn t q) ↔
        ∀ q < p, cn t q ≤ cn s q ∧ cn s (q + 1) ≤ cn t q := by
      constructor
      · intro h' q hq; exact h' q (by omega)
      · intro h' q hq
        by_cases hqp : q = p
        · rw [hqp]; exact ⟨hle, hst⟩
        · exact h' q (by omega)
    simp only [hiff]
    split_ifs with h1
    · have hI : Icc 1 (p + 1) = insert (p + 1) (Icc 1 p) := by
        ext a; simp only [mem_Icc, mem_insert]; omega
      rw [hI, filter_insert, filter_insert, wV, if_pos (by omega)]
      by_cases h2 : cn t (p + 1) < cn s (p + 1)
      · rw [if_pos (by omega)]
        by_cases h3 : p + 1 ∈ s
        · rw [if_pos (by simp [h3]), if_neg (fun h => h.1 h3), if_pos ⟨h3, h2⟩, card_insert_of_notMem (by simp), pow_succ]
          ring
        · rw [if_neg (by simp [h3]), if_pos ⟨h3, h2⟩, if_neg (fun h => h3 h.1), card_insert_of_notMem (by simp), pow_succ]
          ring
      · rw [if_neg (by omega), if_neg (fun h => h2 h.2), if_neg (fun h => h2 h.2), one_mul]
    · rw [mul_zero]

theorem lineVal_H (x : K) (s t : Finset ℕ) (f : ℕ → K) (p : ℕ) (h : ∀ q ≥ p, cn t q ≤ cn s q) :
    lineVal (wH x) s t f p (cn s p - cn t p) = if ∀ q < p, cn t q ≤ cn s q ∧ cn s q ≤ cn t (q + 1) + 1 then
      x ^ ((Icc 1 p).filter (fun q => q ∈ t ∧ cn t q < cn s q)).card *
        (x + 1) ^ ((Icc 1 p).filter (fun q => q ∉ t ∧ cn t q < cn s q)).card * f (cn s 0 - cn t 0) else 0 := by
  induction p with
  | zero => simp [lineVal]
  | succ p ih =>
    have hp := h (p + 1) le_rfl
    have es := cn_succ s p
    have et := cn_succ t p
    rw [lineVal]
    by_cases hle : cn t p ≤ cn s p
    swap
    · rw [if_neg (by omega), if_neg (fun h' => hle (h' p (by omega)).1)]
    rw [if_pos (by omega)]
    have e : cn s (p + 1) - cn t (p + 1) + (decide (p + 1 ∈ s)).toNat - (decide (p + 1 ∈ t)).toNat = cn s p - cn t p := by
      omega
    rw [e, ih (fun q hq => by
      by_cases hqp : q = p
      · rw [hqp]; exact hle
      · exact h q (by omega))]
    by_cases hst : cn s p ≤ cn t (p + 1) + 1
    swap
    · rw [wH, if_neg (by omega), zero_mul, if_neg (fun h' => hst (h' p (by omega)).2)]
    have hiff : (∀ q < p + 1, cn t q ≤ cn s q ∧ cn s q ≤ cn t (q + 1) + 1) ↔
        ∀ q < p, cn t q ≤ cn s q ∧ cn s q ≤ cn t (q + 1) + 1 := by
      constructor
      · intro h' q hq; exact h' q (by omega)
      · intro h' q hq
        by_cases hqp : q = p
        · rw [hqp]; exact ⟨hle, hst⟩
        · exact h' q (by omega)
    simp only [hiff]
    split_ifs with h1
    · have hI : Icc 1 (p + 1) = insert (p + 1) (Icc 1 p) := by
        ext a; simp only [mem_Icc, mem_insert]; omega
      rw [hI, filter_insert, filter_insert, wH, if_pos (by omega)]
      by_cases h2 : cn t (p + 1) < cn s (p + 1)
      · rw [if_pos (by omega)]
        by_cases h3 : p + 1 ∈ t
        · rw [if_pos (by simp [h3]), if_pos ⟨h3, h2⟩, if_neg (fun h => h.1 h3), card_insert_of_notMem (by simp), pow_succ]
          ring
        · rw [if_neg (by simp [h3]), if_neg (fun h => h3 h.1), if_pos ⟨h3, h2⟩, card_insert_of_notMem (by simp), pow_succ]
          ring
      · rw [if_neg (by omega), if_neg (fun h => h2 h.2), if_neg (fun h => h2 h.2), one_mul]
    · rw [mul_zero]

end Field

/-! ### strips -/

/-- `mu/nu` is a vertical strip, without boxes on the diagonal unless `dn`. -/
def VOk (dn : Bool) (mu nu : List Nat) : Prop :=
  (∀ b ∈ (skew mu nu true).toFinset, (b.1, b.2 + 1) ∉ (skew mu nu true).toFinset) ∧ DiagOk dn mu nu

/-- `mu/nu` is a horizontal strip. -/
def HOk (mu nu : List Nat) : Prop :=
  ∀ b ∈ (skew mu nu true).toFinset, (b.1 + 1, b.2) ∉ (skew mu nu true).toFinset

instance (dn : Bool) (mu nu : List Nat) : Decidable (VOk dn mu nu) := by unfold VOk; infer_instance

instance (mu nu : List Nat) : Decidable (HOk mu nu) := by unfold HOk; infer_instance

variable {mu nu : List Nat} {N : ℕ}

theorem mem_skew_cn (hm : IsStrict mu) (hn : IsStrict nu) (i d : ℕ) :
    (i, i + d) ∈ (skew mu nu true).toFinset ↔ 1 ≤ i ∧ cn nu.toFinset d < i ∧ i ≤ cn mu.toFinset d := by
  rw [mem_skewF, mem_shape_cn hm, mem_shape_cn hn]
  omega

theorem skew_diag {i j : ℕ} (h : (i, j) ∈ (skew mu nu true).toFinset) : 1 ≤ i ∧ i ≤ j :=
  mem_shape_diag ((mem_skewF _).1 h).1

theorem row_iff_cn (hm : IsStrict mu) (hn : IsStrict nu) :
    (∀ b ∈ (skew mu nu true).toFinset, (b.1, b.2 + 1) ∉ (skew mu nu true).toFinset) ↔
      ∀ d, cn mu.toFinset (d + 1) ≤ cn nu.toFinset d := by
  constructor
  · intro h d
    by_contra hc
    refine h (cn nu.toFinset d + 1, cn nu.toFinset d + 1 + d) ((mem_skew_cn hm hn _ _).2 ⟨by omega, by omega, ?_⟩) ?_
    · have := cn_anti mu.toFinset (p := d) (q := d + 1) (by omega)
      omega
    · show (cn nu.toFinset d + 1, cn nu.toFinset d + 1 + (d + 1)) ∈ _
      rw [mem_skew_cn hm hn]
      have := cn_anti nu.toFinset (p := d) (q := d + 1) (by omega)
      omega
  · rintro h ⟨i, j⟩ h1 h2
    have := skew_diag h1
    obtain ⟨d, rfl⟩ : ∃ d, j = i + d := ⟨j - i, by omega⟩
    have h3 := (mem_skew_cn hm hn _ _).1 h1
    have h4 := (mem_skew_cn hm hn i (d + 1)).1 h2
    have := h d
    omega

theorem col_iff_cn (hm : IsStrict mu) (hn : IsStrict nu) :
    HOk mu nu ↔ ∀ d, cn mu.toFinset d ≤ cn nu.toFinset (d + 1) + 1 := by
  unfold HOk
  constructor
  · intro h d
    by_contra hc
    have es := cn_succ mu.toFinset d
    have et := cn_succ nu.toFinset d
    have bs := Bool.toNat_le (decide (d + 1 ∈ mu.toFinset))
    have bt := Bool.toNat_le (decide (d + 1 ∈ nu.toFinset))
    refine h (cn mu.toFinset d - 1, cn mu.toFinset d - 1 + (d + 1)) ((mem_skew_cn hm hn _ _).2 (by omega)) ?_
    have := (mem_skew_cn hm hn (cn mu.toFinset d - 1 + 1) d).2 (by omega)
    rwa [show cn mu.toFinset d - 1 + 1 + d = cn mu.toFinset d - 1 + (d + 1) by ring] at this
  · rintro h ⟨i, j⟩ h1 h2
    have := skew_diag h2
    simp only at h2
    obtain ⟨d, rfl⟩ : ∃ d, j = i + (d + 1) := ⟨j - i - 1, by omega⟩
    have h3 := (mem_skew_cn hm hn _ _).1 h1
    rw [show i + (d + 1) = i + 1 + d by ring] at h2
    have h4 := (mem_skew_cn hm hn _ _).1 h2
    have := h d
    omega

theorem card_skew (hm : IsStrict mu) (hn : IsStrict nu) (hMN : mu.toFinset ⊆ Icc 1 N) :
    (skew mu nu true).toFinset.card = ∑ q ∈ range (N + 1), (cn mu.toFinset q - cn nu.toFinset q) := by
  rw [card_eq_sum_card_fiberwise (f := fun b => b.2 - b.1) (t := range (N + 1))]
  · refine sum_congr rfl (fun q _ => ?_)
    have : ((skew mu nu true).toFinset.filter (fun b => b.2 - b.1 = q)) =
        (Ioc (cn nu.toFinset q) (cn mu.toFinset q)).image (fun i => (i, i + q)) := by
      ext ⟨i, j⟩
      simp only [mem_filter, mem_image, mem_Ioc, Prod.mk.injEq]
      constructor
      · rintro ⟨h1, h2⟩
        have := skew_diag h1
        obtain rfl : j = i + q := by omega
        exact ⟨i, ((mem_skew_cn hm hn _ _).1 h1).2, rfl, rfl⟩
      · rintro ⟨i', h1, rfl, rfl⟩
        exact ⟨(mem_skew_cn hm hn _ _).2 (by omega), by omega⟩
    rw [this, card_image_of_injective _ (fun a b h => (Prod.mk.inj h).1), Nat.card_Ioc]
  · rintro ⟨i, j⟩ h
    have h := mem_coe.1 h
    have h1 := skew_diag h
    obtain ⟨d, rfl⟩ : ∃ d, j = i + d := ⟨j - i, by omega⟩
    have h2 := (mem_skew_cn hm hn _ _).1 h
    rw [mem_coe, mem_range]
    by_contra hc
    have := cn_large hMN (p := d) (by simp only at hc; omega)
    omega

theorem card_skew_strip (hm : IsStrict mu) (hn : IsStrict nu) (hMN : mu.toFinset ⊆ Icc 1 N) {p : ℕ → Prop}
    [DecidablePred p] (h : ∀ q, 1 ≤ q → cn mu.toFinset q - cn nu.toFinset q ≤ 1) :
    (skew mu nu true).toFinset.card =
      ((Icc 1 N).filter (fun q => p q ∧ cn nu.toFinset q < cn mu.toFinset q)).card +
      (cn mu.toFinset 0 - cn nu.toFinset 0) +
      ((Icc 1 N).filter (fun q => ¬ p q ∧ cn nu.toFinset q < cn mu.toFinset q)).card := by
  rw [card_skew hm hn hMN, sum_range_succ']
  have e : ∑ q ∈ range N, (cn mu.toFinset (q + 1) - cn nu.toFinset (q + 1)) =
      ((Icc 1 N).filter (fun q => cn nu.toFinset q < cn mu.toFinset q)).card := by
    rw [card_filter]
    have : ∀ q ∈ range N, cn mu.toFinset (q + 1) - cn nu.toFinset (q + 1) =
        if cn nu.toFinset (q + 1) < cn mu.toFinset (q + 1) then 1 else 0 := by
      intro q _
      have := h (q + 1) (by omega)
      split_ifs <;> omega
    rw [sum_congr rfl this]
    refine sum_bij (fun q _ => q + 1) ?_ ?_ ?_ ?_
    · intro q hq; rw [mem_range] at hq; rw [mem_Icc]; omega
    · intro a _ b _ hab; omega
    · intro b hb; rw [mem_Icc] at hb; exact ⟨b - 1, mem_range.2 (by omega), by omega⟩
    · intro q _; rfl
  rw [e]
  have hs : ((Icc 1 N).filter (fun q => cn nu.toFinset q < cn mu.toFinset q)).card =
      ((Icc 1 N).filter (fun q => p q ∧ cn nu.toFinset q < cn mu.toFinset q)).card +
      ((Icc 1 N).filter (fun q => ¬ p q ∧ cn nu.toFinset q < cn mu.toFinset q)).card := by
    rw [← card_filter_add_card_filter_not (s := (Icc 1 N).filter (fun q => cn nu.toFinset q < cn mu.toFinset q)) p,
      filter_filter, filter_filter]
    congr 2 <;> (refine filter_congr (fun q _ => ?_); tauto)
  omega

section Field
variable {K : Type*} [Field K]

theorem line_H (hm : IsStrict mu) (hn : IsStrict nu) (hMN : mu.toFinset ⊆ Icc 1 N) (hN : nu.toFinset ⊆ Icc 1 N) (x : K) :
    lineVal (wH x) mu.toFinset nu.toFinset (x ^ ·) N 0 = if Leq nu mu ∧ HOk mu nu then
      x ^ rowsOf mu nu * (x + 1) ^ ((skew mu nu true).toFinset.card - rowsOf mu nu) else 0 := by
  have h := lineVal_H x mu.toFinset nu.toFinset (x ^ ·) N (fun q hq => by rw [cn_large hN hq]; omega)
  rw [cn_large hMN le_rfl, cn_large hN le_rfl] at h
  rw [h]
  have hiff : (∀ q < N, cn nu.toFinset q ≤ cn mu.toFinset q ∧ cn mu.toFinset q ≤ cn nu.toFinset (q + 1) + 1) ↔
      Leq nu mu ∧ HOk mu nu := by
    rw [← cn_le_all (N := N) hm hn hN, col_iff_cn hm hn]
    constructor
    · intro h'
      refine ⟨fun q hq => (h' q hq).1, fun d => ?_⟩
      by_cases hd : d < N
      · exact (h' d hd).2
      · rw [cn_large hMN (p := d) (by omega)]; omega
    · rintro ⟨h1, h2⟩ q hq
      exact ⟨h1 q hq, h2 q⟩
  simp only [hiff]
  split_ifs with h1
  · have hr := card_rows hm hn (leq_iff.1 h1.1) hMN mem_skewF
    have hc := card_skew_strip hm hn hMN (p := fun q => q ∈ nu.toFinset) (fun q _ => by
      have := (col_iff_cn hm hn).1 h1.2 q
      have := cn_anti nu.toFinset (p := q) (q := q + 1) (by omega)
      omega)
    have e : (skew mu nu true).toFinset.card - rowsOf mu nu =
        ((Icc 1 N).filter (fun q => q ∉ nu.toFinset ∧ cn nu.toFinset q < cn mu.toFinset q)).card := by
      rw [hc, rowsOf, hr]; omega
    rw [e, rowsOf, hr, pow_add]
    ring
  · rfl

theorem line_V (hm : IsStrict mu) (hn : IsStrict nu) (hMN : mu.toFinset ⊆ Icc 1 N) (hN : nu.toFinset ⊆ Icc 1 N) (x : K)
    (dn : Bool) :
    lineVal (wV x) mu.toFinset nu.toFinset (if dn = true then (x ^ ·) else dlt) N 0 = if Leq nu mu ∧ VOk dn mu nu then
      x ^ colsOf mu nu * (x + 1) ^ ((skew mu nu true).toFinset.card - colsOf mu nu) else 0 := by
  have h := lineVal_V x mu.toFinset nu.toFinset (if dn = true then (x ^ ·) else dlt) N
    (fun q hq => by rw [cn_large hN hq]; omega)
  rw [cn_large hMN le_rfl, cn_large hN le_rfl] at h
  rw [h]
  have hiff : (∀ q < N, cn nu.toFinset q ≤ cn mu.toFinset q ∧ cn mu.toFinset (q + 1) ≤ cn nu.toFinset q) ↔
      Leq nu mu ∧ (∀ b ∈ (skew mu nu true).toFinset, (b.1, b.2 + 1) ∉ (skew mu nu true).toFinset) := by
    rw [← cn_le_all (N := N) hm hn hN, row_iff_cn hm hn]
    constructor
    · intro h'
      refine ⟨fun q hq => (h' q hq).1, fun d => ?_⟩
      by_cases hd : d < N
      · exact (h' d hd).2
      · rw [cn_large hMN (p := d + 1) (by omega)]; omega
    · rintro ⟨h1, h2⟩ q hq
      exact ⟨h1 q hq, h2 q⟩
  simp only [hiff]
  by_cases h1 : Leq nu mu ∧ (∀ b ∈ (skew mu nu true).toFinset, (b.1, b.2 + 1) ∉ (skew mu nu true).toFinset)
  swap
  · rw [if_neg h1, if_neg (fun h' => h1 ⟨h'.1, h'.2.1⟩)]
  rw [if_pos h1]
  have hr := card_cols hm hn (leq_iff.1 h1.1) hMN mem_skewF
  have hc := card_skew_strip hm hn hMN (p := fun q => q ∉ mu.toFinset) (fun q hq => by
    have h2 := (row_iff_cn hm hn).1 h1.2 (q - 1)
    rw [Nat.sub_add_cancel hq] at h2
    have h3 := cn_succ nu.toFinset (q - 1)
    rw [Nat.sub_add_cancel hq] at h3
    have := Bool.toNat_le (decide (q ∈ nu.toFinset))
    omega)
  have e : (skew mu nu true).toFinset.card - colsOf mu nu =
      ((Icc 1 N).filter (fun q => q ∈ mu.toFinset ∧ cn nu.toFinset q < cn mu.toFinset q)).card := by
    rw [hc, colsOf, hr]
    simp only [not_not]
    omega
  have hd := no_diag_iff hm hn (leq_iff.1 h1.1) mem_skewF
  cases dn with
  | true =>
    rw [if_pos rfl, if_pos (show Leq nu mu ∧ VOk true mu nu from ⟨h1.1, h1.2, Or.inl rfl⟩), e, colsOf, hr, pow_add]
    ring
  | false =>
    rw [if_neg (by simp), dlt]
    have hiff2 : DiagOk false mu nu ↔ cn mu.toFinset 0 - cn nu.toFinset 0 = 0 := by
      rw [← hd]
      simp [DiagOk]
    by_cases h2 : cn mu.toFinset 0 - cn nu.toFinset 0 = 0
    · rw [if_pos h2, if_pos (show Leq nu mu ∧ VOk false mu nu from ⟨h1.1, h1.2, hiff2.2 h2⟩), e, colsOf, hr, h2, mul_one,
        add_zero]
    · rw [if_neg h2, if_neg (fun h' => h2 (hiff2.1 h'.2.2)), mul_zero]

end Field

end Verif.Tableaux
