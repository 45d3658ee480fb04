import Verif.Lemmas.SymGen

/-! The counts of semistandard (set-valued) tableaux are unitriangular. -/

namespace Verif.Symm

open Verif.Part Partition Tableaux

attribute [-simp] List.getD_eq_getElem?_getD

theorem diff_length {mu : List Nat} {s} (h : StripRec mu [] s) : s.2.1.length + s.1.sum = mu.sum := by
  have hlen : s.1.length ≤ mu.length := by
    by_contra hc
    have h5 := (getD_pos_iff h.strip.1.2 mu.length).2 (by omega)
    have h6 := (h.strip.2 mu.length).2
    rw [List.getD_eq_default mu 0 le_rfl] at h6
    omega
  rw [card_diff h le_rfl, sum_eq_range s.1 hlen, sum_eq_range mu le_rfl, ← Finset.sum_add_distrib]
  exact Finset.sum_congr rfl (fun i _ => by have := (h.strip.2 i).2; omega)

theorem corner_sum {mu : List Nat} {s} (h : StripRec mu [] s) :
    s.2.1.length + s.2.2.length ≤ mu.getD 0 0 := by
  rw [card_diff h le_rfl, card_corners h le_rfl, Finset.card_filter, ← Finset.sum_add_distrib]
  have key : ∀ M, (∑ i ∈ Finset.range M, (mu.getD i 0 - s.1.getD i 0 +
      if max (mu.getD (i + 1) 0) (([] : List Nat).getD i 0) < s.1.getD i 0 then 1 else 0)) + mu.getD M 0 ≤ mu.getD 0 0 := by
    intro M
    induction M with
    | zero => simp
    | succ M ih =>
      rw [Finset.sum_range_succ]
      have h1 := h.strip.2 M
      rw [coreRow] at h1
      split <;> omega
  have := key mu.length
  omega

theorem sum_range_getD_le {a b : List Nat} (h : ∀ i, a.getD i 0 ≤ b.getD i 0) (k : Nat) :
    ∑ i ∈ Finset.range k, a.getD i 0 ≤ ∑ i ∈ Finset.range k, b.getD i 0 := Finset.sum_le_sum (fun i _ => h i)

theorem tabCount_zero (sv : Bool) (mu : List Nat) (alpha : Nat → Nat) :
    tabCount sv [] 0 mu alpha = if mu = [] then 1 else 0 := by
  rw [tabCount, semistandard]
  split <;> simp

theorem tabCount_congr (sv : Bool) (lam : List Nat) (n : Nat) (mu : List Nat) {alpha beta : Nat → Nat}
    (h : ∀ i < n, alpha i = beta i) : tabCount sv lam n mu alpha = tabCount sv lam n mu beta := by
  rw [tabCount, tabCount]
  congr 2
  refine Finset.filter_congr (fun T _ => forall₂_congr (fun i hi => by rw [h i hi]))

/-- What a nonzero count says about the content. -/
theorem tabCount_support {sv : Bool} {n : Nat} {mu : List Nat} (hm : IsPartition mu) {alpha : Nat → Nat}
    (h : tabCount sv [] n mu alpha ≠ 0) :
    mu.length ≤ n ∧ (∀ i < n, alpha i ≤ mu.getD 0 0) ∧ mu.sum ≤ ∑ i ∈ Finset.range n, alpha i ∧
    (∑ i ∈ Finset.range n, alpha i = mu.sum →
      ∀ k ≤ n, ∑ i ∈ Finset.range k, alpha i ≤ ∑ i ∈ Finset.range k, mu.getD i 0) ∧
    (sv = false → ∑ i ∈ Finset.range n, alpha i = mu.sum) := by
  induction n generalizing mu with
  | zero =>
    rw [tabCount_zero] at h
    obtain rfl : mu = [] := by by_contra hc; exact h (if_neg hc)
    refine ⟨le_rfl, fun i hi => absurd hi (by omega), by simp, fun _ k hk => ?_, fun _ => by simp⟩
    obtain rfl : k = 0 := by omega
    simp
  | succ n ih =>
    have hl : IsPartition [] := ⟨by simp, by simp⟩
    rw [tabCount_succ hl n hm] at h
    obtain ⟨s, hs, h1⟩ := Finset.exists_ne_zero_of_sum_ne_zero h
    obtain ⟨i, hi, h2⟩ := Finset.exists_ne_zero_of_sum_ne_zero h1
    split at h2
    swap
    · exact absurd rfl h2
    rename_i he
    have h3 : tabCount sv [] n s.1 alpha ≠ 0 := right_ne_zero_of_mul h2
    have hc : contains mu [] = true := by
      by_contra hc
      rw [strips_of_not_contains hc] at hs
      simp at hs
    have hr := (horizontalStrips_spec hm hl hc).2.2.1 s (List.mem_toFinset.1 hs)
    obtain ⟨g1, g2, g3, g4, g5⟩ := ih hr.strip.1 h3
    have hd := diff_length hr
    have hcs := corner_sum hr
    have hib : i ≤ s.2.2.length := by
      rw [Finset.mem_range, cornerBound] at hi
      split at hi <;> omega
    have hle : ∀ j, s.1.getD j 0 ≤ mu.getD j 0 := fun j => (hr.strip.2 j).2
    have hlen : mu.length ≤ n + 1 := by
      by_contra hcl
      have h5 := (getD_pos_iff hm.2 (n + 1)).2 (by omega)
      have h6 := (hr.strip.2 n).1
      rw [coreRow, List.getD_eq_default s.1 0 (by omega)] at h6
      omega
    refine ⟨hlen, ?_, ?_, ?_, ?_⟩
    · intro j hj
      by_cases hjn : j = n
      · subst hjn; omega
      · exact (g2 j (by omega)).trans (hle 0)
    · rw [Finset.sum_range_succ]; omega
    · intro hsum k hk
      by_cases hkn : k = n + 1
      · subst hkn
        rw [hsum, sum_eq_range mu hlen]
      · rw [Finset.sum_range_succ] at hsum
        exact (g4 (by omega) k (by omega)).trans (sum_range_getD_le hle k)
    · intro hsv
      rw [Finset.sum_range_succ, g5 hsv]
      subst hsv
      simp [cornerBound] at hi
      omega

theorem partition_ext {a b : List Nat} (ha : IsPartition a) (hb : IsPartition b) (h : ∀ i, a.getD i 0 = b.getD i 0) :
    a = b := by
  have hl : a.length = b.length := by
    rcases Nat.lt_trichotomy a.length b.length with hc | hc | hc
    · have := (getD_pos_iff hb.2 a.length).2 hc
      rw [← h, List.getD_eq_default a 0 le_rfl] at this; omega
    · exact hc
    · have := (getD_pos_iff ha.2 b.length).2 hc
      rw [h, List.getD_eq_default b 0 le_rfl] at this; omega
  refine List.ext_getElem hl (fun i h1 h2 => ?_)
  have := h i
  rwa [List.getD_eq_getElem _ _ h1, List.getD_eq_getElem _ _ h2] at this

/-- The only tableau of shape `mu` and content `mu`. -/
theorem tabCount_self {sv : Bool} {n : Nat} {mu : List Nat} (hm : IsPartition mu) (hlen : mu.length ≤ n) :
    tabCount sv [] n mu (fun i => mu.getD i 0) = 1 := by
  induction n generalizing mu with
  | zero =>
    obtain rfl : mu = [] := List.length_eq_zero_iff.1 (by omega)
    rw [tabCount_zero, if_pos rfl]
  | succ n ih =>
    have hl : IsPartition [] := ⟨by simp, by simp⟩
    have hc : contains mu [] = true := (contains_iff hl.2).2 (by simp)
    obtain ⟨_, hnd, h3, h4⟩ := horizontalStrips_spec hm hl hc
    have htake : IsPartition (mu.take n) := ⟨hm.1.sublist (List.take_sublist _ _), fun a ha => hm.2 a (List.mem_of_mem_take ha)⟩
    have htg : ∀ i, (mu.take n).getD i 0 = if i < n then mu.getD i 0 else 0 := by
      intro i
      by_cases hi : i < n
      · rw [if_pos hi, List.getD_eq_getElem?_getD, List.getElem?_take, if_pos hi, List.getD_eq_getElem?_getD]
      · rw [if_neg hi, List.getD_eq_default]; simp; omega
    have hanti := getD_antitone hm.1
    have hstrip : IsStrip mu [] (mu.take n) := by
      refine ⟨htake, fun i => ?_⟩
      rw [htg, coreRow]
      have h1 := hanti (show i ≤ i + 1 by omega)
      simp only at h1
      split
      · simp; omega
      · rw [List.getD_eq_default mu 0 (n := i + 1) (by omega)]; simp
    obtain ⟨s, hs, hse⟩ := h4 _ hstrip
    have hr := h3 s hs
    rw [tabCount_succ hl n hm]
    have hsum : mu.sum = ∑ i ∈ Finset.range (n + 1), mu.getD i 0 := sum_eq_range mu hlen
    have hd := diff_length hr
    have htsum : (mu.take n).sum = ∑ i ∈ Finset.range n, mu.getD i 0 := by
      rw [sum_eq_range _ (m := n) (by simp)]
      exact Finset.sum_congr rfl (fun i hi => by rw [htg, if_pos (Finset.mem_range.1 hi)])
    rw [Finset.sum_range_succ] at hsum
    rw [hse] at hd
    rw [Finset.sum_eq_single s, Finset.sum_eq_single 0]
    · rw [if_pos (by omega), hse, tabCount_congr sv [] n _ (beta := fun i => (mu.take n).getD i 0) (fun i hi => by
        rw [htg, if_pos hi]), ih htake (by simp)]
      simp [nchoosek_natCast]
    · intro i _ hi
      rw [if_neg (by omega)]
    · intro h0
      exact absurd (Finset.mem_range.2 (by rw [cornerBound]; split <;> omega)) h0
    · intro s' hs' hne
      refine Finset.sum_eq_zero (fun i hi => ?_)
      split
      swap
      · rfl
      rename_i he
      rw [mul_eq_zero]
      right
      by_contra h0
      have hr' := h3 s' (List.mem_toFinset.1 hs')
      obtain ⟨g1, g2, g3, g4, g5⟩ := tabCount_support hr'.strip.1 h0
      have hd' := diff_length hr'
      have hle : ∀ j, s'.1.getD j 0 ≤ mu.getD j 0 := fun j => (hr'.strip.2 j).2
      have hs1 : s'.1.sum = ∑ i ∈ Finset.range n, s'.1.getD i 0 := sum_eq_range _ g1
      have hs2 := sum_range_getD_le hle n
      have heq : ∑ i ∈ Finset.range n, s'.1.getD i 0 = ∑ i ∈ Finset.range n, mu.getD i 0 := by
        omega
      have hall := (Finset.sum_eq_sum_iff_of_le (fun i _ => hle i)).1 heq
      apply hne
      apply horizontalStrips_inj hnd (List.mem_toFinset.1 hs') hs
      rw [hse]
      refine partition_ext hr'.strip.1 htake (fun i => ?_)
      rw [htg]
      split
      · rename_i hi'; exact hall i (Finset.mem_range.2 hi')
      · rw [List.getD_eq_default _ _ (by omega)]
    · intro h0
      exact absurd (List.mem_toFinset.2 hs) h0

theorem lex_of_dominance {a b : List Nat} (hb : ∀ x ∈ b, 0 < x)
    (h : ∀ k, ∑ i ∈ Finset.range k, b.getD i 0 ≤ ∑ i ∈ Finset.range k, a.getD i 0) : b = a ∨ b < a := by
  induction a generalizing b with
  | nil =>
    left
    cases b with
    | nil => rfl
    | cons y b =>
      have h1 := h 1
      have h2 := hb y (by simp)
      simp only [Finset.sum_range_one, List.getD_cons_zero, List.getD_nil] at h1
      omega
  | cons x a ih =>
    cases b with
    | nil => right; simp
    | cons y b =>
      have h1 := h 1
      simp only [Finset.sum_range_one, List.getD_cons_zero] at h1
      rcases Nat.lt_or_ge y x with hlt | hge
      · right; exact List.cons_lt_cons_iff.2 (Or.inl hlt)
      · obtain rfl : y = x := by omega
        rcases ih (b := b) (fun z hz => hb z (by simp [hz])) (fun k => by
          have := h (k + 1)
          rw [Finset.sum_range_succ', Finset.sum_range_succ'] at this
          simp only [List.getD_cons_zero, List.getD_cons_succ] at this
          omega) with he | he
        · left; rw [he]
        · right; exact List.cons_lt_cons_iff.2 (Or.inr ⟨rfl, he⟩)

end Verif.Symm
