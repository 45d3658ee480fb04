import Verif.Model.Dualops
import Verif.Lemmas.Partitions
import Mathlib.Data.List.GetD

/-! The operators of dualops.py in terms of the parts. -/

attribute [-simp] List.getD_eq_getElem?_getD

namespace Verif.Dualops

open Verif.Part Partition

variable {mu nu : List Nat} {a b : Nat}

theorem isin_shifted {i j : Int} : isin mu i j true = true ↔ 1 ≤ i ∧ i ≤ j ∧ j < i + mu.getD (i - 1).toNat 0 := by
  rw [isin, Bool.and_eq_true, decide_eq_true_eq, decide_eq_true_eq]
  by_cases h : 1 ≤ i
  · rw [if_pos h, if_pos rfl, get_eq mu (by omega), show i.toNat - 1 = (i - 1).toNat by omega]
    omega
  · rw [if_neg h, if_pos rfl]
    omega

theorem isin_row {r : Nat} {j : Int} : isin mu ((r + 1 : Nat) : Int) j true = true ↔ (r : Int) + 1 ≤ j ∧ j < r + 1 + mu.getD r 0 := by
  rw [isin_shifted, show (((r + 1 : Nat) : Int) - 1).toNat = r by omega]
  push_cast
  omega

theorem strict_iff : IsStrict mu ↔ (∀ a ∈ mu, 0 < a) ∧ ∀ i, mu.getD i 0 ≠ 0 → mu.getD (i + 1) 0 < mu.getD i 0 := by
  constructor
  · intro h
    exact ⟨h.2, (pairwise_gt_iff h.2).1 h.1⟩
  · intro h
    exact ⟨(pairwise_gt_iff h.1).2 h.2, h.1⟩

/-- Rows decrease. -/
theorem strict_lt (h : IsStrict mu) {i j : Nat} (hij : i < j) (hj : 0 < mu.getD j 0) : mu.getD j 0 < mu.getD i 0 := by
  have h1 := (strict_iff.1 h).2
  have anti : ∀ i, mu.getD (i + 1) 0 ≤ mu.getD i 0 := fun i => by
    by_cases h0 : mu.getD i 0 = 0
    · have := Partition.pairwise_ge_iff.1 (h.1.imp (fun h => le_of_lt h)) i
      exact this
    · exact (h1 i h0).le
  have ha := antitone_nat_of_succ_le (f := fun i => mu.getD i 0) anti
  have h2 : mu.getD j 0 ≤ mu.getD (i + 1) 0 := ha hij
  have h3 : mu.getD (i + 1) 0 ≤ mu.getD i 0 := anti i
  have := h1 i (by omega)
  omega

theorem mem_iff (h : ∀ a ∈ mu, 0 < a) {t : Nat} : t ∈ mu ↔ 0 < t ∧ ∃ k, mu.getD k 0 = t := by
  constructor
  · intro ht
    refine ⟨h t ht, ?_⟩
    obtain ⟨k, hk, rfl⟩ := List.mem_iff_getElem.1 ht
    exact ⟨k, List.getD_eq_getElem _ _ hk⟩
  · rintro ⟨h0, k, rfl⟩
    have hk : k < mu.length := by
      by_contra hc
      rw [List.getD_eq_default _ _ (by omega)] at h0
      omega
    rw [List.getD_eq_getElem _ _ hk]
    exact List.getElem_mem hk

/-- Strict partitions with the same parts. -/
theorem strict_ext (hm : IsStrict mu) (hn : IsStrict nu) (h : ∀ t, t ∈ mu ↔ t ∈ nu) : mu = nu := by
  refine List.Perm.eq_of_pairwise (le := (· > ·)) (fun a b _ _ h1 h2 => ?_) hm.1 hn.1 ?_
  · omega
  · rw [List.perm_ext_iff_of_nodup (hm.1.imp (fun h => (ne_of_lt h).symm)) (hn.1.imp (fun h => (ne_of_lt h).symm))]
    exact h

theorem diagonalRow_spec (hm : IsStrict mu) (a : Nat) : ∃ r, diagonalRow mu a (mu.length + 1) 1 = r + 1 ∧ r ≤ mu.length ∧
    mu.getD r 0 ≤ a ∧ ∀ k < r, a < mu.getD k 0 := by
  have key : ∀ fuel r, r ≤ mu.length → mu.length < fuel + r → (∀ k < r, a < mu.getD k 0) →
      ∃ r', diagonalRow mu a fuel (r + 1) = r' + 1 ∧ r' ≤ mu.length ∧ mu.getD r' 0 ≤ a ∧ ∀ k < r', a < mu.getD k 0 := by
    intro fuel
    induction fuel with
    | zero => intro r h1 h2; omega
    | succ fuel ih =>
      intro r h1 h2 h3
      rw [diagonalRow]
      by_cases h : isin mu ((r + 1 : Nat) : Int) ((r + 1 + a : Nat) : Int) true = true
      · rw [if_pos h]
        rw [isin_row] at h
        have h4 : a < mu.getD r 0 := by omega
        have h5 : r < mu.length := by
          by_contra hc
          rw [List.getD_eq_default _ _ (by omega)] at h4
          omega
        refine ih (r + 1) (by omega) (by omega) (fun k hk => ?_)
        by_cases hk' : k = r
        · rw [hk']; exact h4
        · exact h3 k (by omega)
      · rw [if_neg h]
        rw [isin_row] at h
        refine ⟨r, rfl, h1, ?_, h3⟩
        push_cast at h
        omega
  exact key (mu.length + 1) 0 (by omega) (by omega) (by simp)

/-- A part in the place of row `r`. -/
theorem getD_replace {l : List Nat} (r : Nat) (hr : r ≤ mu.length) (k : Nat) :
    (mu.take r ++ l ++ mu.drop (r + 1)).getD k 0 =
      if k < r then mu.getD k 0 else if k < r + l.length then l.getD (k - r) 0 else mu.getD (k + 1 - l.length) 0 := by
  have ht : (mu.take r).length = r := by simp [hr]
  by_cases h1 : k < r
  · rw [if_pos h1, List.append_assoc, List.getD_append _ _ _ _ (by omega), List.getD_eq_getElem _ _ (by omega),
      List.getElem_take, List.getD_eq_getElem]
  · rw [if_neg h1, List.append_assoc, List.getD_append_right _ _ _ _ (by omega), ht]
    by_cases h2 : k < r + l.length
    · rw [if_pos h2, List.getD_append _ _ _ _ (by omega)]
    · rw [if_neg h2, List.getD_append_right _ _ _ _ (by omega)]
      by_cases h3 : k - r - l.length < (mu.drop (r + 1)).length
      · rw [List.getD_eq_getElem _ _ h3, List.getElem_drop]
        rw [List.length_drop] at h3
        rw [List.getD_eq_getElem _ _ (by omega)]
        congr 1
        omega
      · rw [List.getD_eq_default _ _ (by omega)]
        rw [List.length_drop] at h3
        rw [List.getD_eq_default _ _ (by omega)]

/-- What the horizontal operator does to the rows. -/
def RowMove (a b : Nat) (mu nu : List Nat) : Prop :=
  ∃ r, mu.getD r 0 = a ∧ ∀ k, nu.getD k 0 = if k = r then b + 1 else mu.getD k 0

/-- What the vertical operator does to the rows. -/
def ColMove (a b : Nat) (mu nu : List Nat) : Prop :=
  ∃ r, b ≤ r + a ∧ (∀ k, r + a ≤ b + k → k ≤ r → mu.getD k 0 = r + a - k) ∧
    ∀ k, nu.getD k 0 = if r + a ≤ b + k ∧ k ≤ r then mu.getD k 0 + 1 else mu.getD k 0

theorem horizontalOp_some (hm : IsStrict mu) (hab : a ≤ b) (h : horizontalOp a b mu = some nu) :
    IsStrict nu ∧ RowMove a b mu nu := by
  obtain ⟨r, h1, h2, h3, h4⟩ := diagonalRow_spec hm a
  rw [horizontalOp, h1] at h
  split at h
  · rename_i hc
    obtain ⟨c1, c2⟩ := hc
    rw [isin_row] at c1
    have hr : mu.getD r 0 = a := by omega
    have hup : ∀ k, k + 1 = r → b + 1 < mu.getD k 0 := by
      rintro k rfl
      rcases c2 with c2 | c2
      · omega
      · rw [show (((k + 1 + 1 : Nat) : Int) - 1) = ((k + 1 : Nat) : Int) by omega, isin_row] at c2
        push_cast at c2
        omega
    simp only [Option.some.injEq, get_succ, Nat.add_sub_cancel] at h
    have hget : ∀ k, nu.getD k 0 = if k = r then b + 1 else mu.getD k 0 := by
      intro k
      rw [← h, getD_replace r h2 k]
      simp only [List.length_cons, List.length_nil]
      by_cases k1 : k < r
      · rw [if_pos k1, if_neg (by omega)]
      · rw [if_neg k1]
        by_cases k2 : k = r
        · subst k2
          rw [if_pos (by omega), if_pos rfl, Nat.sub_self, List.getD_cons_zero]
          omega
        · rw [if_neg (by omega), if_neg k2]
          congr 1
    refine ⟨strict_iff.2 ⟨fun t ht => ?_, fun i hi => ?_⟩, r, hr, hget⟩
    · rw [← h] at ht
      simp only [List.mem_append, List.mem_singleton] at ht
      rcases ht with (ht | ht) | ht
      · exact hm.2 t (List.mem_of_mem_take ht)
      · omega
      · exact hm.2 t (List.mem_of_mem_drop ht)
    · rw [hget] at hi ⊢
      rw [hget]
      by_cases k1 : i = r
      · subst k1
        rw [if_pos rfl, if_neg (by omega)]
        by_cases h0 : mu.getD (i + 1) 0 = 0
        · omega
        · have := strict_lt hm (Nat.lt_succ_self i) (Nat.pos_of_ne_zero h0)
          rw [Nat.succ_eq_add_one] at this
          omega
      · rw [if_neg k1] at hi ⊢
        by_cases k2 : i + 1 = r
        · rw [if_pos k2]
          exact hup i k2
        · rw [if_neg k2]
          exact (strict_iff.1 hm).2 i hi
  · exact absurd h (by simp)

theorem verticalOp_some (hm : IsStrict mu) (hab : a ≤ b) (h : verticalOp a b mu = some nu) :
    IsStrict nu ∧ ColMove a b mu nu := by
  obtain ⟨r, h1, h2, h3, h4⟩ := diagonalRow_spec hm a
  rw [verticalOp, h1] at h
  split at h
  · exact absurd h (by simp)
  rename_i hc0
  split at h
  · rename_i hc
    obtain ⟨c1, c2⟩ := hc
    rw [isin_row] at c1
    have hr : mu.getD r 0 = a := by omega
    have hbr : b ≤ r + a := by
      rcases c2 with c2 | c2
      · omega
      · rw [isin_shifted] at c2
        omega
    obtain ⟨d, hd⟩ : ∃ d, r + a = b + d := ⟨r + a - b, by omega⟩
    have e : (((r + 1 : Nat) : Int) + a - b) = ((d + 1 : Nat) : Int) := by push_cast; omega
    rw [e] at c2 hc0 h
    rw [isin_row] at hc0
    have hd0 : mu.getD d 0 ≤ b := by
      push_cast at hc0
      omega
    have hdr : d ≤ r := by omega
    -- the rows in question are as long as possible
    have hlow : ∀ s, s ≤ r - d → a + s ≤ mu.getD (r - s) 0 := by
      intro s
      induction s with
      | zero => intro _; rw [Nat.sub_zero, hr]; omega
      | succ s ih =>
        intro hs
        have := ih (by omega)
        have h5 := h4 (r - (s + 1)) (by omega)
        have h6 := (strict_iff.1 hm).2 (r - (s + 1)) (by omega)
        rw [show r - (s + 1) + 1 = r - s by omega] at h6
        omega
    have hhigh : ∀ k, d ≤ k → k ≤ r → mu.getD k 0 + (k - d) ≤ b := by
      intro k hk
      induction k, hk using Nat.le_induction with
      | base => intro _; omega
      | succ k hk ih =>
        intro hkr
        have := ih (by omega)
        have h5 := h4 k (by omega)
        have h6 := (strict_iff.1 hm).2 k (by omega)
        omega
    have hrows : ∀ k, d ≤ k → k ≤ r → mu.getD k 0 = r + a - k := by
      intro k k1 k2
      have e1 := hlow (r - k) (by omega)
      have e2 := hhigh k k1 k2
      rw [show r - (r - k) = k by omega] at e1
      omega
    have hup : ∀ k, k + 1 = d → b + 1 < mu.getD k 0 := by
      rintro k rfl
      rcases c2 with c2 | c2
      · omega
      · rw [show (((k + 1 + 1 : Nat) : Int) - 1) = ((k + 1 : Nat) : Int) by omega, isin_row] at c2
        push_cast at c2
        omega
    rw [show (((d + 1 : Nat) : Int) - 1).toNat = d by omega, Int.toNat_natCast, show r + 1 + 1 - (d + 1) = r + 1 - d by omega,
      Option.some.injEq] at h
    have hget : ∀ k, nu.getD k 0 = if r + a ≤ b + k ∧ k ≤ r then mu.getD k 0 + 1 else mu.getD k 0 := by
      intro k
      have hl : ((List.range' (d + 1) (r + 1 - d)).map (fun k => get mu k + 1)).length = r + 1 - d := by simp
      have ht : (mu.take d).length = d := by simp; omega
      rw [← h]
      by_cases k1 : k < d
      · rw [if_neg (by omega), List.append_assoc, List.getD_append _ _ _ _ (by omega),
          List.getD_eq_getElem _ _ (by omega), List.getElem_take, List.getD_eq_getElem]
      · by_cases k2 : k ≤ r
        · rw [if_pos ⟨by omega, k2⟩, List.append_assoc, List.getD_append_right _ _ _ _ (by omega), ht,
            List.getD_append _ _ _ _ (by omega), List.getD_eq_getElem _ _ (by omega)]
          simp only [List.getElem_map, List.getElem_range']
          rw [show d + 1 + 1 * (k - d) = k + 1 by omega, get_succ]
        · rw [if_neg (by omega), List.getD_append_right _ _ _ _ (by rw [List.length_append]; omega), List.length_append, ht, hl]
          by_cases k3 : k < mu.length
          · rw [List.getD_eq_getElem _ _ (by rw [List.length_drop]; omega), List.getElem_drop, List.getD_eq_getElem _ _ k3]
            congr 1
            omega
          · rw [List.getD_eq_default _ _ (by rw [List.length_drop]; omega), List.getD_eq_default _ _ (by omega)]
    refine ⟨strict_iff.2 ⟨fun t ht => ?_, fun i hi => ?_⟩, r, hbr, fun k k1 k2 => hrows k (by omega) k2, hget⟩
    · rw [← h] at ht
      simp only [List.mem_append, List.mem_map] at ht
      rcases ht with (ht | ⟨k, _, rfl⟩) | ht
      · exact hm.2 t (List.mem_of_mem_take ht)
      · omega
      · exact hm.2 t (List.mem_of_mem_drop ht)
    · have hs := (strict_iff.1 hm).2 i
      rw [hget] at hi ⊢
      rw [hget]
      by_cases k0 : i + 1 = d
      · have := hup i k0
        have := hrows (i + 1) (by omega) (by omega)
        rw [if_pos (by omega), if_neg (by omega)]
        omega
      · by_cases k1 : r + a ≤ b + i ∧ i ≤ r
        · rw [if_pos k1] at hi ⊢
          have e1 := hrows i (by omega) k1.2
          by_cases k2 : i + 1 ≤ r
          · have e2 := hrows (i + 1) (by omega) k2
            rw [if_pos (by omega)]
            omega
          · rw [if_neg (by omega)]
            by_cases h0 : mu.getD i 0 = 0
            · have h5 := Partition.pairwise_ge_iff.1 (hm.1.imp (fun h => le_of_lt h)) i
              omega
            · have := hs h0
              omega
        · rw [if_neg k1] at hi ⊢
          rw [if_neg (by omega)]
          exact hs hi
  · exact absurd h (by simp)

/-! ### in terms of the parts -/

/-- The condition for a horizontal strip. -/
def HCond (a b : Nat) (mu : List Nat) : Prop := (a = 0 ∨ a ∈ mu) ∧ ∀ t, a < t → t ≤ b + 1 → t ∉ mu

/-- The condition for a vertical strip. -/
def VCond (a b : Nat) (mu : List Nat) : Prop := (∀ t, a ≤ t → t ≤ b → t = 0 ∨ t ∈ mu) ∧ b + 1 ∉ mu

/-- The part `a` becomes `b + 1`. -/
def PartMove (a b : Nat) (mu nu : List Nat) : Prop := ∀ t, t ∈ nu ↔ t = b + 1 ∨ (t ∈ mu ∧ t ≠ a)

theorem RowMove.parts (hm : IsStrict mu) (hn : IsStrict nu) (h : RowMove a b mu nu) :
    HCond a b mu ∧ PartMove a b mu nu := by
  obtain ⟨r, h1, h2⟩ := h
  have hlt := fun i j (hij : i < j) hj => strict_lt hm (i := i) (j := j) hij hj
  refine ⟨⟨?_, fun t t1 t2 ht => ?_⟩, fun t => ?_⟩
  · by_cases h0 : a = 0
    · exact Or.inl h0
    · exact Or.inr ((mem_iff hm.2).2 ⟨by omega, r, h1⟩)
  · obtain ⟨t0, k, hk⟩ := (mem_iff hm.2).1 ht
    rcases lt_trichotomy k r with hkr | hkr | hkr
    · have h3 := strict_lt hn hkr (by rw [h2, if_pos rfl]; omega)
      rw [h2, h2, if_pos rfl, if_neg (by omega)] at h3
      omega
    · rw [hkr] at hk
      omega
    · have := hlt r k hkr (by omega)
      omega
  · rw [mem_iff hn.2, mem_iff hm.2]
    constructor
    · rintro ⟨t0, k, hk⟩
      rw [h2] at hk
      split at hk
      · exact Or.inl hk.symm
      · rename_i hkr
        refine Or.inr ⟨⟨t0, k, hk⟩, fun hta => ?_⟩
        rcases lt_trichotomy k r with hkr' | hkr' | hkr'
        · have := hlt k r hkr' (by omega)
          omega
        · exact hkr hkr'
        · have := hlt r k hkr' (by omega)
          omega
    · rintro (rfl | ⟨⟨t0, k, hk⟩, hta⟩)
      · exact ⟨by omega, r, by rw [h2, if_pos rfl]⟩
      · refine ⟨t0, k, ?_⟩
        rw [h2, if_neg]
        · exact hk
        · rintro rfl
          omega

theorem ColMove.parts (hm : IsStrict mu) (hn : IsStrict nu) (hab : a ≤ b) (h : ColMove a b mu nu) :
    VCond a b mu ∧ PartMove a b mu nu := by
  obtain ⟨r, h0, h1, h2⟩ := h
  obtain ⟨d, hd⟩ : ∃ d, r + a = b + d := ⟨r + a - b, by omega⟩
  have hlt := fun i j (hij : i < j) hj => strict_lt hm (i := i) (j := j) hij hj
  have hd1 := h1 d (by omega) (by omega)
  have hr1 := h1 r (by omega) (by omega)
  have hnb : b + 1 ∉ mu := by
    intro ht
    obtain ⟨_, k, hk⟩ := (mem_iff hm.2).1 ht
    rcases lt_trichotomy k d with hkr | hkr | hkr
    · have h3 := strict_lt hn hkr (by rw [h2, if_pos (by omega)]; omega)
      rw [h2, h2, if_pos (by omega), if_neg (by omega)] at h3
      omega
    · rw [hkr] at hk
      omega
    · have := hlt d k hkr (by omega)
      omega
  refine ⟨⟨fun t t1 t2 => ?_, hnb⟩, fun t => ?_⟩
  · by_cases t0 : t = 0
    · exact Or.inl t0
    · refine Or.inr ((mem_iff hm.2).2 ⟨by omega, r + a - t, ?_⟩)
      rw [h1 _ (by omega) (by omega)]
      omega
  · rw [mem_iff hn.2, mem_iff hm.2]
    constructor
    · rintro ⟨t0, k, hk⟩
      rw [h2] at hk
      split at hk
      · rename_i hc
        have e := h1 k hc.1 hc.2
        by_cases hkd : k = d
        · left
          rw [hkd] at hk
          omega
        · right
          refine ⟨⟨t0, k - 1, ?_⟩, by omega⟩
          have := h1 (k - 1) (by omega) (by omega)
          omega
      · rename_i hc
        refine Or.inr ⟨⟨t0, k, hk⟩, fun hta => ?_⟩
        rcases lt_trichotomy k r with hkr' | hkr' | hkr'
        · have := hlt k r hkr' (by omega)
          omega
        · omega
        · have := hlt r k hkr' (by omega)
          omega
    · rintro (rfl | ⟨⟨t0, k, hk⟩, hta⟩)
      · refine ⟨by omega, d, ?_⟩
        rw [h2, if_pos (by omega)]
        omega
      · refine ⟨t0, ?_⟩
        by_cases hc : r + a ≤ b + k ∧ k ≤ r
        · have e := h1 k hc.1 hc.2
          have e' : k ≠ r := by
            rintro rfl
            omega
          refine ⟨k + 1, ?_⟩
          rw [h2, if_pos (by omega), h1 (k + 1) (by omega) (by omega)]
          omega
        · exact ⟨k, by rw [h2, if_neg hc, hk]⟩

theorem horizontalOp_isSome (hm : IsStrict mu) (hab : a ≤ b) (h : HCond a b mu) : ∃ nu, horizontalOp a b mu = some nu := by
  obtain ⟨r, h1, h2, h3, h4⟩ := diagonalRow_spec hm a
  obtain ⟨c1, c2⟩ := h
  have hr : mu.getD r 0 = a := by
    rcases c1 with c1 | c1
    · omega
    · obtain ⟨h0, k, hk⟩ := (mem_iff hm.2).1 c1
      rcases lt_trichotomy k r with hkr | hkr | hkr
      · have := h4 k hkr
        omega
      · rw [← hkr, hk]
      · have := strict_lt hm hkr (by omega)
        omega
  rw [horizontalOp, h1]
  rw [if_pos]
  · exact ⟨_, rfl⟩
  · constructor
    · rw [isin_row]
      omega
    · by_cases h0 : r = 0
      · left
        omega
      · right
        obtain ⟨s, rfl⟩ : ∃ s, r = s + 1 := ⟨r - 1, by omega⟩
        have h5 := h4 s (by omega)
        have h6 : b + 1 < mu.getD s 0 := by
          by_contra hc
          exact c2 (mu.getD s 0) h5 (by omega) ((mem_iff hm.2).2 ⟨by omega, s, rfl⟩)
        rw [show (((s + 1 + 1 : Nat) : Int) - 1) = ((s + 1 : Nat) : Int) by omega, isin_row]
        push_cast
        omega

theorem verticalOp_isSome (hm : IsStrict mu) (hab : a ≤ b) (h : VCond a b mu) : ∃ nu, verticalOp a b mu = some nu := by
  obtain ⟨r, h1, h2, h3, h4⟩ := diagonalRow_spec hm a
  obtain ⟨c1, c2⟩ := h
  have hmem : ∀ t, 0 < t → t ∈ mu → ∃ k, mu.getD k 0 = t := fun t _ ht => ((mem_iff hm.2).1 ht).2
  have hr : mu.getD r 0 = a := by
    rcases c1 a le_rfl hab with c1 | c1
    · omega
    · obtain ⟨h0, k, hk⟩ := (mem_iff hm.2).1 c1
      rcases lt_trichotomy k r with hkr | hkr | hkr
      · have := h4 k hkr
        omega
      · rw [← hkr, hk]
      · have := strict_lt hm hkr (by omega)
        omega
  have hrows : ∀ s, a + s ≤ b → s ≤ r ∧ mu.getD (r - s) 0 = a + s := by
    intro s
    induction s with
    | zero => intro _; exact ⟨by omega, hr⟩
    | succ s ih =>
      intro hs
      obtain ⟨e1, e2⟩ := ih (by omega)
      obtain ⟨k, hk⟩ := hmem (a + (s + 1)) (by omega) ((c1 (a + (s + 1)) (by omega) hs).resolve_left (by omega))
      have hkr : k < r - s := by
        by_contra hc
        by_cases hc' : k = r - s
        · rw [hc'] at hk
          omega
        · have := strict_lt hm (show r - s < k by omega) (by omega)
          omega
      refine ⟨by omega, ?_⟩
      have h5 := h4 (r - (s + 1)) (by omega)
      have h6 := (strict_iff.1 hm).2 (r - (s + 1)) (by omega)
      rw [show r - (s + 1) + 1 = r - s by omega] at h6
      by_cases hk' : k = r - (s + 1)
      · rw [← hk']; exact hk
      · have := strict_lt hm (show k < r - (s + 1) by omega) (by omega)
        omega
  obtain ⟨e1, e2⟩ := hrows (b - a) (by omega)
  obtain ⟨d, hd⟩ : ∃ d, r + a = b + d := ⟨r + a - b, by omega⟩
  rw [show r - (b - a) = d by omega] at e2
  have e : (((r + 1 : Nat) : Int) + a - b) = ((d + 1 : Nat) : Int) := by push_cast; omega
  rw [verticalOp, h1]
  rw [e, if_neg, if_pos]
  · exact ⟨_, rfl⟩
  · constructor
    · rw [isin_row]
      omega
    · by_cases h0 : d = 0
      · left
        omega
      · right
        obtain ⟨s, rfl⟩ : ∃ s, d = s + 1 := ⟨d - 1, by omega⟩
        have h5 := h4 s (by omega)
        have h6 := (strict_iff.1 hm).2 s (by omega)
        have h7 : mu.getD s 0 ≠ b + 1 := fun hc => c2 ((mem_iff hm.2).2 ⟨by omega, s, hc⟩)
        rw [show (((s + 1 + 1 : Nat) : Int) - 1) = ((s + 1 : Nat) : Int) by omega, isin_row]
        push_cast
        omega
  · rw [isin_row]
    push_cast
    omega

theorem horizontalOp_iff (hm : IsStrict mu) (hab : a ≤ b) : horizontalOp a b mu = some nu ↔
    IsStrict nu ∧ HCond a b mu ∧ PartMove a b mu nu := by
  constructor
  · intro h
    obtain ⟨h1, h2⟩ := horizontalOp_some hm hab h
    exact ⟨h1, h2.parts hm h1⟩
  · rintro ⟨h1, h2, h3⟩
    obtain ⟨nu', h4⟩ := horizontalOp_isSome hm hab h2
    obtain ⟨h5, h6⟩ := horizontalOp_some hm hab h4
    rw [h4, strict_ext h1 h5 (fun t => (h3 t).trans ((h6.parts hm h5).2 t).symm)]

theorem verticalOp_iff (hm : IsStrict mu) (hab : a ≤ b) : verticalOp a b mu = some nu ↔
    IsStrict nu ∧ VCond a b mu ∧ PartMove a b mu nu := by
  constructor
  · intro h
    obtain ⟨h1, h2⟩ := verticalOp_some hm hab h
    exact ⟨h1, h2.parts hm h1 hab⟩
  · rintro ⟨h1, h2, h3⟩
    obtain ⟨nu', h4⟩ := verticalOp_isSome hm hab h2
    obtain ⟨h5, h6⟩ := verticalOp_some hm hab h4
    rw [h4, strict_ext h1 h5 (fun t => (h3 t).trans ((h6.parts hm h5 hab).2 t).symm)]

/-! ### in terms of diagrams -/

/-- `nu` is `mu` and the boxes of contents `a..b` in some row. -/
def AddsRow (a b : Nat) (mu nu : List Nat) : Prop :=
  ∃ i, 1 ≤ i ∧ (∀ c, a ≤ c → c ≤ b → (i, i + c) ∉ ShiftedDiagram mu) ∧
    ShiftedDiagram nu = ShiftedDiagram mu ∪ {x | ∃ c, a ≤ c ∧ c ≤ b ∧ x = (i, i + c)}

/-- `nu` is `mu` and the boxes of contents `a..b` in some column. -/
def AddsColumn (a b : Nat) (mu nu : List Nat) : Prop :=
  ∃ j, b < j ∧ (∀ c, a ≤ c → c ≤ b → (j - c, j) ∉ ShiftedDiagram mu) ∧
    ShiftedDiagram nu = ShiftedDiagram mu ∪ {x | ∃ c, a ≤ c ∧ c ≤ b ∧ x = (j - c, j)}

theorem rowMove_iff (hab : a ≤ b) : RowMove a b mu nu ↔ AddsRow a b mu nu := by
  constructor
  · rintro ⟨r, h1, h2⟩
    refine ⟨r + 1, by omega, fun c c1 c2 hc => ?_, ?_⟩
    · rw [mem_shiftedDiagram, Nat.add_sub_cancel] at hc
      omega
    · ext ⟨i, j⟩
      rw [Set.mem_union, mem_shiftedDiagram, mem_shiftedDiagram, Set.mem_ofPred_eq, h2]
      constructor
      · rintro ⟨k1, k2, k3⟩
        split at k3
        · rename_i hr
          by_cases hj : j < i + a
          · left
            refine ⟨k1, k2, ?_⟩
            rw [hr]
            omega
          · right
            exact ⟨j - i, by omega, by omega, by rw [← hr]; exact Prod.ext (by simp; omega) (by simp; omega)⟩
        · exact Or.inl ⟨k1, k2, k3⟩
      · rintro (⟨k1, k2, k3⟩ | ⟨c, c1, c2, hc⟩)
        · refine ⟨k1, k2, ?_⟩
          split
          · rename_i hr
            rw [hr] at k3
            omega
          · exact k3
        · rw [Prod.mk.injEq] at hc
          rw [if_pos (by omega)]
          omega
  · rintro ⟨i, h1, h2, h3⟩
    have hm : ∀ k j, (k + 1 ≤ j ∧ j < k + 1 + nu.getD k 0) ↔ ((k + 1 ≤ j ∧ j < k + 1 + mu.getD k 0) ∨
        (k + 1 = i ∧ i + a ≤ j ∧ j ≤ i + b)) := by
      intro k j
      have := Set.ext_iff.1 h3 (k + 1, j)
      rw [Set.mem_union, mem_shiftedDiagram, mem_shiftedDiagram, Set.mem_ofPred_eq, Nat.add_sub_cancel] at this
      constructor
      · intro h
        rcases this.1 ⟨by omega, h⟩ with h | ⟨c, c1, c2, hc⟩
        · exact Or.inl h.2
        · rw [Prod.mk.injEq] at hc
          exact Or.inr (by omega)
      · rintro (h | ⟨e1, e2, e3⟩)
        · exact (this.2 (Or.inl ⟨by omega, h⟩)).2
        · exact (this.2 (Or.inr ⟨j - i, by omega, by omega, by rw [Prod.mk.injEq]; omega⟩)).2
    have hr := h2 a le_rfl hab
    rw [mem_shiftedDiagram] at hr
    obtain ⟨r, rfl⟩ : ∃ r, i = r + 1 := ⟨i - 1, by omega⟩
    rw [Nat.add_sub_cancel] at hr
    have e1 := hm r (r + 1 + a)
    have e2 := hm r (r + 1 + mu.getD r 0)
    have e3 := hm r (r + 1 + nu.getD r 0)
    have e4 := hm r (r + 1 + b)
    have e5 := hm r (r + 1 + b + 1)
    refine ⟨r, by omega, fun k => ?_⟩
    by_cases hk : k = r
    · rw [if_pos hk, hk]
      omega
    · rw [if_neg hk]
      have e6 := hm k (k + 1 + mu.getD k 0)
      have e7 := hm k (k + 1 + nu.getD k 0)
      omega

theorem colMove_iff (hab : a ≤ b) : ColMove a b mu nu ↔ AddsColumn a b mu nu := by
  constructor
  · rintro ⟨r, h0, h1, h2⟩
    refine ⟨r + 1 + a, by omega, fun c c1 c2 hc => ?_, ?_⟩
    · rw [mem_shiftedDiagram] at hc
      have := h1 (r + 1 + a - c - 1) (by omega) (by omega)
      omega
    · ext ⟨i, j⟩
      rw [Set.mem_union, mem_shiftedDiagram, mem_shiftedDiagram, Set.mem_ofPred_eq, h2]
      constructor
      · rintro ⟨k1, k2, k3⟩
        split at k3
        · rename_i hr
          have := h1 (i - 1) hr.1 hr.2
          by_cases hj : j < i + mu.getD (i - 1) 0
          · exact Or.inl ⟨k1, k2, hj⟩
          · right
            exact ⟨r + 1 + a - i, by omega, by omega, Prod.ext (by simp; omega) (by simp; omega)⟩
        · exact Or.inl ⟨k1, k2, k3⟩
      · rintro (⟨k1, k2, k3⟩ | ⟨c, c1, c2, hc⟩)
        · refine ⟨k1, k2, ?_⟩
          split <;> omega
        · rw [Prod.mk.injEq] at hc
          have := h1 (i - 1) (by omega) (by omega)
          rw [if_pos (by omega)]
          omega
  · rintro ⟨j, h1, h2, h3⟩
    have hm : ∀ k y, (k + 1 ≤ y ∧ y < k + 1 + nu.getD k 0) ↔ ((k + 1 ≤ y ∧ y < k + 1 + mu.getD k 0) ∨
        (y = j ∧ k + 1 + a ≤ j ∧ j ≤ k + 1 + b)) := by
      intro k y
      have := Set.ext_iff.1 h3 (k + 1, y)
      rw [Set.mem_union, mem_shiftedDiagram, mem_shiftedDiagram, Set.mem_ofPred_eq, Nat.add_sub_cancel] at this
      constructor
      · intro h
        rcases this.1 ⟨by omega, h⟩ with h | ⟨c, c1, c2, hc⟩
        · exact Or.inl h.2
        · rw [Prod.mk.injEq] at hc
          exact Or.inr (by omega)
      · rintro (h | ⟨e1, e2, e3⟩)
        · exact (this.2 (Or.inl ⟨by omega, h⟩)).2
        · exact (this.2 (Or.inr ⟨j - (k + 1), by omega, by omega, by rw [Prod.mk.injEq]; omega⟩)).2
    have hrow : ∀ k, j - 1 ≤ b + k → k ≤ j - 1 - a → mu.getD k 0 = j - 1 - k ∧ nu.getD k 0 = mu.getD k 0 + 1 := by
      intro k k1 k2
      have e0 := h2 (j - 1 - k) (by omega) (by omega)
      rw [mem_shiftedDiagram, show j - (j - 1 - k) = k + 1 by omega, Nat.add_sub_cancel] at e0
      have e1 := hm k j
      have e2 := hm k (k + 1 + mu.getD k 0)
      have e3 := hm k (k + 1 + nu.getD k 0)
      have e4 := hm k (k + 1 + mu.getD k 0 + 1)
      omega
    refine ⟨j - 1 - a, by omega, fun k k1 k2 => ?_, fun k => ?_⟩
    · have := (hrow k (by omega) k2).1
      omega
    · split
      · rename_i hk
        exact (hrow k (by omega) hk.2).2
      · rename_i hk
        have e6 := hm k (k + 1 + mu.getD k 0)
        have e7 := hm k (k + 1 + nu.getD k 0)
        omega

/-! ### composition -/

/-- An operator that moves a part under a condition. -/
structure IsOp (C : List Nat → Prop) (a b : Nat) (f : List Nat → Option (List Nat)) : Prop where
  iff : ∀ mu nu, IsStrict mu → (f mu = some nu ↔ IsStrict nu ∧ C mu ∧ PartMove a b mu nu)
  ex : ∀ mu, IsStrict mu → C mu → ∃ nu, f mu = some nu
  loc : ∀ mu nu, (∀ t, a ≤ t → t ≤ b + 1 → (t ∈ mu ↔ t ∈ nu)) → C mu → C nu

theorem isOp_h (hab : a ≤ b) : IsOp (HCond a b) a b (horizontalOp a b) where
  iff _ _ hm := horizontalOp_iff hm hab
  ex _ hm h := horizontalOp_isSome hm hab h
  loc mu nu h hc := ⟨hc.1.imp_right (fun h' => (h a le_rfl (by omega)).1 h'),
    fun t t1 t2 ht => hc.2 t t1 t2 ((h t (by omega) t2).2 ht)⟩

theorem isOp_v (hab : a ≤ b) : IsOp (VCond a b) a b (verticalOp a b) where
  iff _ _ hm := verticalOp_iff hm hab
  ex _ hm h := verticalOp_isSome hm hab h
  loc mu nu h hc := ⟨fun t t1 t2 => (hc.1 t t1 t2).imp_right (fun h' => (h t t1 (by omega)).1 h'),
    fun ht => hc.2 ((h (b + 1) (by omega) le_rfl).2 ht)⟩

theorem op_commute_half {C D : List Nat → Prop} {c d : Nat} {f g : List Nat → Option (List Nat)} (hf : IsOp C a b f)
    (hg : IsOp D c d g) (hs : b + 1 < c ∨ d + 1 < a) (hab : a ≤ b) (hcd : c ≤ d) (hm : IsStrict mu)
    (h : (g mu).bind f = some nu) : (f mu).bind g = some nu := by
  obtain ⟨y, hy, hx⟩ := Option.bind_eq_some_iff.1 h
  obtain ⟨y1, y2, y3⟩ := (hg.iff mu y hm).1 hy
  obtain ⟨x1, x2, x3⟩ := (hf.iff y nu y1).1 hx
  have hC : C mu := hf.loc y mu (fun t t1 t2 => by
    rw [y3 t]
    constructor
    · rintro (h | h)
      · omega
      · exact h.1
    · intro h
      exact Or.inr ⟨h, by omega⟩) x2
  obtain ⟨z, hz⟩ := hf.ex mu hm hC
  obtain ⟨z1, _, z3⟩ := (hf.iff mu z hm).1 hz
  refine Option.bind_eq_some_iff.2 ⟨z, hz, (hg.iff z nu z1).2 ⟨x1, hg.loc mu z (fun t t1 t2 => ?_) y2, fun t => ?_⟩⟩
  · rw [z3 t]
    constructor
    · intro h
      exact Or.inr ⟨h, by omega⟩
    · rintro (h | h)
      · omega
      · exact h.1
  · rw [x3 t, y3 t, z3 t]
    constructor
    · rintro (h | ⟨h | h, h'⟩)
      · exact Or.inr ⟨Or.inl h, by omega⟩
      · exact Or.inl h
      · exact Or.inr ⟨Or.inr ⟨h.1, h'⟩, h.2⟩
    · rintro (h | ⟨h | h, h'⟩)
      · exact Or.inr ⟨Or.inl h, by omega⟩
      · exact Or.inl h
      · exact Or.inr ⟨Or.inr ⟨h.1, h'⟩, h.2⟩

theorem op_commute {C D : List Nat → Prop} {c d : Nat} {f g : List Nat → Option (List Nat)} (hf : IsOp C a b f)
    (hg : IsOp D c d g) (hs : b + 1 < c ∨ d + 1 < a) (hab : a ≤ b) (hcd : c ≤ d) (hm : IsStrict mu) :
    (g mu).bind f = (f mu).bind g := by
  ext nu
  exact ⟨op_commute_half hf hg hs hab hcd hm, op_commute_half hg hf hs.symm hcd hab hm⟩

end Verif.Dualops
