import Verif.Lemmas.Words
import Mathlib.Algebra.BigOperators.Ring.Finset
import Mathlib.Algebra.BigOperators.Group.List.Basic
import Mathlib.Algebra.BigOperators.Intervals

/-! Helper lemmas about zeta functions and quasisymmetrisation. -/

namespace Verif.Words

open Dict

/-! ### quasisymmetrize -/

theorem getD_qfold (i : Nat) (z : Int) (l : List (List Nat × Int)) (hn : (l.map Prod.fst).Nodup)
    (ans : Dict (List Nat) Int) (c : List Nat) :
    (l.foldl (qstep i z) ans).getD c 0 = ans.getD c 0 +
      match c with
      | [] => 0
      | a :: c' => if a = i then z * (lookup c' l).getD 0 else 0 := by
  induction l generalizing ans with
  | nil => cases c <;> simp [lookup]
  | cons kv l ih =>
    simp only [List.map_cons, List.nodup_cons] at hn
    rw [List.foldl_cons, ih hn.2, qstep, getD_set]
    cases c with
    | nil => simp
    | cons a c' =>
      simp only [List.cons.injEq]
      by_cases ha : a = i
      · subst ha
        by_cases hk : kv.1 = c'
        · subst hk
          have : lookup kv.1 l = none := lookup_eq_none.2 hn.1
          simp [lookup, this]
        · simp [lookup, hk]
      · simp [ha, Ne.symm ha]

theorem getD_qouter (zeta : List Int → Int) (word : List Int) (l : List Nat) (hl : l.Nodup)
    (ans : Dict (List Nat) Int) (c : List Nat) :
    (l.foldl (fun ans n =>
        let z := zeta (word.take (n + 1))
        if z ≠ 0 then (quasisymmetrize zeta (word.drop (n + 1))).items.foldl (qstep (n + 1) z) ans
        else ans) ans).getD c 0 = ans.getD c 0 +
      match c with
      | [] => 0
      | a :: c' => if 0 < a ∧ a - 1 ∈ l then
          zeta (word.take a) * (quasisymmetrize zeta (word.drop a)).getD c' 0 else 0 := by
  induction l generalizing ans with
  | nil => cases c <;> simp
  | cons n l ih =>
    rw [List.nodup_cons] at hl
    rw [List.foldl_cons, ih hl.2]
    have hstep : (let z := zeta (word.take (n + 1))
        if z ≠ 0 then (quasisymmetrize zeta (word.drop (n + 1))).items.foldl (qstep (n + 1) z) ans
        else ans).getD c 0 = ans.getD c 0 + match c with
          | [] => 0
          | a :: c' => if a = n + 1 then
            zeta (word.take (n + 1)) * (quasisymmetrize zeta (word.drop (n + 1))).getD c' 0 else 0 := by
      simp only
      split
      · rw [getD_qfold _ _ _ (quasisymmetrize zeta (word.drop (n + 1))).nodup]
        cases c <;> rfl
      · rename_i h
        have h0 : zeta (word.take (n + 1)) = 0 := by simpa using h
        cases c <;> simp [h0]
    rw [hstep]
    cases c with
    | nil => simp
    | cons a c' =>
      simp only [List.mem_cons]
      by_cases ha : a = n + 1
      · subst ha
        simp [hl.1]
      · have : ¬ (0 < a ∧ a - 1 = n) := by omega
        have h2 : (0 < a ∧ (a - 1 = n ∨ a - 1 ∈ l)) ↔ (0 < a ∧ a - 1 ∈ l) := by
          constructor
          · rintro ⟨h1, h2 | h2⟩
            · exact absurd ⟨h1, h2⟩ this
            · exact ⟨h1, h2⟩
          · rintro ⟨h1, h2⟩; exact ⟨h1, Or.inr h2⟩
        simp [ha, h2]

theorem getD_filter_ne (d : Dict (List Nat) Int) (c : List Nat) :
    (d.filter (fun _ v => decide (v ≠ 0))).getD c 0 = d.getD c 0 := by
  unfold getD
  rw [get?_filter]
  cases d.get? c with
  | none => rfl
  | some v => by_cases h : v = 0 <;> simp [Option.filter, h]

theorem getD_quasi (zeta : List Int → Int) (word : List Int) (c : List Nat) :
    (quasisymmetrize zeta word).getD c 0 =
      if (∀ a ∈ c, 0 < a) ∧ c.sum = word.length then ((c.splitLengths word).map zeta).prod else 0 := by
  induction hn : word.length using Nat.strong_induction_on generalizing word c with
  | _ n ih =>
    subst hn
    rw [quasisymmetrize]
    by_cases h : word.length = 0
    · rw [dif_pos h, h, getD_set]
      cases c with
      | nil => simp
      | cons a c =>
        rw [if_neg (by simp), if_neg]
        · rfl
        · rintro ⟨h1, h2⟩
          have := h1 a (by simp)
          simp at h2
          omega
    · rw [dif_neg h, getD_filter_ne, getD_qouter _ _ _ List.nodup_range]
      cases c with
      | nil =>
        rw [if_neg]
        · simp
        · rintro ⟨_, h2⟩; simp at h2; exact h (by simp [← h2])
      | cons a c =>
        simp only [List.mem_range, getD_empty, zero_add]
        by_cases ha : 0 < a ∧ a - 1 < word.length
        · rw [if_pos ha, ih (word.drop a).length (by simp; omega) (word.drop a) c rfl]
          have : ((∀ x ∈ a :: c, 0 < x) ∧ (a :: c).sum = word.length) ↔
              ((∀ x ∈ c, 0 < x) ∧ c.sum = (word.drop a).length) := by
            simp only [List.mem_cons, forall_eq_or_imp, List.sum_cons, List.length_drop]
            constructor
            · rintro ⟨⟨_, h1⟩, h2⟩; exact ⟨h1, by omega⟩
            · rintro ⟨h1, h2⟩; exact ⟨⟨ha.1, h1⟩, by omega⟩
          simp only [this]
          split
          · rw [List.splitLengths_cons, List.map_cons, List.prod_cons]
          · rw [mul_zero]
        · rw [if_neg ha, if_neg]
          rintro ⟨h1, h2⟩
          have := h1 a (by simp)
          rw [List.sum_cons] at h2
          omega

theorem quasi_noZero (zeta : List Int → Int) (word : List Int) (c : List Nat) :
    (quasisymmetrize zeta word).get? c ≠ some 0 := by
  rw [quasisymmetrize]
  split
  · rw [get?_set]; split <;> simp
  · rw [get?_filter]
    intro h
    rw [Option.filter_eq_some_iff] at h
    simp at h

/-! ### adjacent comparisons -/

theorem allAdjacent_iff (r : Int → Int → Bool) (w : List Int) :
    allAdjacent r w = true ↔ w.IsChain (fun a b => r a b = true) := by
  rw [allAdjacent, List.all_eq_true, List.isChain_iff_getElem]
  constructor
  · intro h i hi
    have := h i (by rw [List.mem_range]; omega)
    rw [List.getD_eq_getElem?_getD, List.getD_eq_getElem?_getD, List.getElem?_eq_getElem (by omega),
      List.getElem?_eq_getElem (by omega)] at this
    simpa using this
  · intro h i hi
    rw [List.mem_range] at hi
    rw [List.getD_eq_getElem?_getD, List.getD_eq_getElem?_getD, List.getElem?_eq_getElem (by omega),
      List.getElem?_eq_getElem (by omega)]
    exact h i (by omega)

theorem isChain_pairwise {r : Int → Int → Prop} (ht : ∀ a b c, r a b → r b c → r a c) (w : List Int) :
    w.IsChain r ↔ w.Pairwise r := by
  have : Trans r r r := ⟨fun h1 h2 => ht _ _ _ h1 h2⟩
  exact List.isChain_iff_pairwise

theorem inc_iff (w : List Int) : allAdjacent (fun a b => decide (a < b)) w = true ↔ w.Pairwise (· < ·) := by
  rw [allAdjacent_iff]
  simp only [decide_eq_true_eq]
  exact isChain_pairwise (by intros; omega) w

theorem dec_iff (w : List Int) : allAdjacent (fun a b => decide (a > b)) w = true ↔ w.Pairwise (· > ·) := by
  rw [allAdjacent_iff]
  simp only [decide_eq_true_eq]
  exact isChain_pairwise (by intros; omega) w

theorem winc_iff (w : List Int) : allAdjacent (fun a b => decide (a ≤ b)) w = true ↔ w.Pairwise (· ≤ ·) := by
  rw [allAdjacent_iff]
  simp only [decide_eq_true_eq]
  exact isChain_pairwise (by intros; omega) w

theorem wdec_iff (w : List Int) : allAdjacent (fun a b => decide (a ≥ b)) w = true ↔ w.Pairwise (· ≥ ·) := by
  rw [allAdjacent_iff]
  simp only [decide_eq_true_eq]
  exact isChain_pairwise (by intros; omega) w

theorem list_range_sum (n : Nat) (g : Nat → Int) : ((List.range n).map g).sum = ∑ i ∈ Finset.range n, g i := by
  induction n with
  | zero => simp
  | succ n ih => rw [List.range_succ, Finset.sum_range_succ]; simp [ih]

theorem unimodalZeta_eq_card (w : List Int) :
    unimodalZeta w = ((Finset.range (w.length + 1)).filter
      (fun k => (w.take k).Pairwise (· > ·) ∧ (w.drop k).Pairwise (· < ·))).card := by
  rw [unimodalZeta, list_range_sum, Finset.card_filter]
  push_cast
  apply Finset.sum_congr rfl
  intro k _
  rw [decreasingZeta, increasingZeta]
  simp only [inc_iff, dec_iff]
  by_cases h1 : (w.take k).Pairwise (· > ·) <;> by_cases h2 : (w.drop k).Pairwise (· < ·) <;> simp [h1, h2]

theorem cuts_unimodal (a b : List Int) (m : Int) (ha : (a ++ [m]).Pairwise (· > ·)) (hb : (m :: b).Pairwise (· < ·))
    (k : Nat) (hk : k ≤ (a ++ m :: b).length) :
    (((a ++ m :: b).take k).Pairwise (· > ·) ∧ ((a ++ m :: b).drop k).Pairwise (· < ·)) ↔
      k = a.length ∨ k = a.length + 1 := by
  constructor
  · rintro ⟨h1, h2⟩
    by_contra hc
    push Not at hc
    rcases Nat.lt_or_ge k a.length with h | h
    · -- two elements of a ++ [m] lie in the increasing part
      have hd : (a ++ m :: b).drop k = (a ++ [m]).drop k ++ b := by
        rw [show a ++ m :: b = (a ++ [m]) ++ b by simp, List.drop_append_of_le_length (by simp; omega)]
      rw [hd] at h2
      have h3 : ((a ++ [m]).drop k).Pairwise (· < ·) := (List.pairwise_append.1 h2).1
      have h4 : ((a ++ [m]).drop k).Pairwise (· > ·) := ha.sublist (List.drop_sublist _ _)
      have hl : 1 < ((a ++ [m]).drop k).length := by simp; omega
      have h5 := List.pairwise_iff_getElem.1 h3 0 1 (by omega) hl (by omega)
      have h6 := List.pairwise_iff_getElem.1 h4 0 1 (by omega) hl (by omega)
      omega
    · have hk2 : a.length + 2 ≤ k := by omega
      have ht : (a ++ m :: b).take k = a ++ (m :: b).take (k - a.length) := by
        rw [List.take_append, List.take_of_length_le (by omega)]
      rw [ht] at h1
      have h3 : ((m :: b).take (k - a.length)).Pairwise (· > ·) := (List.pairwise_append.1 h1).2.1
      have h4 : ((m :: b).take (k - a.length)).Pairwise (· < ·) := hb.sublist (List.take_sublist _ _)
      have hl : 1 < ((m :: b).take (k - a.length)).length := by
        simp at hk ⊢; omega
      have h5 := List.pairwise_iff_getElem.1 h3 0 1 (by omega) hl (by omega)
      have h6 := List.pairwise_iff_getElem.1 h4 0 1 (by omega) hl (by omega)
      omega
  · rintro (rfl | rfl)
    · rw [List.take_left, List.drop_left]
      exact ⟨(List.pairwise_append.1 ha).1, hb⟩
    · have e1 : (a ++ m :: b).take (a.length + 1) = a ++ [m] := by
        rw [show a ++ m :: b = (a ++ [m]) ++ b by simp]
        exact List.take_left' (by simp)
      have e2 : (a ++ m :: b).drop (a.length + 1) = b := by
        rw [show a ++ m :: b = (a ++ [m]) ++ b by simp]
        exact List.drop_left' (by simp)
      rw [e1, e2]
      exact ⟨ha, hb.tail⟩

theorem cuts_flat (a b : List Int) (m : Int) (ha : (a ++ [m]).Pairwise (· > ·)) (hb : (m :: b).Pairwise (· < ·))
    (k : Nat) :
    (((a ++ m :: m :: b).take k).Pairwise (· > ·) ∧ ((a ++ m :: m :: b).drop k).Pairwise (· < ·)) ↔
      k = a.length + 1 := by
  constructor
  · rintro ⟨h1, h2⟩
    by_contra hc
    rcases Nat.lt_or_ge k (a.length + 1) with h | h
    · have hd : (a ++ m :: m :: b).drop k = a.drop k ++ m :: m :: b := by
        rw [List.drop_append_of_le_length (by omega)]
      rw [hd] at h2
      have h3 := (List.pairwise_append.1 h2).2.1
      have := List.rel_of_pairwise_cons h3 (a' := m) (by simp)
      omega
    · have ht : (a ++ m :: m :: b).take k = a ++ m :: m :: b.take (k - a.length - 2) := by
        have : k = a.length + (k - a.length - 2 + 2) := by omega
        rw [List.take_append, List.take_of_length_le (by omega),
          show k - a.length = (k - a.length - 2) + 2 by omega]
        rfl
      rw [ht] at h1
      have h3 := (List.pairwise_append.1 h1).2.1
      have := List.rel_of_pairwise_cons h3 (a' := m) (by simp)
      omega
  · rintro rfl
    have e1 : (a ++ m :: m :: b).take (a.length + 1) = a ++ [m] := by
      rw [show a ++ m :: m :: b = (a ++ [m]) ++ (m :: b) by simp]
      exact List.take_left' (by simp)
    have e2 : (a ++ m :: m :: b).drop (a.length + 1) = m :: b := by
      rw [show a ++ m :: m :: b = (a ++ [m]) ++ (m :: b) by simp]
      exact List.drop_left' (by simp)
    rw [e1, e2]
    exact ⟨ha, hb⟩

end Verif.Words
