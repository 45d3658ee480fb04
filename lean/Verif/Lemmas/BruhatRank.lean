import Verif.Lemmas.FpfWords
import Verif.Lemmas.LittleInv

/-! # The Bruhat order on unsigned permutations in terms of the numbers of values above a bound -/

namespace Verif.Perm
open Verif.PermSpec
attribute [-simp] List.getD_eq_getElem?_getD
attribute [local irreducible] mul s inverse identity len mod SPerm.call sFun

/-- The number of `a` from 1 to `i` with a value above `j`. -/
def rk (w : SPerm) : Nat → Nat → Nat
  | 0, _ => 0
  | i + 1, j => rk w i j + if (j : Int) < w.call (i + 1 : Nat) then 1 else 0

theorem rk_succ (w : SPerm) (i j : Nat) : rk w (i + 1) j = rk w i j + if (j : Int) < w.call (i + 1 : Nat) then 1 else 0 := rfl

theorem sFun_nat {k : Nat} (hk : 1 ≤ k) : sFun k k = (k + 1 : Nat) ∧ sFun k (k + 1 : Nat) = k ∧
    ∀ a : Nat, a ≠ k → a ≠ k + 1 → sFun k a = a := by
  refine ⟨?_, ?_, fun a h1 h2 => ?_⟩ <;> with_unfolding_all (unfold sFun)
  · (repeat' split) <;> omega
  · (repeat' split) <;> omega
  · (repeat' split) <;> omega

theorem rk_mul_s {w : SPerm} {k : Nat} (hk : 1 ≤ k) (j : Nat) :
    (∀ i, i < k → rk (mul w (s k)) i j = rk w i j) ∧
    rk (mul w (s k)) k j = rk w (k - 1) j + (if (j : Int) < w.call (k + 1 : Nat) then 1 else 0) ∧
    (∀ i, k < i → rk (mul w (s k)) i j = rk w i j) := by
  have h1 : ∀ i, i < k → rk (mul w (s k)) i j = rk w i j := by
    intro i hi
    induction i with
    | zero => rfl
    | succ i ih =>
      rw [rk_succ, rk_succ, ih (by omega), call_mul, call_s, (sFun_nat hk).2.2 _ (by omega) (by omega)]
  have h2 : rk (mul w (s k)) k j = rk w (k - 1) j + (if (j : Int) < w.call (k + 1 : Nat) then 1 else 0) := by
    obtain ⟨m, rfl⟩ : ∃ m, k = m + 1 := ⟨k - 1, by omega⟩
    rw [rk_succ, h1 m (by omega), call_mul, call_s, (sFun_nat hk).1]; rfl
  refine ⟨h1, h2, fun i hi => ?_⟩
  obtain ⟨d, rfl⟩ : ∃ d, i = k + 1 + d := ⟨i - (k + 1), by omega⟩
  clear hi
  induction d with
  | zero =>
    obtain ⟨m, rfl⟩ : ∃ m, k = m + 1 := ⟨k - 1, by omega⟩
    rw [Nat.add_zero, rk_succ _ (m + 1), rk_succ _ (m + 1), h2, rk_succ, call_mul, call_s, (sFun_nat hk).2.1]
    change rk w m j + _ + _ = _
    omega
  | succ d ih =>
    rw [← Nat.add_assoc, rk_succ, rk_succ, ih, call_mul, call_s, (sFun_nat hk).2.2 _ (by omega) (by omega)]

theorem rk_pred (w : SPerm) {k : Nat} (hk : 1 ≤ k) (j : Nat) : rk w k j = rk w (k - 1) j + if (j : Int) < w.call k then 1 else 0 := by
  obtain ⟨m, rfl⟩ : ∃ m, k = m + 1 := ⟨k - 1, by omega⟩
  exact rk_succ w m j

theorem desc_iff_lt {w : SPerm} {k : Nat} (hk : 1 ≤ k) : Desc w.call k ↔ w.call (k + 1 : Nat) < w.call k := by
  have hlo : lo k = k := by unfold lo; rw [if_neg (by omega)]
  rw [Desc, hlo]
  exact Iff.rfl

theorem rk_down {w : SPerm} {k : Nat} (hk : 1 ≤ k) (j : Nat) : rk (down w k) k j = max (rk w (k - 1) j) (rk w (k + 1) j - 1) ∧
    ∀ i, i ≠ k → rk (down w k) i j = rk w i j := by
  obtain ⟨h1, h2, h3⟩ := rk_mul_s (w := w) hk j
  have h4 := rk_pred w hk j
  have h5 := rk_succ w k j
  by_cases hd : Desc w.call k
  · rw [down_of_desc hd]
    rw [desc_iff_lt hk] at hd
    refine ⟨?_, fun i hi => ?_⟩
    · rw [h2, h5, h4]
      (repeat' split) <;> omega
    · rcases Nat.lt_or_gt_of_ne hi with h | h
      · exact h1 i h
      · exact h3 i h
  · rw [down_of_not hd]
    rw [desc_iff_lt hk] at hd
    refine ⟨?_, fun _ _ => rfl⟩
    rw [h5, h4]
    (repeat' split) <;> omega

theorem rk_act {w : SPerm} {k : Nat} (hk : 1 ≤ k) (j : Nat) : rk (act w k) k j = min (rk w (k - 1) j + 1) (rk w (k + 1) j) ∧
    ∀ i, i ≠ k → rk (act w k) i j = rk w i j := by
  obtain ⟨h1, h2, h3⟩ := rk_mul_s (w := w) hk j
  have h4 := rk_pred w hk j
  have h5 := rk_succ w k j
  by_cases hd : Desc w.call k
  · rw [act_of_desc hd]
    rw [desc_iff_lt hk] at hd
    refine ⟨?_, fun _ _ => rfl⟩
    rw [h5, h4]
    (repeat' split) <;> omega
  · rw [act_of_not hd]
    rw [desc_iff_lt hk] at hd
    refine ⟨?_, fun i hi => ?_⟩
    · rw [h2, h5, h4]
      (repeat' split) <;> omega
    · rcases Nat.lt_or_gt_of_ne hi with h | h
      · exact h1 i h
      · exact h3 i h

/-- The numbers for `y` are at most those for `z`. -/
def Dom (y z : SPerm) : Prop := ∀ i j, rk y i j ≤ rk z i j

theorem Dom.down {y z : SPerm} (h : Dom y z) {k : Nat} (hk : 1 ≤ k) : Dom (down y k) (Verif.Perm.down z k) := by
  intro i j
  by_cases hi : i = k
  · subst hi
    rw [(rk_down hk j).1, (rk_down hk j).1]
    have h1 := h (i - 1) j
    have h2 := h (i + 1) j
    omega
  · rw [(rk_down hk j).2 i hi, (rk_down hk j).2 i hi]; exact h i j

theorem Dom.act {y z : SPerm} (h : Dom y z) {k : Nat} (hk : 1 ≤ k) : Dom (act y k) (Verif.Perm.act z k) := by
  intro i j
  by_cases hi : i = k
  · subst hi
    rw [(rk_act hk j).1, (rk_act hk j).1]
    have h1 := h (i - 1) j
    have h2 := h (i + 1) j
    omega
  · rw [(rk_act hk j).2 i hi, (rk_act hk j).2 i hi]; exact h i j

theorem dom_act (y : SPerm) {k : Nat} (hk : 1 ≤ k) : Dom y (act y k) := by
  intro i j
  by_cases hi : i = k
  · subst hi
    rw [(rk_act hk j).1, rk_succ, rk_pred y hk j]
    (repeat' split) <;> omega
  · rw [(rk_act hk j).2 i hi]

theorem act_down {z : SPerm} {k : Nat} (h : Desc z.call k) : act (down z k) k = z := by
  rw [down_of_desc h, act_of_not (by rw [desc_mul_s]; simpa using h), mul_s_s]

theorem down_pos {z : SPerm} (hz : ∀ a : Int, 0 < a → 0 < z.call a) {k : Nat} (hk : 1 ≤ k) :
    ∀ a : Int, 0 < a → 0 < (down z k).call a := by
  intro a ha
  unfold down
  split
  · rw [call_mul, call_s]; exact hz _ ((sFun_pos hk).2 ha)
  · exact hz a ha

theorem desc_one_le {z : SPerm} (hz : ∀ a : Int, 0 < a → 0 < z.call a) {k : Nat} (h : Desc z.call k) : 1 ≤ k := by
  by_contra hc
  obtain rfl : k = 0 := by omega
  have h1 := hz 1 (by omega)
  unfold Desc at h
  rw [lo, if_pos rfl, (call_odd z).neg] at h
  simp only [Nat.cast_zero, zero_add] at h
  omega

theorem dom_identity {y : SPerm} (hy : ∀ a : Int, 0 < a → 0 < y.call a) (h : Dom y identity) : y = identity := by
  have h0 : ∀ i j, i ≤ j → rk identity i j = 0 := by
    intro i j hij
    induction i with
    | zero => rfl
    | succ i ih => rw [rk_succ, ih (by omega), call_identity, if_neg (by omega)]
  have h1 : ∀ a : Nat, 1 ≤ a → y.call a ≤ a := by
    intro a ha
    have h2 := h a a
    rw [h0 a a le_rfl, rk_pred y ha] at h2
    by_contra hc
    rw [if_pos (by omega)] at h2
    omega
  have h2 : ∀ a : Nat, 1 ≤ a → y.call a = a := by
    intro a
    induction a using Nat.strong_induction_on with
    | _ a ih =>
      intro ha
      by_contra hc
      have h3 := h1 a ha
      have h4 := hy a (by omega)
      have h5 := ih (y.call a).toNat (by omega) (by omega)
      rw [Int.toNat_of_nonneg (by omega)] at h5
      exact hc ((call_odd y).inj _ _ h5)
  refine ext_pos (fun x hx => ?_)
  have h3 := h2 x.toNat (by omega)
  rw [Int.toNat_of_nonneg (by omega)] at h3
  rw [h3, call_identity]

theorem le_act (y : SPerm) (k : Nat) : BruhatLE y (act y k) := by
  by_cases h : Desc y.call k
  · rw [act_of_desc h]; exact .refl
  · rw [act_of_not h]; exact .single (step_mul_s h)

/-- The criterion for the Bruhat order on unsigned permutations. -/
theorem bruhatLE_iff_dom {y z : SPerm} (hy : ∀ a : Int, 0 < a → 0 < y.call a) (hz : ∀ a : Int, 0 < a → 0 < z.call a) :
    BruhatLE y z ↔ Dom y z := by
  induction hl : len z using Nat.strong_induction_on generalizing y z with
  | _ n ih =>
    subst hl
    by_cases hd : ∃ k, Desc z.call k
    · obtain ⟨k, hk⟩ := hd
      have hk1 := desc_one_le hz hk
      have hlt : len (down z k) < len z := by
        have := len_mul_s_of_desc hk
        rw [down_of_desc hk]; omega
      have h := ih _ hlt (down_pos hy hk1) (down_pos hz hk1) rfl
      have h2 : Dom y (act (down y k) k) ∧ BruhatLE y (act (down y k) k) := by
        by_cases hyd : Desc y.call k
        · rw [act_down hyd]; exact ⟨fun _ _ => le_rfl, .refl⟩
        · rw [down_of_not hyd]; exact ⟨dom_act y hk1, le_act y k⟩
      constructor
      · intro h1
        have h3 := (h.1 (down_le h1 k)).act hk1
        rw [act_down hk] at h3
        exact fun i j => (h2.1 i j).trans (h3 i j)
      · intro h1
        have h3 := act_le (h.2 (h1.down hk1)) k
        rw [act_down hk] at h3
        exact h2.2.trans h3
    · push Not at hd
      obtain rfl := eq_identity_of_no_desc hd
      constructor
      · intro h
        have h1 := h.len_le
        rw [len_identity] at h1
        rw [h1.2 (by omega)]
        exact fun _ _ => le_rfl
      · intro h
        rw [dom_identity hy h]; exact .refl

end Verif.Perm
