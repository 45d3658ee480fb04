import Verif.Lemmas.TransitionsCov

/-! # The covering relations come from `tau` -/

namespace Verif.Perm
open Verif.PermSpec
attribute [-simp] List.getD_eq_getElem?_getD
attribute [local irreducible] mul s inverse identity len mod act SPerm.call sFun invStep

theorem eq_conjT {y u : SPerm} {p q : Nat} (hp : 1 ≤ p) (hq : 1 ≤ q) (h1 : u.call p = tFun p q (y.call q)) (h2 : u.call q = tFun p q (y.call p))
    (h3 : ∀ x : Int, 0 < x → x ≠ p → x ≠ q → u.call x = tFun p q (y.call x)) : u = conjT y p q := by
  refine ext_pos (fun x hx => ?_)
  rw [conjT_call hp hq]
  by_cases n1 : x = p
  · rw [n1, tFun_left, h1]
  by_cases n2 : x = q
  · rw [n2, tFun_right, h2]
  rw [tFun_of hx n1 n2, h3 x hx n1 n2]

theorem Cov.tau {y u : SPerm} (hy : Invol y) (hu : Invol u) (hpos : ∀ a : Int, 0 < a → 0 < y.call a) (h : Cov y u) :
    ∃ i j, 1 ≤ i ∧ i < j ∧ tau? y i j = .ok u := by
  have hinj : ∀ {x p v : Int}, y.call p = v → x ≠ v → y.call x ≠ p := by
    intro x p v h1 h2 h3
    apply h2
    rw [← h1, ← h3, hy]
  cases h with
  | side a b c d ha hab hbc hcd ya yc ua ub uc ho =>
    have yb : y.call b = a := by rw [← ya, hy]
    have yd : y.call d = c := by rw [← yc, hy]
    have ud : u.call d = a := by rw [← ua, hu]
    have hoff : ∀ x : Int, 0 < x → x ≠ a → x ≠ b → x ≠ c → x ≠ d → ∀ p q : Nat, (p = a ∨ p = b ∨ p = c ∨ p = d) →
        (q = a ∨ q = b ∨ q = c ∨ q = d) → u.call x = tFun p q (y.call x) := by
      intro x h0 h1 h2 h3 h4 p q hp hq
      have g1 := hinj ya h2
      have g2 := hinj yb h1
      have g3 := hinj yc h4
      have g4 := hinj yd h3
      rw [ho x h0 h1 h2 h3 h4, tFun_of (hpos x h0)]
      · rcases hp with rfl | rfl | rfl | rfl <;> assumption
      · rcases hq with rfl | rfl | rfl | rfl <;> assumption
    rcases Nat.lt_or_ge a b with h1 | h1
    · rcases Nat.lt_or_ge c d with h2 | h2
      · refine ⟨a, d, ha, by omega, ?_⟩
        unfold tau?
        rw [if_pos ⟨ha, by omega⟩, ya, yd]
        dsimp only
        rw [if_neg (by omega), if_neg (by omega), if_neg (by omega), if_neg (by omega), if_pos (by omega), if_neg (by omega),
          (tauT_nat ha (q := d) (by omega)).1, (tauT_nat ha h1).1, (tauT_nat (p := c) (q := d) (by omega) h2).2]
        refine congrArg _ (Eq.symm ?_)
        obtain ⟨e1, e2, e3, e4, e5⟩ := nest_value hy hpos ha h1 hbc h2 ya yc
        change u = Verif.Perm.nest y a b c d
        refine ext_pos (fun x hx => ?_)
        by_cases n1 : x = a
        · rw [n1, e1, ua]
        by_cases n2 : x = b
        · rw [n2, e2, ub h1]
        by_cases n3 : x = c
        · rw [n3, e3, uc h2]
        by_cases n4 : x = d
        · rw [n4, e4, ud]
        rw [(e5 x hx n1 n2 n3 n4).1, ho x hx n1 n2 n3 n4]
      · obtain rfl : c = d := by omega
        refine ⟨b, c, by omega, by omega, ?_⟩
        unfold tau?
        rw [if_pos ⟨by omega, by omega⟩, yb, yc]
        dsimp only
        rw [if_pos (by omega), (tauT_nat (p := b) (q := c) (by omega) (by omega)).1]
        refine congrArg _ (Eq.symm (eq_conjT (by omega) (by omega) ?_ ?_ (fun x h0 h1' h2' => ?_)))
        · rw [ub h1, yc, tFun_right]
        · rw [ud, yb, tFun_of (by omega) (by omega) (by omega)]
        · by_cases n : x = a
          · rw [n, ua, ya, tFun_left]
          · exact hoff x h0 n h1' h2' h2' _ _ (by simp) (by simp)
    · obtain rfl : a = b := by omega
      rcases Nat.lt_or_ge c d with h2 | h2
      · refine ⟨a, c, by omega, by omega, ?_⟩
        unfold tau?
        rw [if_pos ⟨by omega, by omega⟩, ya, yc]
        dsimp only
        rw [if_pos (by omega), (tauT_nat (p := a) (q := c) (by omega) (by omega)).1]
        refine congrArg _ (Eq.symm (eq_conjT (by omega) (by omega) ?_ ?_ (fun x h0 h1' h2' => ?_)))
        · rw [ua, yc, tFun_of (by omega) (by omega) (by omega)]
        · rw [uc h2, ya, tFun_left]
        · by_cases n : x = d
          · rw [n, ud, yd, tFun_right]
          · exact hoff x h0 h1' h1' h2' n _ _ (by simp) (by simp)
      · obtain rfl : c = d := by omega
        refine ⟨a, c, by omega, by omega, ?_⟩
        unfold tau?
        rw [if_pos ⟨by omega, by omega⟩, ya, yc]
        dsimp only
        rw [if_neg (by omega), if_neg (by omega), if_neg (by omega), if_neg (by omega), if_neg (by omega), if_neg (by omega),
          if_neg (by omega), if_pos (by omega), (tauT_nat (p := a) (q := c) (by omega) (by omega)).1]
        refine congrArg _ (ext_pos (fun x hx => ?_))
        rw [call_mul, call_reflectionT (by omega) (by omega)]
        by_cases n1 : x = a
        · rw [n1, ua, ya, tFun_left]
        by_cases n2 : x = c
        · rw [n2, ud, yc, tFun_right]
        exact (hoff x hx n1 n1 n2 n2 _ _ (by simp) (by simp)).symm
  | cross a b c d ha hab hbc hcd ya yc ua ub ho =>
    have yb : y.call b = a := by rw [← ya, hy]
    have yd : y.call d = c := by rw [← yc, hy]
    have ud : u.call d = b := by rw [← ub, hu]
    have uc : u.call c = a := by rw [← ua, hu]
    refine ⟨b, c, by omega, by omega, ?_⟩
    unfold tau?
    rw [if_pos ⟨by omega, by omega⟩, yb, yc]
    dsimp only
    rw [if_pos (by omega), (tauT_nat (p := b) (q := c) (by omega) (by omega)).1]
    refine congrArg _ (Eq.symm (eq_conjT (by omega) (by omega) ?_ ?_ (fun x h0 h1' h2' => ?_)))
    · rw [ub, yc, tFun_of (by omega) (by omega) (by omega)]
    · rw [uc, yb, tFun_of (by omega) (by omega) (by omega)]
    · by_cases n1 : x = a
      · rw [n1, ua, ya, tFun_left]
      by_cases n2 : x = d
      · rw [n2, ud, yd, tFun_right]
      rw [ho x h0 n1 h1' h2' n2, tFun_of (hpos x h0) (hinj yb n1) (hinj yc n2)]
  | nest a b c d ha hab hbc hcd ya yb ua ub ho =>
    have yc : y.call c = a := by rw [← ya, hy]
    have yd : y.call d = b := by rw [← yb, hy]
    have ud : u.call d = a := by rw [← ua, hu]
    have uc : u.call c = b := by rw [← ub, hu]
    refine ⟨a, b, by omega, by omega, ?_⟩
    unfold tau?
    rw [if_pos ⟨by omega, by omega⟩, ya, yb]
    dsimp only
    rw [if_pos (by omega), (tauT_nat (p := a) (q := b) (by omega) (by omega)).1]
    refine congrArg _ (Eq.symm (eq_conjT (by omega) (by omega) ?_ ?_ (fun x h0 h1' h2' => ?_)))
    · rw [ua, yb, tFun_of (by omega) (by omega) (by omega)]
    · rw [ub, ya, tFun_of (by omega) (by omega) (by omega)]
    · by_cases n1 : x = c
      · rw [n1, uc, yc, tFun_left]
      by_cases n2 : x = d
      · rw [n2, ud, yd, tFun_right]
      rw [ho x h0 h1' h2' n1 n2, tFun_of (hpos x h0) (hinj ya n1) (hinj yb n2)]

theorem Cov.le {y u : SPerm} (hy : Invol y) (hu : Invol u) (hpos : ∀ a : Int, 0 < a → 0 < y.call a) (h : Cov y u) : BruhatLE y u := by
  obtain ⟨i, j, hi, hij, ht⟩ := h.tau hy hu hpos
  obtain ⟨z, h1, h2⟩ := tau_case hy hpos hi hij
  rw [ht] at h1
  cases h1
  exact (tau_up hy hpos hi hij h2).2.2

end Verif.Perm
