import Verif.Lemmas.Transitions

/-! # The covering relations of the Bruhat order on unsigned involutions -/

namespace Verif.Perm
open Verif.PermSpec
attribute [-simp] List.getD_eq_getElem?_getD
attribute [local irreducible] mul s inverse identity len mod act SPerm.call sFun invStep

/-- The three kinds of covering relations: two cycles or fixed points side by side become one cycle around fixed points; two cycles side
by side become two that cross; two that cross become nested. -/
inductive Cov (y u : SPerm) : Prop where
  | side (a b c d : Nat) (ha : 1 ≤ a) (hab : a ≤ b) (hbc : b < c) (hcd : c ≤ d) (ya : y.call a = b) (yc : y.call c = d) (ua : u.call a = d)
      (ub : a < b → u.call b = b) (uc : c < d → u.call c = c)
      (ho : ∀ x : Int, 0 < x → x ≠ a → x ≠ b → x ≠ c → x ≠ d → u.call x = y.call x) : Cov y u
  | cross (a b c d : Nat) (ha : 1 ≤ a) (hab : a < b) (hbc : b < c) (hcd : c < d) (ya : y.call a = b) (yc : y.call c = d) (ua : u.call a = c)
      (ub : u.call b = d) (ho : ∀ x : Int, 0 < x → x ≠ a → x ≠ b → x ≠ c → x ≠ d → u.call x = y.call x) : Cov y u
  | nest (a b c d : Nat) (ha : 1 ≤ a) (hab : a < b) (hbc : b < c) (hcd : c < d) (ya : y.call a = c) (yb : y.call b = d) (ua : u.call a = d)
      (ub : u.call b = c) (ho : ∀ x : Int, 0 < x → x ≠ a → x ≠ b → x ≠ c → x ≠ d → u.call x = y.call x) : Cov y u

/-- The neighbouring numbers `k` and `k + 1` exchanged. -/
def sn (k p : Nat) : Nat := if p = k then k + 1 else if p = k + 1 then k else p

theorem tFun_sn {k : Nat} (hk : 1 ≤ k) (p : Nat) : tFun k (k + 1) p = sn k p := by
  unfold tFun sn; (repeat' split) <;> omega

theorem sn_sn (k p : Nat) : sn k (sn k p) = p := by
  unfold sn; (repeat' split) <;> omega

theorem sn_pos {k p : Nat} (hk : 1 ≤ k) (hp : 1 ≤ p) : 1 ≤ sn k p := by
  unfold sn; (repeat' split) <;> omega

theorem sn_lt {k p q : Nat} (h : p < q) (hn : ¬ (p = k ∧ q = k + 1)) : sn k p < sn k q := by
  unfold sn; (repeat' split) <;> omega

theorem sn_le {k p q : Nat} (h : p ≤ q) (hn : ¬ (p = k ∧ q = k + 1)) : sn k p ≤ sn k q := by
  unfold sn; (repeat' split) <;> omega

theorem sn_lt_of {k p q : Nat} (h : sn k p < sn k q) (hn : p ≤ q) : p < q := by
  rcases Nat.lt_or_ge p q with h1 | h1
  · exact h1
  · rw [show p = q by omega] at h; omega

theorem s_eq {k : Nat} (hk : 1 ≤ k) : s k = reflectionT k (k + 1) := by
  refine ext_call (fun x => ?_)
  rw [call_s, call_reflectionT hk (by omega)]
  with_unfolding_all (unfold sFun tFun)
  rw [if_neg (by omega)]
  push_cast
  rfl

/-- Raising an unsigned involution. -/
theorem raise_call {x : SPerm} (hpos : ∀ a : Int, 0 < a → 0 < x.call a) {k : Nat} (hk : 1 ≤ k)
    (hd : x.call k < x.call (k + 1 : Nat)) :
    (x.call k = k ∧ x.call (k + 1 : Nat) = (k + 1 : Nat) → ∀ v, (invStep x k).call v = x.call (tFun k (k + 1) v)) ∧
    (¬ (x.call k = k ∧ x.call (k + 1 : Nat) = (k + 1 : Nat)) → invStep x k = conjT x k (k + 1)) := by
  have hlo : lo k = k := by unfold lo; rw [if_neg (by omega)]
  have hnd : ¬ Desc x.call k := by
    rw [Desc, hlo]
    push_cast at hd
    omega
  have hc := comm_iff hnd
  rw [hlo] at hc
  have p1 := hpos k (by omega)
  constructor
  · rintro ⟨h1, h2⟩ v
    push_cast at h2
    with_unfolding_all rw [invStep]
    rw [if_pos (hc.2 (.inl ⟨h1, h2⟩)), s_eq hk, call_mul, call_reflectionT hk (by omega)]
  · intro h
    push_cast at h
    with_unfolding_all rw [invStep]
    rw [if_neg, s_eq hk]
    · rfl
    · intro h'
      rcases hc.1 h' with h3 | ⟨h3, -⟩
      · exact h h3
      · omega

section
variable {x u X U : SPerm} {k : Nat}

/-- Both sides are conjugated, and at most one of `k` and `k + 1` is a point of the relation. -/
theorem Cov.conj_side (hk : 1 ≤ k) {a b c d : Nat} (hx : Invol x) (hu : Invol u) (ha : 1 ≤ a) (hab : a ≤ b) (hbc : b < c) (hcd : c ≤ d) (ya : x.call a = b)
    (yc : x.call c = d) (ua : u.call a = d) (ub : a < b → u.call b = b) (uc : c < d → u.call c = c)
    (ho : ∀ x' : Int, 0 < x' → x' ≠ a → x' ≠ b → x' ≠ c → x' ≠ d → u.call x' = x.call x')
    (hn : ¬ ((k = a ∨ k = b ∨ k = c ∨ k = d) ∧ (k + 1 = a ∨ k + 1 = b ∨ k + 1 = c ∨ k + 1 = d))) :
    Cov (conjT x k (k + 1)) (conjT u k (k + 1)) := by
  have hv : ∀ (w : SPerm) (p q : Nat), w.call p = q → (conjT w k (k + 1)).call (sn k p : Nat) = sn k q := by
    intro w p q h
    rw [conjT_call hk (by omega), tFun_sn hk, sn_sn, h, tFun_sn hk]
  have _ := hx
  have _ := hu
  refine .side (sn k a) (sn k b) (sn k c) (sn k d) (sn_pos hk ha) (sn_le hab (by omega)) (sn_lt hbc (by omega)) (sn_le hcd (by omega))
    (hv _ _ _ ya) (hv _ _ _ yc) (hv _ _ _ ua) (fun h => hv _ _ _ (ub (sn_lt_of h hab))) (fun h => hv _ _ _ (uc (sn_lt_of h hcd)))
    (fun v h0 h1 h2 h3 h4 => ?_)
  obtain ⟨v, rfl⟩ : ∃ m : Nat, v = m := ⟨v.toNat, by omega⟩
  rw [conjT_call hk (by omega), conjT_call hk (by omega), tFun_sn hk]
  have key : ∀ p : Nat, (v : Int) ≠ sn k p → ((sn k v : Nat) : Int) ≠ p := by
    intro p hp he
    apply hp
    have : sn k v = p := by omega
    rw [← this, sn_sn]
  rw [ho _ (by have := sn_pos hk (p := v) (by omega); omega) (key a h1) (key b h2) (key c h3) (key d h4)]

theorem Cov.conj_cross (hk : 1 ≤ k) {a b c d : Nat} (ha : 1 ≤ a) (hab : a < b) (hbc : b < c) (hcd : c < d) (ya : x.call a = b)
    (yc : x.call c = d) (ua : u.call a = c) (ub : u.call b = d)
    (ho : ∀ x' : Int, 0 < x' → x' ≠ a → x' ≠ b → x' ≠ c → x' ≠ d → u.call x' = x.call x')
    (hn : ¬ ((k = a ∨ k = b ∨ k = c ∨ k = d) ∧ (k + 1 = a ∨ k + 1 = b ∨ k + 1 = c ∨ k + 1 = d))) :
    Cov (conjT x k (k + 1)) (conjT u k (k + 1)) := by
  have hv : ∀ (w : SPerm) (p q : Nat), w.call p = q → (conjT w k (k + 1)).call (sn k p : Nat) = sn k q := by
    intro w p q h
    rw [conjT_call hk (by omega), tFun_sn hk, sn_sn, h, tFun_sn hk]
  refine .cross (sn k a) (sn k b) (sn k c) (sn k d) (sn_pos hk ha) (sn_lt hab (by omega)) (sn_lt hbc (by omega)) (sn_lt hcd (by omega))
    (hv _ _ _ ya) (hv _ _ _ yc) (hv _ _ _ ua) (hv _ _ _ ub) (fun v h0 h1 h2 h3 h4 => ?_)
  obtain ⟨v, rfl⟩ : ∃ m : Nat, v = m := ⟨v.toNat, by omega⟩
  rw [conjT_call hk (by omega), conjT_call hk (by omega), tFun_sn hk]
  have key : ∀ p : Nat, (v : Int) ≠ sn k p → ((sn k v : Nat) : Int) ≠ p := by
    intro p hp he
    apply hp
    have : sn k v = p := by omega
    rw [← this, sn_sn]
  rw [ho _ (by have := sn_pos hk (p := v) (by omega); omega) (key a h1) (key b h2) (key c h3) (key d h4)]

theorem Cov.conj_nest (hk : 1 ≤ k) {a b c d : Nat} (ha : 1 ≤ a) (hab : a < b) (hbc : b < c) (hcd : c < d) (ya : x.call a = c)
    (yb : x.call b = d) (ua : u.call a = d) (ub : u.call b = c)
    (ho : ∀ x' : Int, 0 < x' → x' ≠ a → x' ≠ b → x' ≠ c → x' ≠ d → u.call x' = x.call x')
    (hn : ¬ ((k = a ∨ k = b ∨ k = c ∨ k = d) ∧ (k + 1 = a ∨ k + 1 = b ∨ k + 1 = c ∨ k + 1 = d))) :
    Cov (conjT x k (k + 1)) (conjT u k (k + 1)) := by
  have hv : ∀ (w : SPerm) (p q : Nat), w.call p = q → (conjT w k (k + 1)).call (sn k p : Nat) = sn k q := by
    intro w p q h
    rw [conjT_call hk (by omega), tFun_sn hk, sn_sn, h, tFun_sn hk]
  refine .nest (sn k a) (sn k b) (sn k c) (sn k d) (sn_pos hk ha) (sn_lt hab (by omega)) (sn_lt hbc (by omega)) (sn_lt hcd (by omega))
    (hv _ _ _ ya) (hv _ _ _ yb) (hv _ _ _ ua) (hv _ _ _ ub) (fun v h0 h1 h2 h3 h4 => ?_)
  obtain ⟨v, rfl⟩ : ∃ m : Nat, v = m := ⟨v.toNat, by omega⟩
  rw [conjT_call hk (by omega), conjT_call hk (by omega), tFun_sn hk]
  have key : ∀ p : Nat, (v : Int) ≠ sn k p → ((sn k v : Nat) : Int) ≠ p := by
    intro p hp he
    apply hp
    have : sn k v = p := by omega
    rw [← this, sn_sn]
  rw [ho _ (by have := sn_pos hk (p := v) (by omega); omega) (key a h1) (key b h2) (key c h3) (key d h4)]

/-- The values at the points stay. -/
theorem off_values (hk : 1 ≤ k) {a b c d : Nat}
    (ho : ∀ x' : Int, 0 < x' → x' ≠ a → x' ≠ b → x' ≠ c → x' ≠ d → u.call x' = x.call x')
    (hA : ¬ (k = a ∨ k = b ∨ k = c ∨ k = d)) (hB : ¬ (k + 1 = a ∨ k + 1 = b ∨ k + 1 = c ∨ k + 1 = d))
    (hX : ∀ v, X.call v = x.call (tFun k (k + 1) v)) (hU : ∀ v, U.call v = u.call (tFun k (k + 1) v)) :
    (∀ p : Nat, (p = a ∨ p = b ∨ p = c ∨ p = d) → X.call p = x.call p ∧ U.call p = u.call p) ∧
    ∀ x' : Int, 0 < x' → x' ≠ a → x' ≠ b → x' ≠ c → x' ≠ d → U.call x' = X.call x' := by
  constructor
  · intro p hp
    rw [hX, hU, tFun_sn hk, show sn k p = p by unfold sn; (repeat' split) <;> omega]
    exact ⟨rfl, rfl⟩
  · intro v h0 h1 h2 h3 h4
    obtain ⟨v, rfl⟩ : ∃ m : Nat, v = m := ⟨v.toNat, by omega⟩
    rw [hX, hU, tFun_sn hk]
    refine ho _ (by have := sn_pos hk (p := v) (by omega); omega) ?_ ?_ ?_ ?_ <;>
      (unfold sn; (repeat' split) <;> omega)

end

end Verif.Perm
