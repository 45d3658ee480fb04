import Verif.Lemmas.AtomsStep

/-! # Atoms of involutions: the steps with the letter 0, descents -/

namespace Verif.Perm
open Verif.PermSpec
attribute [-simp] List.getD_eq_getElem?_getD
attribute [local irreducible] mul s inverse identity len mod act demazure SPerm.call sFun invStep

variable {x y : SPerm} {T : Int → Int → Prop}

theorem sFun_zero_of (a : Int) : (a = 1 ∧ sFun 0 a = -1) ∨ (a = -1 ∧ sFun 0 a = 1) ∨ (a ≠ 1 ∧ a ≠ -1 ∧ sFun 0 a = a) := by
  unfold sFun
  rw [if_pos rfl]
  repeat' split
  all_goals omega

theorem sFun_zero_one : sFun 0 1 = -1 := by
  rcases sFun_zero_of 1 with h | h | h <;> omega

theorem comm_zero (hy : ∀ a, y.call (y.call a) = a) : mul (s 0) y = mul y (s 0) ↔ y.call 1 = 1 ∨ y.call 1 = -1 := by
  rw [comm_iff_call]
  have hn := (call_odd y).neg 1
  constructor
  · intro h
    have h1 := h 1
    rcases sFun_zero_of (y.call 1) with ⟨e, e'⟩ | ⟨e, e'⟩ | ⟨e1, e2, e'⟩
    · exact .inl e
    · exact .inr e
    · rw [e', sFun_zero_one, hn] at h1
      have := invol_zero (y := y) (a := 1) (by omega); omega
  · intro h a
    have hya := hy a
    rcases sFun_zero_of a with ⟨f, f'⟩ | ⟨f, f'⟩ | ⟨f1, f2, f'⟩ <;> rw [f'] <;>
    rcases sFun_zero_of (y.call a) with ⟨e, e'⟩ | ⟨e, e'⟩ | ⟨e1, e2, e'⟩ <;> rw [e']
    · subst f; omega
    · subst f; omega
    · subst f; omega
    · subst f; omega
    · subst f; omega
    · subst f; omega
    · rw [e] at hya; omega
    · rw [e] at hya; omega

/-- The values after a step with the letter 0. -/
theorem zero_vals (hy : ∀ a, y.call (y.call a) = a) : (invStep y 0).call 1 = -y.call 1 ∧ (invStep y 0).call (-1) = y.call 1 ∧
    ∀ a, a ≠ 1 → a ≠ -1 → (invStep y 0).call a = sFun 0 (y.call a) ∨
      (y.call a ≠ 1 ∧ y.call a ≠ -1) ∧ (invStep y 0).call a = y.call a := by
  have hn := (call_odd y).neg
  have h1 : (invStep y 0).call 1 = -y.call 1 := by
    unfold invStep
    split
    · rw [call_mul, call_s, sFun_zero_one, hn]
    · rename_i hc
      rw [comm_zero hy] at hc
      rw [call_mul, call_mul, call_s, call_s, sFun_zero_one, hn]
      rcases sFun_zero_of (-y.call 1) with ⟨e, e'⟩ | ⟨e, e'⟩ | ⟨e1, e2, e'⟩ <;> omega
  refine ⟨h1, by rw [(call_odd _).neg, h1, neg_neg], fun a a1 a2 => ?_⟩
  have e : sFun 0 a = a := by rcases sFun_zero_of a with ⟨f, f'⟩ | ⟨f, f'⟩ | ⟨f1, f2, f'⟩ <;> omega
  unfold invStep
  split
  · rename_i hc
    rw [comm_zero hy] at hc
    right
    refine ⟨⟨fun e => ?_, fun e => ?_⟩, by rw [call_mul, call_s, e]⟩
    · have := hy a; rw [e] at this; omega
    · have := hy a; rw [e, hn] at this; omega
  · left; rw [call_mul, call_mul, call_s, call_s, e]

theorem GM.zero (h : GM x y T) (hy : ∀ a, y.call (y.call a) = a) {e : Int} (he : e = 1 ∨ e = -1) (h1 : 0 < y.call e)
    (h2 : ∀ b, ¬ T 1 b) : GM (mul x (s 0)) (invStep y 0) T := by
  have hn := (call_odd y).neg
  have n1 := hn 1
  obtain ⟨z1, z2, z3⟩ := zero_vals hy
  have hm : IsEnd y T e := by
    refine ⟨⟨by omega, ?_, ?_⟩, fun b hb => ?_⟩
    · omega
    · omega
    · have := h.mat.neg _ _ hb
      have : -e = 1 := by omega
      rw [this] at hb
      exact h2 b hb
  have hse : sFun 0 (-e) = e := by
    rcases sFun_zero_of (-e) with ⟨f, f'⟩ | ⟨f, f'⟩ | ⟨f1, f2, f'⟩ <;> omega
  have ze : (invStep y 0).call (-e) = y.call e := by
    rcases he with rfl | rfl
    · exact z2
    · rw [show -(-1 : Int) = 1 from rfl, z1]; omega
  have ze' : (invStep y 0).call e = -y.call e := by
    have := (call_odd (invStep y 0)).neg e; omega
  have hcls : ∀ a, a = e ∨ a = -e ∨ (a ≠ 1 ∧ a ≠ -1) := by intro a; omega
  have q : ∀ a, IsEnd (invStep y 0) T a → a = -e ∨ (a ≠ e ∧ a ≠ -e ∧ sFun 0 a = a ∧ IsEnd y T a) := by
    rintro a ⟨⟨m0, m1, m2⟩, m3⟩
    rcases hcls a with f | f | ⟨f1, f2⟩
    · subst f; omega
    · exact .inl f
    · have f' : sFun 0 a = a := by rcases sFun_zero_of a with ⟨f, f'⟩ | ⟨f, f'⟩ | ⟨f1, f2, f'⟩ <;> omega
      refine .inr ⟨by omega, by omega, f', ⟨m0, ?_⟩, m3⟩
      rcases z3 a f1 f2 with e | ⟨_, e⟩
      · rw [e] at m1 m2
        rcases sFun_zero_of (y.call a) with ⟨f, f'⟩ | ⟨f, f'⟩ | ⟨f1, f2, f'⟩ <;> omega
      · omega
  have ht : ∀ a b, T a b → 1 < a := by
    intro a b hab
    have := (h.mat.neg _ _ hab).1
    rcases Int.lt_or_eq_of_le (show 1 ≤ a by omega) with h | h
    · exact h
    · subst h; exact absurd hab (h2 b)
  have hsp : ∀ a : Int, 1 < a → sFun 0 a = a := fun a ha => by
    rcases sFun_zero_of a with ⟨f, f'⟩ | ⟨f, f'⟩ | ⟨f1, f2, f'⟩ <;> omega
  refine ⟨h.mat.congr 1 ht (fun c hc => ?_), fun a ha => ?_, fun a ha hb => ?_, fun a b hab => ?_, fun a b ha hb hab => ?_⟩
  · rcases z3 c (by omega) (by omega) with e | ⟨_, e⟩
    · rw [e]
      rcases sFun_zero_of (y.call c) with ⟨f, f'⟩ | ⟨f, f'⟩ | ⟨f1, f2, f'⟩ <;> omega
    · rw [e]
  · rw [call_mul, call_s]
    rcases q a ha with f | ⟨_, _, e', e⟩
    · rw [f, hse]; exact h.pos _ hm
    · rw [e']; exact h.pos a e
  · rcases hcls a with f | f | ⟨f1, f2⟩
    · subst f; omega
    · subst f
      rw [ze] at ha hb ⊢
      rw [call_mul, call_mul, call_s, call_s, hse, hsp _ (by omega)]
      exact h.block e (by omega) (by omega)
    · have f' : sFun 0 a = a := by rcases sFun_zero_of a with ⟨f, f'⟩ | ⟨f, f'⟩ | ⟨f1, f2, f'⟩ <;> omega
      have hz : a = 0 → y.call a = 0 := fun h => by rw [h, (call_odd y).zero]
      rcases z3 a f1 f2 with e | ⟨⟨g1, g2⟩, e⟩
      · rw [e] at ha hb
        rw [call_mul, call_mul, call_s, call_s, f', e, sFun_sFun]
        rcases sFun_zero_of (y.call a) with ⟨g, g'⟩ | ⟨g, g'⟩ | ⟨g1, g2, g'⟩
        · omega
        · omega
        · exact h.block a (by omega) (by omega)
      · rw [e] at ha hb
        have g' : sFun 0 (y.call a) = y.call a := by
          rcases sFun_zero_of (y.call a) with ⟨g, g'⟩ | ⟨g, g'⟩ | ⟨g1, g2, g'⟩ <;> omega
        rw [call_mul, call_mul, call_s, call_s, f', e, g']
        exact h.block a ha hb
  · have h3 := ht _ _ hab
    have h4 := h.mat.neg _ _ hab
    rw [call_mul, call_mul, call_s, call_s, (sFun_odd 0).neg, hsp a h3, hsp b (by omega)]
    exact h.tblock _ _ hab
  · rw [call_mul, call_mul, call_s, call_s]
    rcases q a ha with e | ⟨e1, e2, e', e⟩ <;> rcases q b hb with f | ⟨f1, f2, f', f⟩
    · omega
    · rw [e, hse, f']; have := f.1.1; exact h.order _ _ hm f (by omega)
    · rw [f, hse, e']; have := e.1.1; exact h.order _ _ e hm (by omega)
    · rw [e', f']; exact h.order _ _ e f hab

end Verif.Perm
