import Verif.Lemmas.AtomsZero

/-! # Atoms of involutions: descents -/

namespace Verif.Perm
open Verif.PermSpec
attribute [-simp] List.getD_eq_getElem?_getD
attribute [local irreducible] mul s inverse identity len mod act demazure SPerm.call sFun invStep

variable {x y : SPerm} {T : Int → Int → Prop}

theorem Four.comm {i : Nat} {I J K L : Int} (F : Four i I J K L) (hy : ∀ a, y.call (y.call a) = a)
    (h : y.call I = J ∧ y.call J = I ∨ y.call I = I ∧ y.call J = J ∨ y.call I = K ∧ y.call J = L ∨ y.call I = L ∧ y.call J = K) :
    mul (s i) y = mul y (s i) := by
  obtain ⟨hI1, v1, v2, v3, v4⟩ := F.vals
  have hK := F.hK
  have hL := F.hL
  have n1 : y.call K = -y.call I := by rw [hK, (call_odd y).neg]
  have n2 : y.call L = -y.call J := by rw [hL, (call_odd y).neg]
  have e1 : -K = I := by omega
  have e2 : -L = J := by omega
  rw [comm_iff_call]
  intro a
  by_cases h1 : a = I
  · subst h1; rw [v1]; rcases h with ⟨h, h'⟩ | ⟨h, h'⟩ | ⟨h, h'⟩ | ⟨h, h'⟩ <;> rw [h, h'] <;> assumption
  by_cases h2 : a = J
  · subst h2; rw [v2]; rcases h with ⟨h, h'⟩ | ⟨h, h'⟩ | ⟨h, h'⟩ | ⟨h, h'⟩ <;> rw [h, h'] <;> assumption
  by_cases h3 : a = K
  · subst h3; rw [v3, n1, n2]
    rcases h with ⟨h, h'⟩ | ⟨h, h'⟩ | ⟨h, h'⟩ | ⟨h, h'⟩ <;> rw [h, h'] <;> simp only [e1, e2, ← hK, ← hL] <;> assumption
  by_cases h4 : a = L
  · subst h4; rw [v4, n1, n2]
    rcases h with ⟨h, h'⟩ | ⟨h, h'⟩ | ⟨h, h'⟩ | ⟨h, h'⟩ <;> rw [h, h'] <;> simp only [e1, e2, ← hK, ← hL] <;> assumption
  obtain ⟨f1, f2⟩ := F.far hy h h1 h2 h3 h4
  rw [f1, f2]

theorem GM.conj_four (h : GM x y T) (hy : ∀ a, y.call (y.call a) = a) {i : Nat} {I J K L : Int} (F : Four i I J K L)
    (h0 : ¬ (y.call I = K ∧ y.call J = L))
    (h1 : y.call I ≠ J) (h2 : y.call I ≠ L) (h3 : ¬ (IsEnd y T I ∧ IsEnd y T J))
    (h4 : ¬ (IsEnd y T K ∧ IsEnd y T L)) : ∃ T', GM (mul x (s i)) (invStep y i) T' := by
  rw [F.hL, F.hK, F.hJ, F.hI] at *
  exact h.conj_step hy F.hi h0 h1 h2 h3 h4

theorem invStep_comm {i : Nat} (h : mul (s i) y = mul y (s i)) : invStep y i = mul y (s i) := by
  unfold invStep; rw [if_pos h]

theorem GM.down_pos (h : GM x y T) (hy : ∀ a, y.call (y.call a) = a) {i : Nat} {I J K L : Int} (F : Four i I J K L)
    (hd : x.call J < x.call I) : y.call J < y.call I ∧ ∃ T', GM (mul x (s i)) (invStep y i) T' := by
  obtain ⟨hI1, -, -, -, -⟩ := F.vals
  have hJ := F.hJ
  have hK := F.hK
  have hL := F.hL
  have nI : y.call K = -y.call I := by rw [hK, (call_odd y).neg]
  have nJ : y.call L = -y.call J := by rw [hL, (call_odd y).neg]
  have hyI := hy I
  have hyJ := hy J
  rcases h.kind hy (v := I) (by omega) with ⟨a1, a2, a3⟩ | ⟨a1, a2, a3, a4, a5⟩ | ⟨a1, a2, a3, a4, a5⟩ | ⟨b, a1, a2, a3, a4, a5, a6, a7⟩ <;>
  rcases h.kind hy (v := J) (by omega) with ⟨b1, b2, b3⟩ | ⟨b1, b2, b3, b4, b5⟩ | ⟨b1, b2, b3, b4, b5⟩ | ⟨c, b1, b2, b3, b4, b5, b6, b7⟩
  · have := h.order I J a3 b3 (by omega); omega
  · by_cases hc : y.call J = I
    · rw [hc] at hyJ
      refine ⟨by omega, T, ?_⟩
      rw [invStep_comm (F.comm hy (.inl ⟨hyJ, hc⟩))]
      exact h.comm_down hy F hyJ
    · refine ⟨by omega, h.conj_four hy F (by omega) (fun e => ?_) (by omega) (fun e => ?_) (fun e => ?_)⟩
      · rw [e] at hyI; exact hc hyI
      · have := e.2.1.2.1; omega
      · have := e.1.1.2.2; omega
  · refine ⟨by omega, h.conj_four hy F (by omega) (fun e => ?_) (by omega) (fun e => ?_) (fun e => ?_)⟩
    · rw [e] at hyI; omega
    · have := e.2.1.2.1; omega
    · have := e.1.1.2.2; omega
  · refine ⟨by omega, h.conj_four hy F (by omega) (fun e => ?_) (by omega) (fun e => ?_) (fun e => ?_)⟩
    · rw [e] at hyI; omega
    · have := e.2.1.2.1; omega
    · have := e.1.1.2.2; omega
  · have := (h.lt_iff b3 a5).1 (by omega); omega
  · have := (h.lt_iff b5 a5).1 (by omega)
    refine ⟨by omega, h.conj_four hy F (by omega) (by omega) (by omega) (fun e => ?_) (fun e => ?_)⟩
    · have := e.1.1.2.1; omega
    · have := e.1.1.2.2; omega
  · refine ⟨by omega, h.conj_four hy F (by omega) (by omega) (by omega) (fun e => ?_) (fun e => ?_)⟩
    · have := e.1.1.2.1; omega
    · have := e.1.1.2.2; omega
  · refine ⟨by omega, h.conj_four hy F (by omega) (by omega) (by omega) (fun e => ?_) (fun e => ?_)⟩
    · have := e.1.1.2.1; omega
    · have := e.1.1.2.2; omega
  · omega
  · omega
  · have := (h.lt_iff a5 b5).1 (by omega); omega
  · omega
  · have := (h.lt_iff b3 a7).1 (by omega); omega
  · have := (h.lt_iff b5 a7).1 (by omega); omega
  · by_cases hb : b = J
    · subst hb
      refine ⟨by omega, (fun a c => T a c ∧ a ≠ I), ?_⟩
      rw [invStep_comm (F.comm hy (.inr (.inr (.inl ⟨by omega, by omega⟩))))]
      exact h.pair_down hy F a1
    · have hlt : y.call J ≠ -J := fun e => by
        obtain ⟨d, hd, d1, d2⟩ := h.mat.nest _ _ J a1 (by omega) (by omega) e
        rcases hd with hd | hd
        · exact b5.2 d (by rwa [neg_neg])
        · have := h.mat.neg _ _ hd; omega
      refine ⟨by omega, h.conj_four hy F (by omega) (by omega) (by omega) (fun e => ?_) (fun e => ?_)⟩
      · have := e.1.1.2.1; omega
      · exact e.1.2 b (by rw [hK, neg_neg]; exact a1)
  · exfalso
    have := (h.lt_iff b7 a7).1 (by omega)
    have hbJ : b ≠ J := fun e => by
      have := h.mat.uniq _ _ _ _ a1 b1; omega
    obtain ⟨d, hd, d1, d2⟩ := h.mat.nest _ _ J a1 (by omega) (by omega) b3
    rcases hd with hd | hd
    · have := h.mat.uniq _ _ _ _ b1 hd; omega
    · have := h.mat.neg _ _ hd; omega

theorem four_of {i : Nat} (hi : i ≠ 0) : Four i (i : Int) ((i : Int) + 1) (-(i : Int)) (-((i : Int) + 1)) :=
  ⟨by omega, rfl, rfl, rfl, rfl⟩

theorem desc_zero_iff {z : SPerm} : Desc z.call 0 ↔ z.call 1 < 0 := by
  rw [Desc, show lo 0 = -1 from rfl, (call_odd z).neg 1]
  simp only [Nat.cast_zero, zero_add]
  omega

theorem desc_pos_iff {z : SPerm} {i : Nat} (hi : i ≠ 0) : Desc z.call i ↔ z.call ((i : Int) + 1) < z.call i := by
  have hlo : lo i = i := by unfold lo; rw [if_neg hi]
  rw [Desc, hlo]

theorem GM.down (h : GM x y T) (hy : ∀ a, y.call (y.call a) = a) {i : Nat} (hd : Desc x.call i) :
    Desc y.call i ∧ ∃ T', GM (mul x (s i)) (invStep y i) T' := by
  by_cases hi : i = 0
  · subst hi
    rw [desc_zero_iff] at hd ⊢
    have n1 := (call_odd y).neg 1
    rcases h.kind hy (v := 1) (by omega) with ⟨a1, a2, a3⟩ | ⟨a1, a2, a3, a4, a5⟩ | ⟨a1, a2, a3, a4, a5⟩ | ⟨b, a1, a2, a3, a4, a5, a6, a7⟩
    · omega
    · omega
    · exact ⟨by omega, T, h.zero hy (.inr rfl) (by omega) (fun b hb => a5.2 b (by rwa [neg_neg]))⟩
    · omega
  · rw [desc_pos_iff hi] at hd ⊢
    exact h.down_pos hy (four_of hi) hd

/-- The permutation is an atom. -/
theorem GM.atom (h : GM x y T) (hy : ∀ a, y.call (y.call a) = a) : Atom x y := by
  induction hl : len x generalizing x y T with
  | zero =>
    have hx := len_eq_zero.1 hl
    subst hx
    have : y = identity := by
      refine ext_pos (fun v hv => ?_)
      rw [call_identity]
      have hb := h.block v
      simp only [call_identity] at hb
      rcases h.kind hy hv with ⟨a1, a2, a3⟩ | ⟨a1, a2, a3, a4, a5⟩ | ⟨a1, a2, a3, a4, a5⟩ | ⟨b, a1, a2, a3, a4, a5, a6, a7⟩
      · omega
      · simp only [call_identity] at a4; omega
      · simp only [call_identity] at a2; omega
      · simp only [call_identity] at a6; omega
    rw [this]; exact atom_one
  | succ n ih =>
    obtain ⟨i, hi⟩ : ∃ i, Desc x.call i := by
      by_contra hc
      push Not at hc
      rw [eq_identity_of_no_desc hc, len_identity] at hl
      omega
    obtain ⟨h1, T', h2⟩ := h.down hy hi
    have h3 := ih h2 (invStep_involution hy i) (by have := len_mul_s_of_desc hi; omega)
    have h4 := h3.up (not_desc_invStep hy h1)
    rwa [mul_s_s, invStep_invStep] at h4

end Verif.Perm
