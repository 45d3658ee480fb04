import Verif.Lemmas.AtomsUp

/-! # Atoms of involutions: the relation between words that start with two neighbouring letters -/

namespace Verif.Perm
open Verif.PermSpec
attribute [-simp] List.getD_eq_getElem?_getD
attribute [local irreducible] mul s inverse identity len mod act demazure SPerm.call sFun invStep

theorem involutionWord_congr {a b : List Nat} (h : fromInvolutionWord true a = fromInvolutionWord true b) (c : List Nat) :
    fromInvolutionWord true (a ++ c) = fromInvolutionWord true (b ++ c) := by
  induction c using List.reverseRecOn with
  | nil => simpa using h
  | append_singleton c i ih => rw [← List.append_assoc, ← List.append_assoc, fromInvolutionWord_concat, fromInvolutionWord_concat, ih]

theorem involutionWord_none {a : List Nat} (h : fromInvolutionWord true a = none) (c : List Nat) :
    fromInvolutionWord true (a ++ c) = none := by
  induction c using List.reverseRecOn with
  | nil => simpa using h
  | append_singleton c i ih => rw [← List.append_assoc, fromInvolutionWord_concat, ih]; rfl

theorem not_desc_identity (i : Nat) : ¬ Desc identity.call i := by
  unfold Desc lo; rw [call_identity, call_identity]; split <;> omega

theorem involutionWord_single (i : Nat) : fromInvolutionWord true [i] = some (s i) := by
  have : fromInvolutionWord true ([] ++ [i]) = some (s i) := by
    rw [fromInvolutionWord_concat, show fromInvolutionWord true [] = some identity from rfl, Option.bind_some,
      if_neg (fun h => not_desc_identity i ((mem_rightDescents _ _).1 h.1)), invStep_comm (by rw [one_mul', mul_one']), one_mul']
  exact this

/-- Values of two neighbouring generators. -/
theorem sFun_three {p : Nat} (hp : 1 ≤ p) : sFun p p = p + 1 ∧ sFun p (p + 1) = p ∧ sFun p (p + 2) = p + 2 ∧
    sFun (p + 1) p = p ∧ sFun (p + 1) (p + 1) = p + 2 ∧ sFun (p + 1) (p + 2) = p + 1 := by
  obtain ⟨h1, h2, -, -⟩ := sFun_four hp
  obtain ⟨h3, h4, -, -⟩ := sFun_four (i := p + 1) (by omega)
  push_cast at h3 h4
  refine ⟨h1, h2, ?_, ?_, by rw [h3]; ring, by rw [show (p : Int) + 2 = p + 1 + 1 by ring]; exact h4⟩
  · rcases sFun_of hp ((p : Int) + 2) with ⟨e, e'⟩ | ⟨e, e'⟩ | ⟨e, e'⟩ | ⟨e, e'⟩ | ⟨e1, e2, e3, e4, e'⟩ <;> omega
  · rcases sFun_of (i := p + 1) (by omega) (p : Int) with ⟨e, e'⟩ | ⟨e, e'⟩ | ⟨e, e'⟩ | ⟨e, e'⟩ | ⟨e1, e2, e3, e4, e'⟩ <;> omega

theorem involutionWord_up {p : Nat} (hp : 1 ≤ p) :
    fromInvolutionWord true [p, p + 1] = some (mul (mul (s (p + 1)) (s p)) (s (p + 1))) := by
  obtain ⟨v1, v2, v3, v4, v5, v6⟩ := sFun_three hp
  have : fromInvolutionWord true ([p] ++ [p + 1]) = some (mul (mul (s (p + 1)) (s p)) (s (p + 1))) := by
    rw [fromInvolutionWord_concat, involutionWord_single, Option.bind_some, if_neg, invStep, if_neg]
    · intro h
      have := comm_iff_call.1 h p
      rw [call_s, call_s, v4, v1, v5] at this; omega
    · rintro ⟨h, -⟩
      rw [mem_rightDescents, desc_pos_iff (by omega), call_s, call_s] at h
      push_cast at h
      rw [show (p : Int) + 1 + 1 = p + 2 by ring, v2, v3] at h; omega
  exact this

theorem involutionWord_down {p : Nat} (hp : 1 ≤ p) :
    fromInvolutionWord true [p + 1, p] = some (mul (mul (s p) (s (p + 1))) (s p)) := by
  obtain ⟨v1, v2, v3, v4, v5, v6⟩ := sFun_three hp
  have : fromInvolutionWord true ([p + 1] ++ [p]) = some (mul (mul (s p) (s (p + 1))) (s p)) := by
    rw [fromInvolutionWord_concat, involutionWord_single, Option.bind_some, if_neg, invStep, if_neg]
    · intro h
      have := comm_iff_call.1 h p
      rw [call_s, call_s, v4, v1, v5] at this; omega
    · rintro ⟨h, -⟩
      rw [mem_rightDescents, desc_pos_iff (by omega), call_s, call_s, v4, v5] at h; omega
  exact this

theorem half_braid {p : Nat} (hp : 1 ≤ p) : fromInvolutionWord true [p, p + 1] = fromInvolutionWord true [p + 1, p] := by
  rw [involutionWord_up hp, involutionWord_down hp]
  rw [show mul (mul (s (p + 1)) (s p)) (s (p + 1)) = mul (mul (s p) (s (p + 1))) (s p) from
    ext_call (fun a => by simp [sFun_braid3 hp])]

theorem half_braid_none {p : Nat} (hp : 1 ≤ p) : fromInvolutionWord true [p, p + 1, p] = none := by
  obtain ⟨v1, v2, v3, v4, v5, v6⟩ := sFun_three hp
  have : fromInvolutionWord true ([p, p + 1] ++ [p]) = none := by
    have hd : p ∈ rightDescents (mul (mul (s (p + 1)) (s p)) (s (p + 1))) := by
      rw [mem_rightDescents, desc_pos_iff (by omega)]
      simp only [call_mul, call_s]
      rw [v4, v1, v5, v3, v6]; omega
    rw [fromInvolutionWord_concat, involutionWord_up hp, Option.bind_some, if_pos ⟨hd, rfl⟩]
  exact this

theorem word_two {u : SPerm} {p q : Nat} (h1 : Desc u.call p) (h2 : Desc (mul u (s p)).call q) {w : List Nat}
    (hw : Reduced (inverse (mul (mul u (s p)) (s q))) w) : Reduced (inverse u) (p :: q :: w) := by
  rw [reduced_cons, reduced_cons]
  have e1 : mul (s p) (inverse u) = inverse (mul u (s p)) := by rw [inverse_mul_rev, inverse_s]
  have e2 : mul (s q) (mul (s p) (inverse u)) = inverse (mul (mul u (s p)) (s q)) := by
    rw [inverse_mul_rev, inverse_mul_rev, inverse_s, inverse_s]
  refine ⟨(mem_leftDescents _ _).2 (by rwa [inverse_inverse]), (mem_leftDescents _ _).2 (by rwa [e1, inverse_inverse]), ?_⟩
  rw [e2]; exact hw

theorem Atom.braid {u y : SPerm} (h : Atom (inverse u) y) {p q : Nat}
    (hpq : fromInvolutionWord true [p, q] = fromInvolutionWord true [q, p])
    (h1 : Desc u.call p) (h2 : Desc (mul u (s p)).call q) :
    Atom (inverse (mul (mul (mul (mul u (s p)) (s q)) (s p)) (s q))) y := by
  obtain ⟨w, hw⟩ := exists_reduced (inverse (mul (mul u (s p)) (s q)))
  have h3 := atom_any h (word_two h1 h2 hw)
  refine ⟨q :: p :: w, ?_, ?_⟩
  · rw [fromWord_cons, fromWord_cons, hw.1]
    simp only [inverse_mul_rev, inverse_s]
  · have := involutionWord_congr hpq w
    simp only [List.cons_append, List.nil_append] at this
    rw [← this, h3]

theorem Atom.not_three {u y : SPerm} (h : Atom (inverse u) y) {p : Nat} (hp : 1 ≤ p)
    (h1 : Desc u.call p) (h2 : Desc (mul u (s p)).call (p + 1)) (h3 : Desc (mul (mul u (s p)) (s (p + 1))).call p) : False := by
  obtain ⟨w, hw⟩ := exists_reduced (inverse (mul (mul (mul u (s p)) (s (p + 1))) (s p)))
  have hw' : Reduced (inverse (mul (mul u (s p)) (s (p + 1)))) (p :: w) := by
    rw [reduced_cons]
    refine ⟨(mem_leftDescents _ _).2 (by rwa [inverse_inverse]), ?_⟩
    rw [inverse_mul_rev, inverse_s] at hw; exact hw
  have h4 := atom_any h (word_two h1 h2 hw')
  have h5 := involutionWord_none (half_braid_none hp) w
  simp only [List.cons_append, List.nil_append] at h5
  rw [h5] at h4; cases h4

/-! ### lines -/

theorem isOneline_of_construct {l : List Int} {u : SPerm} (h : construct l = some u) : isOneline l = true := by
  by_contra hc
  rw [construct_eq_none (by simpa using hc)] at h; cases h

theorem isOneline_perm {l l' : List Int} (h : (l.map Int.natAbs).Perm (l'.map Int.natAbs)) (ho : isOneline l = true) : isOneline l' = true := by
  rw [isOneline_iff] at ho ⊢
  have hl : l.length = l'.length := by simpa using h.length_eq
  have hm : ∀ k, (∃ a ∈ l, a.natAbs = k) ↔ ∃ a ∈ l', a.natAbs = k := fun k => by
    have := h.mem_iff (a := k); simpa using this
  refine ⟨fun k hk => (hm _).1 (ho.1 k (by omega)), fun a ha => ?_⟩
  obtain ⟨b, hb, hab⟩ := (hm _).2 ⟨a, ha, rfl⟩
  have := ho.2 b hb; omega

theorem construct_lineCall {l : List Int} {u : SPerm} (h : construct l = some u) (i : Int) : u.call i = lineCall l i := by
  obtain ⟨w, h1, h2⟩ := construct_spec (isOneline_of_construct h)
  rw [h] at h1; cases h1; exact h2 i

theorem lineCall_nat (l : List Int) {k : Nat} (hk : k < l.length) : lineCall l ((k : Int) + 1) = l[k] := by
  rw [lineCall, if_pos (by omega), List.getD_eq_getElem _ _ (by omega)]
  congr 1; omega

theorem lineCall_big (l : List Int) {v : Int} (hk : (l.length : Int) < v) : lineCall l v = v := by
  rw [lineCall, if_neg (by omega), if_neg (by omega)]

theorem construct_swap {A B : List Int} {a b : Int} {u : SPerm} (h : construct (A ++ [a, b] ++ B) = some u) :
    construct (A ++ [b, a] ++ B) = some (mul u (s (A.length + 1))) := by
  have ho := isOneline_of_construct h
  have ho' : isOneline (A ++ [b, a] ++ B) = true := by
    refine isOneline_perm ?_ ho
    refine List.Perm.map _ ?_
    exact ((List.Perm.swap b a []).append_left A).append_right B
  obtain ⟨w, h1, h2⟩ := construct_spec ho'
  rw [h1]
  congr 1
  refine ext_pos (fun v hv => ?_)
  rw [call_mul, call_s, construct_lineCall h, h2]
  obtain ⟨f1, f2, -, -⟩ := sFun_four (i := A.length + 1) (by omega)
  push_cast at f1 f2
  obtain ⟨k, rfl⟩ : ∃ k : Nat, v = (k : Int) + 1 := ⟨(v - 1).toNat, by omega⟩
  have key : ∀ a b : Int, (A ++ [a, b] ++ B).length = A.length + 2 + B.length := by intro a b; simp; omega
  rcases sFun_of (i := A.length + 1) (by omega) ((k : Int) + 1) with ⟨e, e'⟩ | ⟨e, e'⟩ | ⟨e, e'⟩ | ⟨e, e'⟩ | ⟨e1, e2, e3, e4, e'⟩
  · push_cast at e e'
    have hk : k = A.length := by omega
    subst hk
    rw [e', lineCall_nat _ (by rw [key]; omega), show (A.length : Int) + 1 + 1 = ((A.length + 1 : Nat) : Int) + 1 by push_cast; ring,
      lineCall_nat _ (by rw [key]; omega)]
    simp
  · push_cast at e e'
    have hk : k = A.length + 1 := by omega
    subst hk
    rw [e', lineCall_nat _ (by rw [key]; omega), lineCall_nat _ (by rw [key]; omega)]
    simp
  · omega
  · omega
  · push_cast at e1 e2
    rw [e']
    by_cases hk : k < A.length + 2 + B.length
    · rw [lineCall_nat _ (by rw [key]; omega), lineCall_nat _ (by rw [key]; omega)]
      rcases Nat.lt_or_ge k A.length with hl | hl
      · simp only [List.append_assoc]
        rw [List.getElem_append_left hl, List.getElem_append_left hl]
      · rw [List.getElem_append_right (by simp; omega), List.getElem_append_right (by simp; omega)]
        simp
    · rw [lineCall_big _ (by rw [key]; omega), lineCall_big _ (by rw [key]; omega)]

/-- The inverse of the permutation with this one-line notation is an atom. -/
def AtomLine (y : SPerm) (l : List Int) : Prop := ∃ u, construct l = some u ∧ Atom (inverse u) y

theorem construct_at {A B : List Int} {a : Int} {u : SPerm} (h : construct (A ++ a :: B) = some u) :
    u.call ((A.length : Int) + 1) = a := by
  rw [construct_lineCall h, lineCall_nat _ (by simp)]; simp

theorem construct_desc {A B : List Int} {a b : Int} {u : SPerm} (h : construct (A ++ [a, b] ++ B) = some u) :
    Desc u.call (A.length + 1) ↔ b < a := by
  rw [desc_pos_iff (by omega)]
  have h1 : u.call ((A.length : Int) + 1) = a := construct_at (B := b :: B) (by simpa using h)
  have h2 : u.call (((A ++ [a]).length : Int) + 1) = b := construct_at (B := B) (by simpa using h)
  simp only [List.length_append, List.length_singleton] at h2
  rw [h2]; push_cast; rw [h1]

theorem AtomLine.first {y : SPerm} {A B : List Int} {a b c : Int} (h : AtomLine y (A ++ [c, a, b] ++ B)) (h1 : a < b) (h2 : b < c) :
    AtomLine y (A ++ [b, c, a] ++ B) := by
  obtain ⟨u, hu, ha⟩ := h
  have u1 : construct (A ++ [a, c] ++ (b :: B)) = some _ := construct_swap (by simpa using hu)
  have u2 : construct ((A ++ [a]) ++ [b, c] ++ B) = some _ := construct_swap (by simpa using u1)
  have u3 : construct (A ++ [b, a] ++ (c :: B)) = some _ := construct_swap (by simpa using u2)
  have u4 : construct ((A ++ [b]) ++ [c, a] ++ B) = some _ := construct_swap (by simpa using u3)
  have d1 := (construct_desc (A := A) (a := c) (b := a) (B := b :: B) (by simpa using hu)).2 (by omega)
  have d2 := (construct_desc (A := A ++ [a]) (a := c) (b := b) (B := B) (by simpa using u1)).2 (by omega)
  simp only [List.length_append, List.length_singleton] at u4 d2
  exact ⟨_, by simpa using u4, ha.braid (half_braid (by omega)) d1 d2⟩

theorem AtomLine.first_rev {y : SPerm} {A B : List Int} {a b c : Int} (h : AtomLine y (A ++ [b, c, a] ++ B)) (h1 : a < b) (h2 : b < c) :
    AtomLine y (A ++ [c, a, b] ++ B) := by
  obtain ⟨u, hu, ha⟩ := h
  have u1 : construct ((A ++ [b]) ++ [a, c] ++ B) = some _ := construct_swap (by simpa using hu)
  have u2 : construct (A ++ [a, b] ++ (c :: B)) = some _ := construct_swap (by simpa using u1)
  have u3 : construct ((A ++ [a]) ++ [c, b] ++ B) = some _ := construct_swap (by simpa using u2)
  have u4 : construct (A ++ [c, a] ++ (b :: B)) = some _ := construct_swap (by simpa using u3)
  have d1 := (construct_desc (A := A ++ [b]) (a := c) (b := a) (B := B) (by simpa using hu)).2 (by omega)
  have d2 := (construct_desc (A := A) (a := b) (b := a) (B := c :: B) (by simpa using u1)).2 (by omega)
  simp only [List.length_append, List.length_singleton] at u4 d1 d2
  exact ⟨_, by simpa using u4, ha.braid (half_braid (by omega)).symm d1 d2⟩

theorem AtomLine.not_three {y : SPerm} {A B : List Int} {a b c : Int} (h : AtomLine y (A ++ [c, b, a] ++ B)) (h1 : a < b) (h2 : b < c) :
    False := by
  obtain ⟨u, hu, ha⟩ := h
  have u1 : construct (A ++ [b, c] ++ (a :: B)) = some _ := construct_swap (by simpa using hu)
  have u2 : construct ((A ++ [b]) ++ [a, c] ++ B) = some _ := construct_swap (by simpa using u1)
  have d1 := (construct_desc (A := A) (a := c) (b := b) (B := a :: B) (by simpa using hu)).2 (by omega)
  have d2 := (construct_desc (A := A ++ [b]) (a := c) (b := a) (B := B) (by simpa using u1)).2 (by omega)
  have d3 := (construct_desc (A := A) (a := b) (b := a) (B := c :: B) (by simpa using u2)).2 (by omega)
  simp only [List.length_append, List.length_singleton] at d2 d3
  exact ha.not_three (by omega) d1 d2 d3

end Verif.Perm
