import Verif.Lemmas.HeckeCount
import Verif.Props.Involutions
import Verif.Lemmas.Fpf

/-!
# Three actions of the 0-Hecke monoid, and the letters of the words of a permutation
-/

attribute [-simp] List.getD_eq_getElem?_getD

namespace Verif.Perm

open Verif.PermSpec

/-! ### right multiplication -/

theorem grel_act : YB.GRel act where
  idem := act_act
  far x _ _ h := act_far h x
  near x _ h := act_near h x
  zero := act_zero_one

theorem demazure_nil : demazure [] = identity := rfl

attribute [local irreducible] mul s inverse identity len mod act demazure

theorem demazure_eq (w : List Nat) : w.foldl act identity = demazure w := by
  induction w using List.reverseRecOn with
  | nil => rw [demazure_nil, List.foldl_nil]
  | append_singleton w i ih => rw [List.foldl_append, ih, demazure_concat, mod_s, List.foldl_cons, List.foldl_nil]

/-! ### twisted conjugation -/

/-- `s_i ∘ x ∘ s_i`. -/
def invAct (x : SPerm) (i : Nat) : SPerm := mod (mod (s i) x) (s i)

theorem s_idem (i : Nat) : mod (s i) (s i) = s i := by
  rw [mod_s]
  have := act_act identity i
  rwa [← mod_s identity, identity_mod] at this

theorem s_far {i j : Nat} (h : i + 2 ≤ j) : mod (s i) (s j) = mod (s j) (s i) := by
  have := act_far h identity
  rw [← mod_s, ← mod_s, ← mod_s, ← mod_s, identity_mod, identity_mod] at this
  exact this

theorem s_near {i : Nat} (h : 1 ≤ i) : mod (mod (s i) (s (i + 1))) (s i) = mod (mod (s (i + 1)) (s i)) (s (i + 1)) := by
  have := act_near h identity
  simp only [← mod_s, identity_mod] at this
  exact this

theorem s_zero : mod (mod (mod (s 0) (s 1)) (s 0)) (s 1) = mod (mod (mod (s 1) (s 0)) (s 1)) (s 0) := by
  have := act_zero_one identity
  simp only [← mod_s, identity_mod] at this
  exact this

theorem invAct_word (x : SPerm) (w : List Nat) : w.foldl invAct x = mod (mod (demazure w.reverse) x) (demazure w) := by
  induction w using List.reverseRecOn with
  | nil =>
    rw [List.foldl_nil, List.reverse_nil, demazure_nil, mod_identity, identity_mod]
  | append_singleton w i ih =>
    rw [List.foldl_append, ih, List.reverse_append, List.reverse_singleton, demazure_append, demazure_append, demazure_singleton]
    simp only [List.foldl_cons, List.foldl_nil, invAct, mod_assoc]

theorem grel_invAct : YB.GRel invAct := by
  have key : ∀ a b : List Nat, demazure a = demazure b → demazure a.reverse = demazure b.reverse →
      ∀ x, a.foldl invAct x = b.foldl invAct x := by
    intro a b h1 h2 x
    rw [invAct_word, invAct_word, h1, h2]
  have d : ∀ a : List Nat, demazure a = a.foldl act identity := fun a => (demazure_eq a).symm
  refine ⟨fun x i => ?_, fun x i j h => ?_, fun x i h => ?_, fun x => ?_⟩
  · refine key [i, i] [i] ?_ ?_ x <;> simp only [d] <;> exact act_act identity i
  · refine key [i, j] [j, i] ?_ ?_ x <;> simp only [d]
    · exact act_far h identity
    · exact (act_far h identity).symm
  · refine key [i, i + 1, i] [i + 1, i, i + 1] ?_ ?_ x <;> simp only [d] <;> exact act_near h identity
  · refine key [0, 1, 0, 1] [1, 0, 1, 0] ?_ ?_ x <;> simp only [d]
    · exact act_zero_one identity
    · exact (act_zero_one identity).symm

theorem invAct_identity (w : List Nat) : w.foldl invAct identity = demazure (w.reverse ++ w) := by
  rw [invAct_word, mod_identity, demazure_append]

/-! ### the letters of a word -/

/-- Some number greater than `M` is mapped to a smaller one. -/
def Drops (M : Nat) (u : SPerm) : Prop := ∃ a : Int, (M : Int) < a ∧ u.call a < a

theorem drops_act {M : Nat} {u : SPerm} (h : Drops M u) (i : Nat) : Drops M (act u i) := by
  by_cases hd : Desc u.call i
  · rw [act_of_desc hd]; exact h
  · rw [act_of_not hd]
    obtain ⟨a, h1, h2⟩ := h
    have hi : lo i = -1 ∧ i = 0 ∨ lo i = i := by unfold lo; split <;> simp_all
    rw [Desc] at hd
    have hneg := (call_odd u).neg
    rcases hi with ⟨hi, rfl⟩ | hi
    · by_cases ha : a = 1
      · subst ha
        refine ⟨1, h1, ?_⟩
        rw [call_mul, call_s, show sFun 0 1 = -1 from rfl, hneg]
        rw [hi, hneg] at hd
        simp at hd
        have := (call_odd u).ne_zero (i := 1) (by omega)
        omega
      · refine ⟨a, h1, ?_⟩
        rw [call_mul, call_s, show sFun 0 a = a by unfold sFun; rw [if_pos rfl, if_neg ha, if_neg (by omega)]]
        exact h2
    · rw [hi] at hd
      have hi1 : 1 ≤ i := by
        rcases Nat.eq_zero_or_pos i with h0 | h0
        · subst h0; exact absurd hi (by decide)
        · exact h0
      by_cases ha : a = i
      · subst ha
        refine ⟨(i : Int) + 1, by omega, ?_⟩
        rw [call_mul, call_s, (sFun_vals hi1).2.1]; omega
      · by_cases ha' : a = i + 1
        · subst ha'
          refine ⟨(i : Int) + 1, by omega, ?_⟩
          rw [call_mul, call_s, (sFun_vals hi1).2.1]; omega
        · refine ⟨a, h1, ?_⟩
          rw [call_mul, call_s, sFun_of_ne (by omega) (by omega) (by omega) (by omega)]; exact h2

theorem fixed_of_not_drops {M : Nat} {u : SPerm} (h : ¬ Drops M u) (a : Int) (ha : (M : Int) < a) : u.call a = a := by
  unfold Drops at h
  push Not at h
  have hle : ∀ k : Nat, ∀ a : Int, (M : Int) < a → (u.rank : Int) - a < k → u.call a = a := by
    intro k
    induction k with
    | zero => intro a ha hk; exact (call_odd u).out a (by omega)
    | succ k ih =>
      intro a ha hk
      have h1 := h a ha
      by_contra hne
      have h2 := ih (u.call a) (by omega) (by omega)
      exact hne ((call_odd u).inj _ _ h2)
  exact hle ((u.rank : Int) - a + 1).toNat a ha (by omega)

theorem drops_act_self (u : SPerm) (i : Nat) : Drops i (act u i) := by
  by_cases h : Drops i u
  · exact drops_act h i
  · have hf := fixed_of_not_drops h
    have h1 := hf ((i : Int) + 1) (by omega)
    have hinj := (call_odd u).inj
    have hle : u.call (lo i) < i + 1 := by
      by_contra hc
      by_cases he : u.call (lo i) = i + 1
      · have := hinj _ _ (he.trans h1.symm)
        unfold lo at this; split at this <;> omega
      · have h2 := hf (u.call (lo i)) (by omega)
        have := hinj _ _ h2
        unfold lo at this hc; split at this <;> simp_all
    have hd : ¬ Desc u.call i := by rw [Desc, h1]; omega
    rw [act_of_not hd]
    refine ⟨(i : Int) + 1, by omega, ?_⟩
    rw [call_mul, call_s]
    have : sFun i ((i : Int) + 1) = lo i := by unfold sFun lo; (repeat' split) <;> omega
    rw [this]; exact hle

theorem drops_foldl {M : Nat} {u : SPerm} (h : Drops M u) (w : List Nat) : Drops M (w.foldl act u) := by
  induction w generalizing u with
  | nil => exact h
  | cons i w ih => exact ih (drops_act h i)

/-- The letters of a word are smaller than the rank of its product. -/
theorem lt_rank_demazure {w : List Nat} {i : Nat} (h : i ∈ w) : i < (demazure w).rank := by
  obtain ⟨a, b, rfl⟩ := List.append_of_mem h
  have hd : Drops i (demazure (a ++ i :: b)) := by
    rw [← demazure_eq, List.foldl_append, List.foldl_cons]
    exact drops_foldl (drops_act_self _ i) b
  obtain ⟨x, h1, h2⟩ := hd
  by_contra hc
  have := (call_odd (demazure (a ++ i :: b))).out x (by omega)
  omega

/-- Some positive number is mapped to a negative one. -/
def HasNeg (u : SPerm) : Prop := ∃ a : Int, 0 < a ∧ u.call a < 0

theorem hasNeg_act {u : SPerm} (h : HasNeg u) (i : Nat) : HasNeg (act u i) := by
  by_cases hd : Desc u.call i
  · rw [act_of_desc hd]; exact h
  · rw [act_of_not hd]
    obtain ⟨a, h1, h2⟩ := h
    rcases Nat.eq_zero_or_pos i with rfl | hi
    · refine ⟨a, h1, ?_⟩
      rw [call_mul, call_s]
      by_cases ha : a = 1
      · subst ha
        exfalso; apply hd
        rw [(desc4 u).1]; exact h2
      · rw [show sFun 0 a = a by unfold sFun; rw [if_pos rfl, if_neg ha, if_neg (by omega)]]; exact h2
    · refine ⟨sFun i a, (sFun_pos hi).2 h1, ?_⟩
      rw [call_mul, call_s, sFun_sFun]; exact h2

theorem hasNeg_act_zero (u : SPerm) : HasNeg (act u 0) := by
  by_cases hd : Desc u.call 0
  · rw [act_of_desc hd]
    exact ⟨1, by omega, (desc4 u).1.1 hd⟩
  · rw [act_of_not hd]
    rw [(desc4 u).1] at hd
    have := (call_odd u).ne_zero (i := 1) (by omega)
    refine ⟨1, by omega, ?_⟩
    rw [call_mul, call_s, show sFun 0 1 = -1 from rfl, (call_odd u).neg]
    omega

theorem hasNeg_foldl {u : SPerm} (h : HasNeg u) (w : List Nat) : HasNeg (w.foldl act u) := by
  induction w generalizing u with
  | nil => exact h
  | cons i w ih => exact ih (hasNeg_act h i)

/-- The words of a permutation without signs do not contain the letter 0. -/
theorem pos_of_demazure_unsigned {w : List Nat} (hu : isUnsigned (demazure w) = true) {i : Nat} (h : i ∈ w) : 1 ≤ i := by
  by_contra hc
  have : i = 0 := by omega
  subst this
  obtain ⟨a, b, rfl⟩ := List.append_of_mem h
  have hd : HasNeg (demazure (a ++ 0 :: b)) := by
    rw [← demazure_eq, List.foldl_append, List.foldl_cons]
    exact hasNeg_foldl (hasNeg_act_zero _) b
  obtain ⟨x, h1, h2⟩ := hd
  have := isUnsigned_iff.1 hu x h1
  omega

end Verif.Perm
