import Verif.Model.Atoms
import Verif.Lemmas.LittleInv
import Verif.Lemmas.HeckeActions
import Verif.Props.Involutions

/-! # Atoms of involutions: words, and the minimal atom -/

namespace Verif.Perm
open Verif.PermSpec
attribute [-simp] List.getD_eq_getElem?_getD
attribute [local irreducible] mul s inverse identity len mod act demazure

/-- `x` is the product of a strict involution word of `y`. -/
def Atom (x y : SPerm) : Prop := ∃ a, fromWord a = x ∧ fromInvolutionWord true a = some y

theorem demazure_of_reduced {x : SPerm} {a : List Nat} (h : Reduced x a) : demazure a = x := by
  rw [← demazure_eq]; exact actWord_identity h

theorem fromWord_reverse (a : List Nat) : fromWord a.reverse = inverse (fromWord a) := by
  induction a with
  | nil => rw [List.reverse_nil, fromWord_nil, ← one_mul' (inverse identity), mul_inverse]
  | cons i a ih => rw [List.reverse_cons, fromWord_concat, ih, fromWord_cons, inverse_mul_rev, inverse_s]

theorem Reduced.reverse {x : SPerm} {a : List Nat} (h : Reduced x a) : Reduced (inverse x) a.reverse :=
  ⟨by rw [fromWord_reverse, h.1], by rw [List.length_reverse, len_inverse]; exact h.2⟩

theorem s_mod (i : Nat) (v : SPerm) : mod (s i) v = inverse (act (inverse v) i) := by
  by_cases hd : i ∈ leftDescents v
  · obtain ⟨b, hb⟩ := exists_reduced (mul (s i) v)
    have hr : Reduced v (i :: b) := reduced_cons.2 ⟨hd, hb⟩
    rw [act_of_desc ((mem_leftDescents _ _).1 hd), inverse_inverse, ← demazure_of_reduced hr,
      show i :: b = [i] ++ b from rfl, demazure_append, demazure_singleton, ← mod_assoc, s_idem]
  · obtain ⟨b, hb⟩ := exists_reduced v
    have hd' : ¬ Desc (inverse v).call i := fun h => hd ((mem_leftDescents _ _).2 h)
    have hr : Reduced (mul (s i) v) (i :: b) := by
      refine reduced_cons.2 ⟨?_, by rwa [s_mul_s_mul]⟩
      rw [mem_leftDescents, inverse_s_mul, desc_mul_s]; exact hd'
    rw [act_of_not hd', inverse_mul_rev, inverse_s, inverse_inverse, ← demazure_of_reduced hr,
      show i :: b = [i] ++ b from rfl, demazure_append, demazure_singleton, demazure_of_reduced hb]

theorem demazure_reverse (a : List Nat) : demazure a.reverse = inverse (demazure a) := by
  induction a using List.reverseRecOn with
  | nil => rw [List.reverse_nil, demazure_nil, ← one_mul' (inverse identity), mul_inverse]
  | append_singleton a i ih =>
    rw [List.reverse_append, List.reverse_singleton, demazure_append, demazure_singleton, ih, s_mod, inverse_inverse,
      demazure_concat, mod_s]

theorem atom_reduced {a : List Nat} {y : SPerm} (h : fromInvolutionWord true a = some y) : Reduced (fromWord a) a := by
  obtain ⟨h1, h2⟩ := (C57_strict a y).1 h
  obtain ⟨b, hb⟩ := exists_reduced (demazure a)
  have hr : Reduced (inverse (demazure a)) b.reverse := by
    refine ⟨?_, by rw [List.length_reverse, len_inverse]; exact hb.2⟩
    rw [fromWord_reverse, hb.1]
  have hra : demazure a.reverse = inverse (demazure a) := by
    rw [demazure_reverse]
  have h3 := h2 b (by rw [demazure_append, demazure_of_reduced hb, demazure_of_reduced hr, ← hra, ← demazure_append, h1])
  have h4 : len (demazure a) = b.length := hb.2.symm
  have key : ∀ a : List Nat, len (demazure a) ≤ a.length ∧ (len (demazure a) = a.length → demazure a = fromWord a) := by
    intro a
    induction a using List.reverseRecOn with
    | nil => exact ⟨by rw [demazure_nil, len_identity]; simp, fun _ => by rw [demazure_nil, fromWord_nil]⟩
    | append_singleton a i ih =>
      rw [demazure_concat, mod_s, fromWord_concat, List.length_append, List.length_singleton]
      by_cases hd : Desc (demazure a).call i
      · rw [act_of_desc hd]; exact ⟨by omega, fun h => by omega⟩
      · rw [act_of_not hd, len_mul_s_of_not hd]
        exact ⟨by omega, fun h => by rw [ih.2 (by omega)]⟩
  obtain ⟨k1, k2⟩ := key a
  have := k2 (by omega)
  exact ⟨rfl, by rw [← this]; omega⟩

theorem value_of_atom {a : List Nat} {y : SPerm} (h : fromInvolutionWord true a = some y) :
    y = mod (inverse (fromWord a)) (fromWord a) ∧ ilen2 y = 2 * a.length := by
  have hr := atom_reduced h
  refine ⟨?_, (fromInvolutionWord_true h).2⟩
  rw [(palindrome_spec a).2.2.2 y h, demazure_append, demazure_of_reduced hr, demazure_reverse, demazure_of_reduced hr]

/-- All reduced words of an atom are involution words. -/
theorem atom_any {x y : SPerm} (h : Atom x y) {b : List Nat} (hb : Reduced x b) : fromInvolutionWord true b = some y := by
  obtain ⟨a, rfl, ha⟩ := h
  obtain ⟨h1, h2⟩ := value_of_atom ha
  have hl : b.length = a.length := by rw [hb.2, (atom_reduced ha).2]
  have hv : demazure (b.reverse ++ b) = y := by
    rw [demazure_append, demazure_reverse, demazure_of_reduced hb, h1]
  rw [← hv]
  exact (palindrome_spec b).2.2.1 (by rw [hv, h2, hl])

theorem atom_iff {x y : SPerm} : Atom x y ↔ mod (inverse x) x = y ∧ ilen2 y = 2 * len x := by
  constructor
  · rintro ⟨a, rfl, ha⟩
    obtain ⟨h1, h2⟩ := value_of_atom ha
    exact ⟨h1.symm, by rw [h2, (atom_reduced ha).2]⟩
  · rintro ⟨h1, h2⟩
    obtain ⟨a, ha⟩ := exists_reduced x
    have hv : demazure (a.reverse ++ a) = y := by
      rw [demazure_append, demazure_reverse, demazure_of_reduced ha, h1]
    exact ⟨a, ha.1, by rw [← hv]; exact (palindrome_spec a).2.2.1 (by rw [hv, h2, ha.2])⟩

theorem Atom.invol {x y : SPerm} (h : Atom x y) : ∀ a, y.call (y.call a) = a := by
  obtain ⟨a, _, ha⟩ := h
  exact (fromInvolutionWord_true ha).1

theorem atom_one : Atom identity identity := ⟨[], fromWord_nil, rfl⟩

theorem Atom.one {y : SPerm} (h : Atom identity y) : y = identity := by
  have := atom_any h (reduced_nil.2 rfl)
  exact (Option.some.inj this).symm

theorem Atom.up {x y : SPerm} (h : Atom x y) {i : Nat} (hd : ¬ Desc y.call i) : Atom (mul x (s i)) (invStep y i) := by
  obtain ⟨a, rfl, ha⟩ := h
  refine ⟨a ++ [i], fromWord_concat i a, ?_⟩
  rw [fromInvolutionWord_concat, ha, Option.bind_some, if_neg (fun hc => hd ((mem_rightDescents _ _).1 hc.1))]

theorem Atom.down {x y : SPerm} (h : Atom x y) {i : Nat} (hd : Desc x.call i) :
    ∃ y', Atom (mul x (s i)) y' ∧ ¬ Desc y'.call i ∧ y = invStep y' i := by
  obtain ⟨b, hb⟩ := exists_reduced (mul x (s i))
  have hr : Reduced x (b ++ [i]) := reduced_concat.2 ⟨(mem_rightDescents _ _).2 hd, hb⟩
  have := atom_any h hr
  rw [fromInvolutionWord_concat] at this
  cases hc : fromInvolutionWord true b with
  | none => rw [hc] at this; cases this
  | some v =>
    rw [hc, Option.bind_some] at this
    split at this
    · cases this
    · rename_i hn
      refine ⟨v, ⟨b, hb.1, hc⟩, fun hd => hn ⟨(mem_rightDescents _ _).2 hd, rfl⟩, (Option.some.inj this).symm⟩

end Verif.Perm
