import Verif.Model.Boxes
import Verif.Props.Vector
import Mathlib.Data.List.GetD

/-! # C41: box operators -/

namespace Verif.Boxes

open Verif Verif.Vec

attribute [-simp] List.getD_eq_getElem?_getD

variable {R : Type*} [CommRing R] [DecidableEq R]

/-- Specification: no two adjacent letters have the same absolute value. -/
def NoRepeat (l : List Int) : Prop := l.IsChain (fun x y => x.natAbs ≠ y.natAbs)

instance (l : List Int) : Decidable (NoRepeat l) := by unfold NoRepeat; infer_instance

/-- Specification: the product of two words. -/
noncomputable def wordMul (R : Type*) [CommRing R] (a b : Key) : Key →₀ R :=
  if NoRepeat (a.2 ++ b.2) then Finsupp.single (a.1 + b.1, a.2 ++ b.2) 1 else 0

theorem noRepeat_iff (l : List Int) :
    NoRepeat l ↔ ∀ i < l.length - 1, (l.getD i 0).natAbs ≠ (l.getD (i + 1) 0).natAbs := by
  rw [NoRepeat, List.isChain_iff_getElem]
  constructor
  · intro h i hi
    have := h i (by omega)
    rwa [List.getD_eq_getElem _ _ (by omega), List.getD_eq_getElem _ _ (by omega)]
  · intro h i hi
    have := h i (by omega)
    rwa [List.getD_eq_getElem _ _ (by omega), List.getD_eq_getElem _ _ (by omega)] at this

omit [DecidableEq R] in
/-- C41: `box_operator_relations`. -/
theorem C41_relations (tup : List Int) : relations R tup = if NoRepeat tup then [(tup, 1)] else [] := by
  unfold relations
  by_cases h : NoRepeat tup
  · rw [if_pos h]
    rw [noRepeat_iff] at h
    rw [if_neg, if_neg]
    · simp only [List.any_eq_true, List.mem_range, Bool.and_eq_true, beq_iff_eq, not_exists, not_and]
      intro i hi he
      have := h i hi
      omega
    · simp only [List.any_eq_true, List.mem_range, beq_iff_eq, not_exists, not_and]
      intro i hi he
      have := h i hi
      omega
  · rw [if_neg h]
    rw [noRepeat_iff] at h
    push Not at h
    obtain ⟨i, hi, he⟩ := h
    split
    · rfl
    · rename_i h1
      rw [if_pos]
      simp only [List.any_eq_true, List.mem_range, beq_iff_eq, not_exists, not_and, Bool.and_eq_true, decide_eq_true_eq] at h1 ⊢
      have := h1 i hi
      exact ⟨i, hi, by omega, by omega⟩

omit [DecidableEq R] in
theorem ofTerms_multiplier (a b : Key) : FreeMod.ofTerms (multiplier (R := R) a b) = wordMul R a b := by
  rw [multiplier, C41_relations, wordMul]
  split <;> simp [FreeMod.ofTerms]

theorem mult_of_isBoxOp {u : BoxOp R} (h : IsBoxOp u) : u.multiplier = some multiplier := by
  induction h with
  | box h =>
    unfold box at h
    split at h
    · cases h; rfl
    · cases h
  | empty => rfl
  | smul x _ ih => exact ih
  | add _ _ ih1 ih2 =>
    unfold add Vec.add
    split
    · exact ih1
    · simp [mk', ih1]
  | sub _ _ ih1 ih2 =>
    unfold sub Vec.sub
    split
    · exact ih1
    · simp [mk', ih1]
  | mul _ _ ih1 ih2 => simp [mul, mult_mul, ih1]

theorem noZero_of_isBoxOp {u : BoxOp R} (h : IsBoxOp u) : NoZero u := by
  induction h with
  | box h =>
    unfold box at h
    split at h
    · cases h; exact noZero_mk' _ _
    · cases h
  | empty => exact noZero_mk' _ _
  | smul x _ ih => exact noZero_mk' _ _
  | add _ _ ih1 ih2 => exact noZero_add ih1
  | sub _ _ ih1 ih2 => exact noZero_sub ih1
  | mul _ _ ih1 ih2 => exact noZero_mk' _ _

/-- C41: the product is the bilinear extension of concatenation in which words with adjacent letters of equal absolute
value are 0 and the powers of beta add. (`den u` is the linear combination with coefficients `u.get k`.) -/
theorem C41_mul {u v : BoxOp R} (hu : IsBoxOp u) :
    (mul u v).den = FreeMod.bil (wordMul R) u.den v.den ∧ ∀ k, u.den k = u.get k := by
  refine ⟨?_, den_apply u⟩
  rw [mul, den_mul, mult_of_isBoxOp hu]
  have : (fun a b => FreeMod.ofTerms (terms (fun a _ => a) (some multiplier) a b)) = wordMul R := by
    funext a b
    exact ofTerms_multiplier a b
  rw [this]

omit [DecidableEq R] in
theorem wordMul_assoc : FreeMod.Assoc (wordMul R) := by
  intro a b c
  rw [FreeMod.bil_single, FreeMod.bil_single, mul_one, one_smul, one_smul]
  have h1 : FreeMod.bil (wordMul R) (wordMul R a b) (Finsupp.single c 1) =
      if NoRepeat (a.2 ++ (b.2 ++ c.2)) then Finsupp.single (a.1 + (b.1 + c.1), a.2 ++ (b.2 ++ c.2)) 1 else 0 := by
    rw [wordMul]
    split
    · rw [FreeMod.bil_single, mul_one, one_smul, wordMul]
      simp only [List.append_assoc, add_assoc]
    · rename_i h
      rw [FreeMod.bil_zero_left, if_neg]
      intro hc
      rw [NoRepeat, ← List.append_assoc] at hc
      exact h (List.isChain_append.1 hc).1
  have h2 : FreeMod.bil (wordMul R) (Finsupp.single a 1) (wordMul R b c) =
      if NoRepeat (a.2 ++ (b.2 ++ c.2)) then Finsupp.single (a.1 + (b.1 + c.1), a.2 ++ (b.2 ++ c.2)) 1 else 0 := by
    rw [wordMul]
    split
    · rw [FreeMod.bil_single, mul_one, one_smul, wordMul]
    · rename_i h
      rw [FreeMod.bil_zero_right, if_neg]
      intro hc
      exact h (List.isChain_append.1 hc).2.1
  rw [h1, h2]

theorem eq_iff_den {u v : BoxOp R} (hu : IsBoxOp u) : eq u v = true ↔ u.den = v.den := by
  rw [eq, C11_eq_iff _ _ (noZero_of_isBoxOp hu)]
  constructor
  · intro h; ext k; rw [den_apply, den_apply, h]
  · intro h k; rw [← den_apply, ← den_apply, h]

/-- C41: `(u * v) * w == u * (v * w)`. -/
theorem C41_assoc {u v w : BoxOp R} (hu : IsBoxOp u) (hv : IsBoxOp v) (hw : IsBoxOp w) :
    eq (mul (mul u v) w) (mul u (mul v w)) = true := by
  rw [eq_iff_den (.mul (.mul hu hv) hw), (C41_mul (.mul hu hv)).1, (C41_mul hu).1, (C41_mul hu).1, (C41_mul hv).1]
  exact wordMul_assoc.all _ _ _

theorem den_add (u v : BoxOp R) : (add u v).den = u.den + v.den := by
  ext k; rw [den_apply, add, get_add, Finsupp.add_apply, den_apply, den_apply]

/-- C41: the distributive laws. -/
theorem C41_distrib {u v w : BoxOp R} (hu : IsBoxOp u) (hv : IsBoxOp v) (hw : IsBoxOp w) :
    eq (mul (add u v) w) (add (mul u w) (mul v w)) = true ∧ eq (mul u (add v w)) (add (mul u v) (mul u w)) = true := by
  constructor
  · rw [eq_iff_den (.mul (.add hu hv) hw), (C41_mul (.add hu hv)).1, den_add, den_add, (C41_mul hu).1, (C41_mul hv).1,
      FreeMod.bil_add_left]
  · rw [eq_iff_den (.mul hu (.add hv hw)), (C41_mul hu).1, den_add, den_add, (C41_mul hu).1, (C41_mul hu).1,
      FreeMod.bil_add_right]

/-- C41: coefficients of sums, differences, negatives and scalar multiples. -/
theorem C41_linear (u v : BoxOp R) (x : R) (k : Key) : (add u v).get k = u.get k + v.get k ∧
    (sub u v).get k = u.get k - v.get k ∧ (neg u).get k = -u.get k ∧ (smul u x).get k = u.get k * x := by
  refine ⟨get_add .., get_sub .., ?_, get_smul ..⟩
  rw [neg, get_sub, scalar, smul, get_smul]; ring

theorem den_box {b : Int} {l : List Int} (hb : 0 ≤ b) : ∃ u : BoxOp R, box R b l = some u ∧ u.den = Finsupp.single (b, l) 1 := by
  unfold box
  rw [if_pos hb]
  refine ⟨_, rfl, ?_⟩
  ext k
  rw [den_apply, get_mk', Dict.getD_set, Finsupp.single_apply]
  simp

theorem den_one : (one R).den = Finsupp.single (0, []) 1 := by
  obtain ⟨u, h1, h2⟩ := den_box (R := R) (b := 0) (l := []) le_rfl
  rw [one, h1]; exact h2

theorem isBoxOp_one : IsBoxOp (one R) := by
  obtain ⟨u, h1, h2⟩ := den_box (R := R) (b := 0) (l := []) le_rfl
  rw [one, h1]; exact .box h1

/-- C41: the product of two words. -/
theorem C41_words {a b : Int} {l m : List Int} {u v : BoxOp R} (hu : box R a l = some u) (hv : box R b m = some v)
    (k : Key) : (mul u v).get k = if NoRepeat (l ++ m) ∧ k = (a + b, l ++ m) then 1 else 0 := by
  have ha : 0 ≤ a := by by_contra hc; simp [box, hc] at hu
  have hb : 0 ≤ b := by by_contra hc; simp [box, hc] at hv
  obtain ⟨u', h1, h2⟩ := den_box (R := R) (l := l) ha
  obtain ⟨v', h3, h4⟩ := den_box (R := R) (l := m) hb
  rw [hu] at h1; rw [hv] at h3
  cases h1; cases h3
  rw [← den_apply, (C41_mul (.box hu)).1, h2, h4, FreeMod.bil_single, wordMul]
  by_cases h : NoRepeat (l ++ m)
  · simp only [h, if_true, true_and, one_mul, one_smul, Finsupp.single_apply, eq_comm]
  · simp [h]

/-- C41: `BoxOperator(0)` is a unit for operators whose words have no adjacent repeats. -/
theorem C41_unit {u : BoxOp R} (hu : IsBoxOp u) (hr : ∀ k, u.get k ≠ 0 → NoRepeat k.2) :
    eq (mul (one R) u) u = true ∧ eq (mul u (one R)) u = true := by
  rw [eq_iff_den (.mul isBoxOp_one hu), eq_iff_den (.mul hu isBoxOp_one), (C41_mul isBoxOp_one).1, (C41_mul hu).1, den_one]
  have key : ∀ k ∈ u.den.support, NoRepeat k.2 := fun k hk => hr k (by
    rw [Finsupp.mem_support_iff, den_apply] at hk; exact hk)
  constructor
  · conv_rhs => rw [← Finsupp.sum_single u.den]
    rw [FreeMod.bil, Finsupp.sum_single_index (by simp)]
    refine Finset.sum_congr rfl (fun k hk => ?_)
    dsimp only
    rw [wordMul, List.nil_append, if_pos (key k hk), zero_add, one_mul, Finsupp.smul_single, smul_eq_mul, mul_one]
  · conv_rhs => rw [← Finsupp.sum_single u.den]
    rw [FreeMod.bil]
    refine Finset.sum_congr rfl (fun k hk => ?_)
    dsimp only
    rw [Finsupp.sum_single_index (by simp), wordMul, List.append_nil, if_pos (key k hk), add_zero, mul_one,
      Finsupp.smul_single, smul_eq_mul, mul_one]

/-- C41: every product has only words without adjacent repeats. -/
theorem C41_noRepeat {u v : BoxOp R} (hu : IsBoxOp u) (k : Key) (hk : (mul u v).get k ≠ 0) : NoRepeat k.2 := by
  by_contra hc
  apply hk
  rw [← den_apply, (C41_mul hu).1, FreeMod.bil, Finsupp.sum, Finsupp.finsetSum_apply]
  refine Finset.sum_eq_zero (fun a _ => ?_)
  rw [Finsupp.sum, Finsupp.finsetSum_apply]
  refine Finset.sum_eq_zero (fun b _ => ?_)
  rw [Finsupp.smul_apply, wordMul]
  split
  · rename_i h
    rw [Finsupp.single_apply, if_neg, smul_zero]
    rintro rfl
    exact hc h
  · simp

example : ((mul (add (r ℤ 1) (c ℤ 2)) (add (r ℤ 2) (scalar 3))).dict.items) =
    [((0, [1, 2]), 1), ((0, [1]), 3), ((0, [-2]), 3)] := by decide +kernel

/-- Without the hypothesis of `C41_unit` the unit law fails: `BoxOperator(0) * BoxOperator(0, 1, 1)` is 0. -/
example : ((box ℤ 0 [1, 1]).map (fun u => ((mul (one ℤ) u).dict.items, u.dict.items))) =
    some ([], [((0, [1, 1]), 1)]) := by decide +kernel

end Verif.Boxes
