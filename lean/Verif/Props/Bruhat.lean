import Verif.Lemmas.Bruhat
import Verif.Lemmas.Reflections

/-! # C60: Bruhat covers and transitions -/

namespace Verif.Perm

open Verif.PermSpec

/-- C60 (covers): `bruhat_covers` ends, and yields exactly the elements covered by `w` in the Bruhat order, each once. -/
theorem C60_bruhat_covers (w : SPerm) {fuel : Nat} (hf : len w < fuel) :
    ∃ L, bruhatCovers? fuel w = some L ∧ L.Nodup ∧ ∀ v, v ∈ L ↔ BruhatCovers v w := by
  obtain ⟨word, hw, hr⟩ := getReducedWord?_spec fuel w hf
  refine ⟨_, by rw [bruhatCovers?, hw]; rfl, ?_, fun v => ?_⟩
  · refine List.Nodup.filter _ (List.Nodup.map_on (fun i hi j hj h => ?_) List.nodup_range)
    simp only [← List.eraseIdx_eq_take_drop_succ] at h
    rw [List.mem_range] at hi hj
    rcases lt_trichotomy i j with hij | hij | hij
    · exact absurd h (erase_inj hr hij hj)
    · exact hij
    · exact absurd h.symm (erase_inj hr hij hi)
  · rw [bruhatCovers_iff, List.mem_filter, List.mem_map, decide_eq_true_eq]
    simp only [← List.eraseIdx_eq_take_drop_succ, List.mem_range]
    constructor
    · rintro ⟨⟨i, hi, rfl⟩, hl⟩
      have := adj_erase word hi
      rw [hr.1] at this
      exact ⟨this.step (by omega), by omega⟩
    · rintro ⟨h1, h2⟩
      obtain ⟨k, hk, he⟩ := h1.exchange hr.1
      exact ⟨⟨k, hk, he.symm⟩, by omega⟩

/-- The example: the three elements below the longest permutation of four letters. -/
example : (construct [4, 3, 2, 1]).bind (fun w => (bruhatCovers? 10 w).map (fun L => L.map SPerm.oneline)) =
    some [[4, 3, 1, 2], [4, 2, 3, 1], [3, 4, 2, 1]] := by decide +kernel

/-- C60 (order): the length is a rank function of the Bruhat order; a step is a cover exactly when it raises the length by one. -/
theorem C60_graded {v w : SPerm} : BruhatCovers v w ↔ BruhatLE v w ∧ len w = len v + 1 := by
  rw [bruhatCovers_iff]
  constructor
  · rintro ⟨h1, h2⟩; exact ⟨.single h1, by omega⟩
  · rintro ⟨h1, h2⟩
    rcases Relation.ReflTransGen.cases_tail h1 with h | ⟨x, hx, hs⟩
    · rw [h] at h2; omega
    · have a := BruhatLE.len_le hx
      have b := hs.len_lt
      obtain rfl := a.2 (by omega)
      exact ⟨hs, by omega⟩

/-- C60 (reflections): `reflection_t(i, j)` (and `transposition(i, j)`) exchanges `i` with `j`, `reflection_s(i, j)` exchanges
`i` with `-j`; both fix everything else, up to sign. -/
theorem C60_reflections {i j : Nat} (hi : 1 ≤ i) (hj : 1 ≤ j) :
    (∃ t, reflectionT? i j = some t ∧ t.call i = j ∧ t.call j = i ∧ ∀ a : Int, a.natAbs ≠ i → a.natAbs ≠ j → t.call a = a) ∧
    (i ≤ j → ∃ t, reflectionS? i j = some t ∧ t.call i = -j ∧ t.call j = -i ∧ ∀ a : Int, a.natAbs ≠ i → a.natAbs ≠ j → t.call a = a) ∧
    (j < i → reflectionS? i j = none) := by
  refine ⟨?_, fun hij => ?_, fun hij => by rw [reflectionS?, if_neg (by omega)]⟩
  · obtain ⟨w, h, hw⟩ := reflectionT?_spec hi hj
    refine ⟨w, h, ?_, ?_, fun a h1 h2 => ?_⟩ <;> rw [hw] <;> unfold tFun <;> (repeat' split) <;> omega
  · obtain ⟨w, h, hw⟩ := reflectionS?_spec hi hij
    refine ⟨w, h, ?_, ?_, fun a h1 h2 => ?_⟩ <;> rw [hw] <;> unfold uFun <;> (repeat' split) <;> omega

example : ((reflectionT? 4 2).map SPerm.oneline, (reflectionS? 2 3).map SPerm.oneline) = (some [1, 4, 3, 2], some [1, -3, -2]) := by decide

/-- C60 (transitions): `upper_transitions` and `lower_transitions` never yield anything: they compare the lengths of `w` and
of the conjugate `t * w * t`, which have the same parity.  (For `r = 0` the code fails, and the hypothesis excludes this case;
the model totalises it.) -/
theorem C60_transitions (w : SPerm) {r : Nat} (_hr : 1 ≤ r) : upperTransitions w r = [] ∧ lowerTransitions w r = [] := by
  have key : ∀ t : SPerm, len (mul (mul t w) t) ≠ len w + 1 := by
    intro t h
    have h1 := len_mul_mod (mul t w) t
    have h2 := len_mul_mod t w
    omega
  constructor
  · rw [upperTransitions, List.filter_eq_nil_iff]
    intro i _ h
    exact key _ (of_decide_eq_true h)
  · rw [lowerTransitions, List.filter_eq_nil_iff]
    intro i _ h
    exact key _ (of_decide_eq_true h)

/-- C60 (transitions): the docstrings are violated.  For `w = Permutation(1, 3, 2)` the product with `transposition(1, 2)` covers
`w` in the Bruhat order, but `upper_transitions(1)` does not yield 2 and `lower_transitions(2)` does not yield 1. -/
theorem C60_transitions_violate_docstring : ∃ w : SPerm, BruhatCovers w (mul w (reflectionT 1 2)) ∧ 2 ≤ w.rank ∧
    2 ∉ upperTransitions w 1 ∧ 1 ∉ lowerTransitions w 2 := by
  refine ⟨s 2, ?_, by decide, by decide, by decide⟩
  rw [C60_graded]
  have h1 : ¬ Desc (s 2).call 1 := by unfold Desc; decide
  have h2 : reflectionT 1 2 = s 1 := by decide
  rw [h2]
  exact ⟨.single (step_mul_s h1), len_mul_s_of_not h1⟩

/-- C60 (involution covers): the two generators for involutions can fail with an `AttributeError`: after deleting a letter of an
involution word, `from_involution_word` may return `None`.  Witnesses: `Permutation(4, 3, 2, 1)` for both. -/
theorem C60_involution_covers_raise : ∃ w : SPerm, isInvolution w = true ∧ isFpfInvolution w = true ∧
    involutionBruhatCovers? 20 w = .error .attribute ∧ fpfInvolutionBruhatCovers? 20 w = .error .attribute := by
  refine ⟨(construct [4, 3, 2, 1]).getD identity, by decide +kernel, by decide +kernel, ?_, ?_⟩ <;> decide +kernel

end Verif.Perm
