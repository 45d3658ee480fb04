import Verif.Lemmas.FpfWords

/-! Property C58: words and atoms of involutions without fixed points. -/

attribute [-simp] List.getD_eq_getElem?_getD

namespace Verif.Perm

open Verif.PermSpec

/-- C58: the starting point of `from_fpf_involution_word` is the permutation `(2, 1, 4, 3, ..., n, n - 1)`, where `n` is the
least even number larger than every letter. -/
theorem C58_start (a : List Nat) : fpfSize a % 2 = 0 ∧ (∀ i ∈ a, i < fpfSize a) ∧
    (∀ n, n % 2 = 0 → (∀ i ∈ a, i < n) → fpfSize a ≤ n) ∧ (fpfStart (fpfSize a)).rank = fpfSize a ∧
    ∀ x : Int, 0 < x → x ≤ fpfSize a → (fpfStart (fpfSize a)).call x = if x % 2 = 1 then x + 1 else x - 1 := by
  have h := fpfSize_even a
  refine ⟨h, fun i hi => lt_fpfSize hi, fun n hn hl => fpfSize_le hn hl, (fpf_fpfStart h).rank, fun x h1 h2 => ?_⟩
  rw [fpfStart_call h x h1, if_pos h2]

/-- C58: `from_fpf_involution_word(a)`, for letters that are at least one, is `w` exactly if `a` is a shortest word for a
permutation that conjugates the starting point to `w`; for other words `None` is returned. -/
theorem C58_strict {a : List Nat} (ha : ∀ i ∈ a, 1 ≤ i) (w : SPerm) : fromFpfInvolutionWord true a = some w ↔
    mul (mul (inverse (fromWord a)) (fpfStart (fpfSize a))) (fromWord a) = w ∧
      ∀ b : List Nat, mul (mul (inverse (fromWord b)) (fpfStart (fpfSize a))) (fromWord b) = w → a.length ≤ b.length := by
  have hn := fpfSize_even a
  have hM := fpf_fpfStart hn
  have hlM := len_fpfStart hn
  rw [fromFpfInvolutionWord]
  constructor
  · intro h
    refine ⟨(fromFpfLoop_value h).symm, fun b hb => ?_⟩
    have h1 := fromFpfLoop_true_len hM.inv h
    obtain ⟨v, g1, g2, g3, g4, g5⟩ := fromFpfLoop_len hM.inv b
    rw [fromFpfLoop_false, hb, Option.some.injEq] at g1
    rw [← g1] at g3
    omega
  · rintro ⟨h1, h2⟩
    obtain ⟨v, g1, g2, g3, g4, g5⟩ := fromFpfLoop_len hM.inv a
    have hw : Fpf (fpfSize a) v := fpfRun_fpf hn (fun i hi => ⟨ha i hi, lt_fpfSize hi⟩) g1
    rw [fromFpfLoop_false, h1, Option.some.injEq] at g1
    rw [← g1] at hw g3 g4
    obtain ⟨b, hb, hl⟩ := hw.len
    have := h2 b (fromFpfLoop_value hb).symm
    exact g4.2 (by omega)

/-- C58: with `strict=False` the result is the conjugate of the starting point, for every word. -/
theorem C58_not_strict (a : List Nat) : fromFpfInvolutionWord false a =
    some (mul (mul (inverse (fromWord a)) (fpfStart (fpfSize a))) (fromWord a)) := fromFpfLoop_false _ _

/-- C58: `is_fpf_involution` together with `is_unsigned` says what it should, the results of `from_fpf_involution_word` have
this property, and `fpf_involution_length` is the length of every word for the involution; the division by two in its
definition leaves no remainder. -/
theorem C58_length :
    (∀ w, isFpfInvolution w = true ∧ isUnsigned w = true ↔ FpfInvolution w) ∧
    (∀ (strict : Bool) (a : List Nat) (w : SPerm), (∀ i ∈ a, 1 ≤ i) → fromFpfInvolutionWord strict a = some w → FpfInvolution w) ∧
    (∀ (a : List Nat) (w : SPerm), (∀ i ∈ a, 1 ≤ i) → fromFpfInvolutionWord true a = some w → fpfInvolutionLength w = a.length) ∧
    ∀ w, FpfInvolution w → 2 * fpfInvolutionLength w + w.rank / 2 = len w := by
  have hf : ∀ (strict : Bool) (a : List Nat) (w : SPerm), (∀ i ∈ a, 1 ≤ i) → fromFpfInvolutionWord strict a = some w →
      Fpf (fpfSize a) w := by
    intro strict a w ha h
    exact fpfRun_fpf (fpfSize_even a) (fun i hi => ⟨ha i hi, lt_fpfSize hi⟩) h
  refine ⟨fun w => ?_, fun strict a w ha h => ?_, fun a w ha h => ?_, fun w h => ?_⟩
  · rw [isFpf_iff, fpf_iff_spec]
  · rw [fpf_iff_spec]
    have h1 := hf strict a w ha h
    rwa [h1.rank]
  · have h1 := hf true a w ha h
    have h2 := h1.fpfLength
    have h3 := fromFpfLoop_true_len (fpf_fpfStart (fpfSize_even a)).inv h
    rw [len_fpfStart (fpfSize_even a)] at h3
    omega
  · exact (fpf_iff_spec.1 h).fpfLength

/-- C58: `get_fpf_involution_word` raises no exception for an unsigned involution without fixed points and returns a word
for it, up to cycles `(m + 1, m + 2)` at the end; the recursion is not deeper than `fpf_involution_length` plus one. -/
theorem C58_get_fpf_involution_word {w : SPerm} (hw : FpfInvolution w) {depth : Nat} (hd : fpfInvolutionLength w < depth) :
    ∃ a v, getFpfInvolutionWord? depth w = .ok a ∧ (∀ i ∈ a, 1 ≤ i) ∧ fromFpfInvolutionWord true a = some v ∧
      FpfExtends v w := by
  have h := fpf_iff_spec.1 hw
  have := h.fpfLength
  obtain ⟨a, h1, h2⟩ := getFpfInvolutionWord?_spec depth h (by omega)
  obtain ⟨h3, v, h4, h5⟩ := (fpfRun_iff h a).1 h2
  exact ⟨a, v, h1, h3, h4, h5⟩

/-- C58: `get_fpf_involution_words` returns exactly the words for the involution. -/
theorem C58_get_fpf_involution_words {w : SPerm} (hw : FpfInvolution w) {depth : Nat}
    (hd : fpfInvolutionLength w < depth) :
    ∃ L, getFpfInvolutionWords? depth w = .ok L ∧
      ∀ a, a ∈ L ↔ (∀ i ∈ a, 1 ≤ i) ∧ ∃ v, fromFpfInvolutionWord true a = some v ∧ FpfExtends v w := by
  have h := fpf_iff_spec.1 hw
  have := h.fpfLength
  obtain ⟨L, h1, h2⟩ := getFpfInvolutionWords?_spec depth h (by omega)
  exact ⟨L, h1, fun a => (h2 a).trans (fpfRun_iff h a)⟩

/-- C58: `get_fpf_atoms` returns exactly the permutations `x` of length `fpf_involution_length(w)` for which `w` is
`x⁻¹ (2, 1, 4, 3, ..., n, n - 1) x`. -/
theorem C58_get_fpf_atoms {w : SPerm} (hw : FpfInvolution w) {depth : Nat} (hd : fpfInvolutionLength w < depth) :
    ∃ L, getFpfAtoms? depth w = .ok L ∧
      ∀ x, x ∈ L ↔ mul (mul (inverse x) (fpfStart w.rank)) x = w ∧ len x = fpfInvolutionLength w := by
  have h := fpf_iff_spec.1 hw
  have := h.fpfLength
  obtain ⟨L, h1, h2⟩ := getFpfAtoms?_spec depth h (by omega)
  exact ⟨L, h1, fun x => (h2 x).trans (fpf_atom_iff h x)⟩

/-- C58: no `x` shorter than the atoms conjugates to `w`. -/
theorem C58_atoms_shortest {w : SPerm} (hw : FpfInvolution w) (x : SPerm)
    (hx : mul (mul (inverse x) (fpfStart w.rank)) x = w) : fpfInvolutionLength w ≤ len x := by
  have h := fpf_iff_spec.1 hw
  have hn : w.rank % 2 = 0 := by have := h.even.2; omega
  have hl := h.fpfLength
  have hlM := len_fpfStart hn
  obtain ⟨b, hb1, hb2⟩ := exists_reduced x
  obtain ⟨v, g1, g2, g3, g4, g5⟩ := fromFpfLoop_len (fpf_fpfStart hn).inv b
  rw [fromFpfLoop_false, hb1, hx, Option.some.injEq] at g1
  rw [← g1] at g3
  omega

/-- C58: permutations that are not involutions, or have fixed points, raise an AssertionError, and so do signed ones in
`get_fpf_atoms`. -/
theorem C58_not_fpf {w : SPerm} {depth : Nat} (hd : 0 < depth) :
    (isFpfInvolution w = false → getFpfInvolutionWord? depth w = .error .assertion ∧
      getFpfInvolutionWords? depth w = .error .assertion) ∧
    (¬ FpfInvolution w → getFpfAtoms? depth w = .error .assertion) := by
  obtain ⟨d, rfl⟩ : ∃ d, depth = d + 1 := ⟨depth - 1, by omega⟩
  constructor
  · intro h
    rw [getFpfInvolutionWord?, getFpfInvolutionWords?, h]
    exact ⟨rfl, rfl⟩
  · intro h
    rw [getFpfAtoms?, if_neg]
    rw [isFpf_iff, ← fpf_iff_spec]
    exact h

/-- C58: the other two functions accept signed permutations.  For `(-1, -2)` the recursion of `get_fpf_involution_word` has
no end, and for `(-1)` there is an IndexError in `get_fpf_involution_words`. -/
theorem C58_signed : (∃ w, construct [-1, -2] = some w ∧ isFpfInvolution w = true ∧
      ∀ depth, getFpfInvolutionWord? depth w = .error .recursion) ∧
    ∃ w, construct [-1] = some w ∧ isFpfInvolution w = true ∧ ∀ depth, getFpfInvolutionWords? (depth + 1) w = .error .index := by
  constructor
  · refine ⟨⟨[-1, -2], by decide, by decide⟩, by decide, by decide, fun depth => ?_⟩
    induction depth with
    | zero => rfl
    | succ d ih =>
      rw [getFpfInvolutionWord?, if_pos (by decide)]
      have h1 : ((leftDescents ⟨[-1, -2], by decide, by decide⟩).filter
        (fun i : Nat => SPerm.call ⟨[-1, -2], by decide, by decide⟩ i ≠ (i : Int) + 1)).min? = some 0 := by decide
      have h2 : mul (mul (s 0) ⟨[-1, -2], by decide, by decide⟩) (s 0) = ⟨[-1, -2], by decide, by decide⟩ := by decide
      rw [h1]
      simp only [h2, ih]
      rfl
  · refine ⟨⟨[-1], by decide, by decide⟩, by decide, by decide, fun depth => ?_⟩
    rw [getFpfInvolutionWords?, if_pos (by decide)]
    rfl

example : (construct [4, 3, 2, 1]).map (fun w => (isFpfInvolution w, isUnsigned w, fpfInvolutionLength w)) = some (true, true, 2) ∧
    (construct [4, 3, 2, 1]).map (getFpfInvolutionWords? 3) = some (.ok [[2, 1], [2, 3]]) ∧
    fromFpfInvolutionWord true [2, 1] = construct [4, 3, 2, 1] ∧ fromFpfInvolutionWord true [2, 2] = none ∧
    (construct [3, 4, 1, 2, 6, 5]).map (getFpfInvolutionWord? 2) = some (.ok [2]) ∧
    fromFpfInvolutionWord true [2] = construct [3, 4, 1, 2] := by decide +kernel

end Verif.Perm
