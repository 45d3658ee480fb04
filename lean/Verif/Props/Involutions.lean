import Verif.Lemmas.Involutions
import Verif.Props.Permutations

/-! Property C57: involution words. -/

attribute [-simp] List.getD_eq_getElem?_getD

namespace Verif.Perm

open Verif.PermSpec

theorem demazure_append (a b : List Nat) : demazure (a ++ b) = mod (demazure a) (demazure b) := by
  induction b using List.reverseRecOn with
  | nil => rw [List.append_nil]; exact (mod_identity _).symm
  | append_singleton b i ih => rw [← List.append_assoc, demazure_concat, ih, demazure_concat, mod_assoc]

theorem demazure_singleton (i : Nat) : demazure [i] = s i := by
  have := demazure_concat [] i
  rw [List.nil_append] at this
  rw [this]
  exact identity_mod _

/-- The Demazure conjugate of a word followed by a letter. -/
theorem palindrome_concat (a : List Nat) (i : Nat) :
    demazure ((a ++ [i]).reverse ++ (a ++ [i])) = mod (s i) (mod (demazure (a.reverse ++ a)) (s i)) := by
  have : (a ++ [i]).reverse ++ (a ++ [i]) = [i] ++ ((a.reverse ++ a) ++ [i]) := by simp
  rw [this, demazure_append, demazure_append, demazure_singleton]

theorem mod_s_mod_of_desc {w : SPerm} (hw : ∀ a, w.call (w.call a) = a) {i : Nat} (hd : Desc w.call i) :
    mod (s i) (mod w (s i)) = w := by
  rw [mod_s, act_of_desc hd]
  have h1 : i ∈ leftDescents w := by rw [mem_leftDescents, inverse_of_involution hw]; exact hd
  have h2 := len_s_mul_of_desc h1
  have h3 : mod (s i) (mul (s i) w) = w := by
    rw [mod_of_len, s_mul_s_mul]
    rw [s_mul_s_mul, len_s]
    omega
  conv_lhs => rw [← h3]
  rw [← mod_assoc, C36_idempotent, h3]

theorem palindrome_spec (a : List Nat) : (∀ b, (demazure (a.reverse ++ a)).call ((demazure (a.reverse ++ a)).call b) = b) ∧
    ilen2 (demazure (a.reverse ++ a)) ≤ 2 * a.length ∧
    (ilen2 (demazure (a.reverse ++ a)) = 2 * a.length → fromInvolutionWord true a = some (demazure (a.reverse ++ a))) ∧
    ∀ w, fromInvolutionWord true a = some w → w = demazure (a.reverse ++ a) := by
  induction a using List.reverseRecOn with
  | nil =>
    have h : demazure ([] : List Nat) = identity := rfl
    simp only [List.reverse_nil, List.append_nil, h]
    refine ⟨identity_involution, by rw [ilen2_identity]; omega, fun _ => rfl, fun w hw => ?_⟩
    rw [fromInvolutionWord, fromInvolutionLoop, Option.some.injEq] at hw
    exact hw.symm
  | append_singleton a i ih =>
    rw [palindrome_concat]
    obtain ⟨w, hw⟩ : ∃ w, demazure (a.reverse ++ a) = w := ⟨_, rfl⟩
    rw [hw] at ih ⊢
    obtain ⟨h1, h2, h3, h4⟩ := ih
    rw [List.length_append, List.length_singleton, fromInvolutionWord_concat]
    by_cases hd : Desc w.call i
    · rw [mod_s_mod_of_desc h1 hd]
      refine ⟨h1, by omega, fun h => by omega, fun v hv => ?_⟩
      cases hf : fromInvolutionWord true a with
      | none => rw [hf] at hv; cases hv
      | some u =>
        rw [hf, h4 u hf, Option.bind_some, if_pos ⟨(mem_rightDescents w i).2 hd, rfl⟩] at hv
        cases hv
    · obtain ⟨e1, -, e3⟩ := invStep_spec h1 hd
      rw [← e3]
      refine ⟨invStep_involution h1 i, by omega, fun h => ?_, fun v hv => ?_⟩
      · rw [h3 (by omega), Option.bind_some, if_neg]
        rw [mem_rightDescents]
        exact fun h => hd h.1
      · cases hf : fromInvolutionWord true a with
        | none => rw [hf] at hv; cases hv
        | some u =>
          rw [hf, h4 u hf, Option.bind_some, if_neg (by rw [mem_rightDescents]; exact fun h => hd h.1),
            Option.some.injEq] at hv
          exact hv.symm

/-- C57: `from_involution_word(a)` is `w` exactly if `a` is a shortest word whose Demazure conjugate
`s_k ∘ ... ∘ s_1 ∘ s_1 ∘ ... ∘ s_k` is `w`; for other words `None` is returned. -/
theorem C57_strict (a : List Nat) (w : SPerm) : fromInvolutionWord true a = some w ↔
    demazure (a.reverse ++ a) = w ∧ ∀ b : List Nat, demazure (b.reverse ++ b) = w → a.length ≤ b.length := by
  obtain ⟨h1, h2, h3, h4⟩ := palindrome_spec a
  constructor
  · intro h
    have he := h4 w h
    refine ⟨he.symm, fun b hb => ?_⟩
    have := (palindrome_spec b).2.1
    rw [hb] at this
    have := (fromInvolutionWord_true h).2
    omega
  · rintro ⟨rfl, hmin⟩
    apply h3
    obtain ⟨b, -, hb⟩ := getInvolutionWord?_spec (ilen2 (demazure (a.reverse ++ a)) / 2 + 1) h1 (by omega)
    have e1 := (fromInvolutionWord_true hb).2
    have e2 := hmin b ((palindrome_spec b).2.2.2 _ hb).symm
    omega

/-- C57: the Demazure conjugates are involutions, and the shortest word for an involution has length `involution_length`;
the division by two in its definition leaves no remainder. -/
theorem C57_length :
    (∀ a : List Nat, isInvolution (demazure (a.reverse ++ a)) = true) ∧
    ∀ w, isInvolution w = true →
      2 * involutionLength w = (negations w).length + (pairs w).length + len w ∧
      (∃ a : List Nat, demazure (a.reverse ++ a) = w ∧ a.length = involutionLength w) ∧
      ∀ a : List Nat, demazure (a.reverse ++ a) = w → involutionLength w ≤ a.length := by
  refine ⟨fun a => isInvolution_iff.2 (palindrome_spec a).1, fun w hw => ?_⟩
  rw [isInvolution_iff] at hw
  have h := ilen2_even hw
  refine ⟨h, ?_, fun a ha => ?_⟩
  · obtain ⟨a, -, ha⟩ := getInvolutionWord?_spec (ilen2 w / 2 + 1) hw (by omega)
    have := (fromInvolutionWord_true ha).2
    exact ⟨a, ((palindrome_spec a).2.2.2 _ ha).symm, by omega⟩
  · have := (palindrome_spec a).2.1
    rw [ha] at this
    omega

/-- C57: with `strict=False` the result is an involution for every word, of involution length at most the length of the
word, and equal to the result with `strict=True` whenever that is not `None`. -/
theorem C57_not_strict (a : List Nat) : ∃ w, fromInvolutionWord false a = some w ∧ isInvolution w = true ∧
    involutionLength w ≤ a.length ∧ ∀ v, fromInvolutionWord true a = some v → v = w := by
  obtain ⟨w, h1, h2, h3, h4⟩ := fromInvolutionWord_false a
  have := ilen2_even h2
  exact ⟨w, h1, isInvolution_iff.2 h2, by omega, h4⟩

/-- C57: for an involution, `get_involution_word` raises no exception and returns an involution word; the recursion is not
deeper than `involution_length` plus one. -/
theorem C57_get_involution_word {w : SPerm} (hw : isInvolution w = true) {depth : Nat}
    (hd : involutionLength w < depth) :
    ∃ a, getInvolutionWord? depth w = .ok a ∧ fromInvolutionWord true a = some w := by
  exact getInvolutionWord?_spec depth (isInvolution_iff.1 hw) hd

/-- C57: otherwise it raises an AssertionError. -/
theorem C57_not_involution {w : SPerm} (hw : isInvolution w = false) {depth : Nat} (hd : 0 < depth) :
    getInvolutionWord? depth w = .error .assertion := by
  cases depth with
  | zero => omega
  | succ depth => rw [getInvolutionWord?, hw]; rfl

example : fromInvolutionWord true [3, 1, 2, 1] = construct [4, 3, 2, 1] ∧
    getInvolutionWord? 5 (demazure [1, 2, 1, 3, 3, 1, 2, 1]) = .ok [3, 1, 2, 1] ∧
    fromInvolutionWord true [1, 0, 1] = construct [-1, -2] ∧ fromInvolutionWord true [1, 1] = none ∧
    (fromInvolutionWord false [1, 1]) = some identity := by decide +kernel

end Verif.Perm
