import Verif.Lemmas.LittleInv

/-! # C106: Little bumps of involution words -/

namespace Verif.Perm
open Verif.PermSpec
attribute [-simp] List.getD_eq_getElem?_getD

theorem involution_value (word : List Nat) : fromInvolutionWord false word = some (looseInvolution word) := by
  obtain ⟨w, h1, -⟩ := fromInvolutionWord_false word
  unfold looseInvolution
  rw [h1]; rfl

/-- C106: `involution_little_push(word, i)`, where dropping the letter at `i` leaves a reduced involution word of `v`, raises that
letter by one and does not raise.  It reports `None` if the new word is a reduced involution word and otherwise another index which
leaves an involution word of `v` when dropped. -/
theorem C106_push {word : List Nat} {i : Nat} (hi : i < word.length) {v : SPerm}
    (hv : fromInvolutionWord false (word.eraseIdx i) = some v) (hr : involutionLength v + 1 = word.length) :
    ∃ new r w, involutionLittlePush word i = .ok (new, r) ∧ new.length = word.length ∧
      (∀ k < word.length, new.getD k 0 = word.getD k 0 + if k = i then 1 else 0) ∧
      fromInvolutionWord false new = some w ∧ (r = none ↔ involutionLength w = new.length) ∧
      ∀ j, r = some j → j < word.length ∧ j ≠ i ∧ fromInvolutionWord false (new.eraseIdx j) = some v := by
  have hv' : looseInvolution (word.eraseIdx i) = v := by rw [involution_value] at hv; exact Option.some.inj hv
  rcases push_spec littleSys_inv hi (by rw [hv']; omega) with ⟨h1, h2⟩ | ⟨j, h1, h2, h3, h4, h5⟩
  · exact ⟨_, _, _, h1, length_raised .., fun k _ => getD_raised hi k, involution_value _,
      ⟨fun _ => by rw [h2, length_raised], fun _ => rfl⟩, fun j hj => by cases hj⟩
  · refine ⟨_, _, _, h1, length_raised .., fun k _ => getD_raised hi k, involution_value _, ⟨fun h => (by cases h), fun h => ?_⟩,
      fun j' hj => ?_⟩
    · rw [length_raised] at h
      exact absurd h h2
    · obtain rfl := Option.some.inj hj
      exact ⟨h3, h4, by rw [involution_value, h5, hv']⟩

example : involutionLength (fromWord [2, 3, 2]) + 1 = 3 ∧ fromInvolutionWord false ([2, 1, 3].eraseIdx 1) = some (fromWord [3, 2, 3]) ∧
    involutionLittlePush [2, 1, 3] 1 = .ok ([2, 2, 3], some 0) := by decide +kernel

/-- C106: `involution_little_bump(word, y)` for a reduced involution word of `z` and an involution `y` whose involution length is
smaller by one.  If `y` is below `z` in the Bruhat order, the loop stops and the result is another reduced involution word of the same
length, with letters at least as large, of an involution above `y`; otherwise the word is returned. -/
theorem C106_bump {word : List Nat} {z : SPerm} (hz : fromInvolutionWord false word = some z) (hw : involutionLength z = word.length)
    {y : SPerm} (hyi : isInvolution y = true) (hy : involutionLength y + 1 = word.length) :
    (BruhatLE y z → ∃ N out z', (∀ fuel, N ≤ fuel → involutionLittleBump fuel word y = .ok out) ∧ out.length = word.length ∧
      fromInvolutionWord false out = some z' ∧ involutionLength z' = out.length ∧ BruhatLE y z' ∧
      (∀ k, word.getD k 0 ≤ out.getD k 0) ∧ out ≠ word) ∧
    (¬ BruhatLE y z → ∀ fuel, involutionLittleBump fuel word y = .ok word) := by
  have hz' : looseInvolution word = z := by rw [involution_value] at hz; exact Option.some.inj hz
  rw [isInvolution_iff] at hyi
  have hle : ∀ (w : List Nat) (i : Nat), i < w.length → involutionLength (looseInvolution w) = w.length →
      looseInvolution (w.eraseIdx i) = y → w.length = word.length → BruhatLE y (looseInvolution w) := by
    intro w i hi hw' he hl
    obtain ⟨P, c, S, rfl, hP, he2⟩ := split_at hi
    rw [he2] at he
    rw [← he]
    refine le_insert P c S ?_ hw'
    unfold IRed
    rw [he]
    simp only [List.length_append, List.length_cons] at hl ⊢
    omega
  have hinv := bump_spec littleSys_inv (fun w _ => ∀ k, word.getD k 0 ≤ w.getD k 0)
    (fun w i j hi _ h _ _ _ _ k => by have := h k; rw [getD_raised hi]; omega) (by rw [hz', hw]) hy (fun _ _ _ _ => le_rfl)
  rcases hinv with ⟨h1, h2⟩ | ⟨N, i, word', i', hi, he, hi', hl, he', hI, hf, hfu⟩
  · refine ⟨fun h => ?_, fun _ => h2⟩
    rw [← hz'] at h
    have hred : IRed word := by unfold IRed; rw [hz', hw]
    obtain ⟨b, hb1, hb2, hb3⟩ := subword hred hyi h
    unfold IRed at hb3
    rw [hb2] at hb3
    obtain ⟨j, hj, rfl⟩ := sublist_erase hb1 (by omega)
    exact absurd hb2 (h1 j hj)
  · refine ⟨fun _ => ⟨N, _, _, hfu, by rw [length_raised, hl], involution_value _, by rw [hf, length_raised, hl], ?_, fun k => ?_,
      fun hc => ?_⟩, fun h => ?_⟩
    · exact hle _ i' (by rw [length_raised]; omega) (by rw [hf, length_raised, hl]) (by rw [eraseIdx_raised, he']) (by rw [length_raised, hl])
    · have := hI k
      rw [getD_raised (by omega)]; omega
    · have h3 := congrArg (fun l => l.getD i' 0) hc
      have h4 := hI i'
      rw [getD_raised (by omega), if_pos rfl] at h3
      omega
    · exact absurd (by rw [← hz']; exact hle word i hi (by rw [hz', hw]) he rfl) h

example : fromInvolutionWord false [2, 1, 3] = some (looseInvolution [2, 1, 3]) ∧ involutionLength (looseInvolution [2, 1, 3]) = 3 ∧
    isInvolution (looseInvolution [2, 3]) = true ∧ involutionLength (looseInvolution [2, 3]) + 1 = 3 ∧
    involutionLittleBump 10 [2, 1, 3] (looseInvolution [2, 3]) = .ok [3, 2, 4] := by decide +kernel

/-- C106: a word that is not a reduced involution word fails the assertion. -/
theorem C106_assertion {word : List Nat} {z : SPerm} (hz : fromInvolutionWord false word = some z) (hw : involutionLength z ≠ word.length)
    (fuel : Nat) (y : SPerm) : involutionLittleBump fuel word y = .error .assertion := by
  have hz' : looseInvolution word = z := by rw [involution_value] at hz; exact Option.some.inj hz
  exact if_neg (by rw [hz']; exact hw)

example : involutionLength (looseInvolution [1, 2, 1]) ≠ 3 := by decide +kernel

end Verif.Perm
