import Verif.Lemmas.LittleFpfExch

/-! # Pushes and bumps of words for fixed-point-free involutions -/

namespace Verif.Perm
open Verif.PermSpec
attribute [-simp] List.getD_eq_getElem?_getD
attribute [local irreducible] mul s inverse identity len fpfStart

theorem letters_raised {word : List Nat} {i : Nat} (hp : ∀ x ∈ word, 1 ≤ x) : ∀ x ∈ raised word i, 1 ≤ x := by
  intro x hx
  unfold raised at hx
  rcases List.mem_or_eq_of_mem_set hx with h | h
  · exact hp x h
  · omega

theorem letters_erase {word : List Nat} {i : Nat} (hp : ∀ x ∈ word, 1 ≤ x) : ∀ x ∈ word.eraseIdx i, 1 ≤ x :=
  fun x hx => hp x (List.mem_of_mem_eraseIdx hx)

theorem fpf_push_spec {word : List Nat} (hp : ∀ x ∈ word, 1 ≤ x) {i : Nat} (hi : i < word.length)
    (hr : fpfInvolutionLength (looseFpf (word.eraseIdx i)) + 1 = word.length) :
    (fpfLittlePush word i = .ok (raised word i, none) ∧ fpfInvolutionLength (looseFpf (raised word i)) = word.length) ∨
    (fpfLittlePush word i = .ok (raised word i, some i) ∧ fpfInvolutionLength (looseFpf (raised word i)) + 1 = word.length ∧
      (fV (fpfSize (raised word i)) (word.take i)).call (word.getD i 0 + 1 : Nat) = ((word.getD i 0 + 1 : Nat) : Int) + 1) ∨
    ∃ j, fpfLittlePush word i = .ok (raised word i, some j) ∧ fpfInvolutionLength (looseFpf (raised word i)) + 2 ≤ word.length ∧
      j < word.length ∧ j ≠ i ∧ looseFpf ((raised word i).eraseIdx j) = looseFpf (word.eraseIdx i) := by
  have h1 : word[i]? = some (word.getD i 0) := by rw [List.getD_eq_getElem _ _ hi]; exact List.getElem?_eq_getElem hi
  have hfit := fits_size (letters_raised (i := i) hp)
  have hi' : i < (raised word i).length := by rwa [length_raised]
  have hre : FR (fpfSize (raised word i)) ((raised word i).eraseIdx i) := by
    rw [fr_loose (hfit.erase i), eraseIdx_raised, List.length_eraseIdx_of_lt hi]
    omega
  have hex := fpf_exch hfit hi' hre
  rw [fr_loose hfit, ← flen_loose hfit, length_raised, eraseIdx_raised] at hex
  unfold fpfLittlePush
  rw [h1]
  dsimp only
  rw [set_eq_slices hi, show word.set i (word.getD i 0 + 1) = raised word i from rfl, length_raised]
  rcases hex with h | ⟨h2, h3⟩ | ⟨h2, j, hj, hji, hv⟩
  · left
    rw [if_pos h]
    exact ⟨rfl, h⟩
  · right; left
    have h4 : fpfInvolutionLength (looseFpf (raised word i)) = fpfInvolutionLength (looseFpf (word.eraseIdx i)) := by
      have := hfit.erase i
      rw [eraseIdx_raised] at this
      rw [flen_loose hfit, h2, flen_loose this]
    rw [if_neg (by omega), if_pos (by omega)]
    refine ⟨rfl, by omega, ?_⟩
    have e1 : (raised word i).take i = word.take i := by unfold raised; rw [List.take_set_of_le le_rfl]
    have e2 : (raised word i).getD i 0 = word.getD i 0 + 1 := by rw [getD_raised hi, if_pos rfl]
    rw [e1, e2] at h3
    exact h3
  · right; right
    rw [if_neg (by omega), if_neg (by omega)]
    have hv' : looseFpf ((raised word i).eraseIdx j) = looseFpf (word.eraseIdx i) := by
      have f1 := hfit.erase j
      have f2 := hfit.erase i
      rw [eraseIdx_raised] at f2 hre
      refine loose_of_fV f1 f2 ?_ hre hv
      rw [fr_iff f1, hv, ← flen_loose f2, List.length_eraseIdx_of_lt (by rwa [length_raised]), length_raised]
      omega
    cases hf : (List.range word.length).find? (fun j => decide (i ≠ j) && decide (looseFpf (without word i) = looseFpf (without (raised word i) j))) with
    | none =>
      exfalso
      rw [List.find?_eq_none] at hf
      refine hf j (List.mem_range.2 hj) ?_
      simp only [without_eq, Bool.and_eq_true, decide_eq_true_eq]
      exact ⟨fun h => hji h.symm, hv'.symm⟩
    | some k =>
      have h4 := List.find?_some hf
      have h5 := List.mem_of_find?_eq_some hf
      simp only [without_eq, Bool.and_eq_true, decide_eq_true_eq] at h4
      exact ⟨k, rfl, h2, List.mem_range.1 h5, fun h => h4.1 h.symm, h4.2.symm⟩

theorem word_out {n : Nat} {A : List Nat} (h : Fits n A) {x : Int} (h2 : (n : Int) < x) : (fromWord A).call x = x := by
  induction A using List.reverseRecOn with
  | nil => rw [show fromWord [] = identity from rfl, call_identity]
  | append_singleton A i ih =>
    have hi := h.letters i (by simp)
    rw [fromWord_append, show fromWord [i] = s i from fromWord_singleton i, call_mul, call_s, sFun_fix (by omega) (by omega), ih h.left]

/-- Past the size of a word, the commuting letters are odd. -/
theorem odd_of_comm {n N : Nat} {A : List Nat} (h : Fits n A) (hN : N % 2 = 0) {e : Nat} (hne : n ≤ e) (he : 1 ≤ e) (heN : e + 1 ≤ N)
    (hc : (fV N A).call e = (e : Int) + 1) : e % 2 = 1 := by
  have h1 : (fpfStart N).call ((fromWord A).call e) = (e : Int) + 1 := by
    have := congrArg (fromWord A).call hc
    rw [fV_call, call_inverse, word_out h (x := (e : Int) + 1) (by omega)] at this
    exact this
  by_contra hodd
  have hn := h.even
  by_cases hlt : n < e
  · rw [word_out h (by omega), fpfStart_call hN _ (by omega), if_pos (by omega), if_neg (by omega)] at h1
    omega
  · obtain ⟨h2, h3⟩ := word_bound h (x := e) (by omega) (by omega)
    rw [fpfStart_call hN _ h2, if_pos (by omega)] at h1
    split at h1 <;> omega

section loop

variable (Inv : List Nat → Prop) (v : SPerm) (L : Nat)

/-- The state of the loop. -/
structure FpfState (word : List Nat) (i : Nat) : Prop where
  lt : i < word.length
  len : word.length = L
  pos : ∀ x ∈ word, 1 ≤ x
  val : looseFpf (word.eraseIdx i) = v
  inv : Inv word

/-- The loop stops after a push that makes a reduced word. -/
def FpfEnds (word : List Nat) (i : Nat) : Prop :=
  ∃ N word' i', FpfState Inv v L word' i' ∧ fpfInvolutionLength (looseFpf (raised word' i')) = L ∧
    ∀ fuel, N ≤ fuel → fpfBumpLoop fuel word i = .ok (raised word' i')

variable {Inv v L}

theorem ends_none {word : List Nat} {i : Nat} (h : FpfState Inv v L word i) (hp : fpfLittlePush word i = .ok (raised word i, none))
    (hl : fpfInvolutionLength (looseFpf (raised word i)) = word.length) : FpfEnds Inv v L word i :=
  ⟨1, word, i, h, by rw [hl, h.len], fun fuel hf => by
    obtain ⟨f, rfl⟩ : ∃ f, fuel = f + 1 := ⟨fuel - 1, by omega⟩
    rw [fpfBumpLoop, hp]⟩

theorem ends_some {word : List Nat} {i j : Nat} (hp : fpfLittlePush word i = .ok (raised word i, some j))
    (h : FpfEnds Inv v L (raised word i) j) : FpfEnds Inv v L word i := by
  obtain ⟨N, word', i', h1, h2, h3⟩ := h
  refine ⟨N + 1, word', i', h1, h2, fun fuel hf => ?_⟩
  obtain ⟨f, rfl⟩ : ∃ f, fuel = f + 1 := ⟨fuel - 1, by omega⟩
  rw [fpfBumpLoop, hp]
  exact h3 f (by omega)

variable (hInv : ∀ word i, i < word.length → Inv word → Inv (raised word i)) (hv : fpfInvolutionLength v + 1 = L)
include hInv hv

omit hv in
theorem FpfState.next {word : List Nat} {i j : Nat} (h : FpfState Inv v L word i) (hj : j < word.length)
    (he : looseFpf ((raised word i).eraseIdx j) = looseFpf (word.eraseIdx i)) : FpfState Inv v L (raised word i) j :=
  ⟨by rwa [length_raised], by rw [length_raised, h.len], letters_raised h.pos, by rw [he, h.val], hInv word i h.lt h.inv⟩

omit hInv hv in
theorem FpfState.small {word : List Nat} {i : Nat} (h : FpfState Inv v L word i) {x : Nat} (hx : x ∈ word.eraseIdx i) : x + 1 ≤ v.rank := by
  have h1 := lt_fpfSize hx
  have h2 := (fits_loose (letters_erase (i := i) h.pos)).rank
  rw [h.val] at h2
  omega

/-- The push of a large letter. -/
theorem push_big {word : List Nat} {i : Nat} (h : FpfState Inv v L word i) (hbig : v.rank ≤ word.getD i 0 + 1) :
    FpfEnds Inv v L word i ∨ (fpfLittlePush word i = .ok (raised word i, some i) ∧ (word.getD i 0 + 1) % 2 = 1) := by
  have hlen := h.len
  rcases fpf_push_spec h.pos h.lt (by rw [h.val]; omega) with ⟨h1, h2⟩ | ⟨h1, h2, h3⟩ | ⟨j, h1, h2, h3, h4, h5⟩
  · exact .inl (ends_none h h1 h2)
  · right
    refine ⟨h1, ?_⟩
    have hrk := (fits_loose (letters_erase (i := i) h.pos)).rank
    rw [h.val] at hrk
    have hfit : Fits v.rank (word.take i) := by
      rw [hrk]
      have h6 := fits_size (letters_erase (i := i) h.pos)
      rw [List.eraseIdx_eq_take_drop_succ] at h6 ⊢
      exact h6.left
    refine odd_of_comm hfit (fpfSize_even _) hbig (by omega) (lt_fpfSize ?_) h3
    rw [List.mem_iff_getElem]
    refine ⟨i, by rw [length_raised]; exact h.lt, ?_⟩
    have h7 := getD_raised h.lt i
    rw [List.getD_eq_getElem _ _ (by rw [length_raised]; exact h.lt), if_pos rfl] at h7
    exact h7
  · exfalso
    have hn := h.next hInv h3 h5
    have h7 := getD_raised h.lt i
    rw [if_pos rfl] at h7
    have : (raised word i).getD i 0 ∈ (raised word i).eraseIdx j := by
      rw [List.mem_eraseIdx_iff_getElem]
      exact ⟨i, by rw [length_raised]; exact h.lt, by omega, (List.getD_eq_getElem _ _ _).symm⟩
    have h8 := hn.small this
    omega

theorem ends_big {word : List Nat} {i : Nat} (h : FpfState Inv v L word i) (hbig : v.rank ≤ word.getD i 0 + 1) :
    FpfEnds Inv v L word i := by
  rcases push_big hInv hv h hbig with h1 | ⟨h1, h2⟩
  · exact h1
  · refine ends_some h1 ?_
    have hn := h.next hInv h.lt (by rw [eraseIdx_raised])
    have h7 := getD_raised h.lt i
    rw [if_pos rfl] at h7
    rcases push_big hInv hv hn (by omega) with h3 | ⟨h3, h4⟩
    · exact h3
    · omega

theorem fpf_ends (d : Nat) : ∀ {word : List Nat} {i : Nat}, FpfState Inv v L word i → L * v.rank + 1 ≤ word.sum + d →
    FpfEnds Inv v L word i := by
  induction d with
  | zero =>
    intro word i h hd
    by_cases hbig : v.rank ≤ word.getD i 0 + 1
    · exact ends_big hInv hv h hbig
    · exfalso
      have hall : ∀ x ∈ word, x ≤ v.rank := by
        intro x hx
        obtain ⟨k, hk, rfl⟩ := List.mem_iff_getElem.1 hx
        by_cases hki : k = i
        · subst hki
          rw [List.getD_eq_getElem _ _ hk] at hbig
          omega
        · have := h.small (x := word[k]) (List.mem_eraseIdx_iff_getElem.2 ⟨k, hk, hki, rfl⟩)
          omega
      have := sum_le_length_mul hall
      rw [h.len] at this
      omega
  | succ d ih =>
    intro word i h hd
    have hlen := h.len
    have hsum := sum_raised h.lt
    rcases fpf_push_spec h.pos h.lt (by rw [h.val]; omega) with ⟨h1, h2⟩ | ⟨h1, h2, h3⟩ | ⟨j, h1, h2, h3, h4, h5⟩
    · exact ends_none h h1 h2
    · exact ends_some h1 (ih (h.next hInv h.lt (by rw [eraseIdx_raised])) (by omega))
    · exact ends_some h1 (ih (h.next hInv h3 h5) (by omega))

end loop

end Verif.Perm
