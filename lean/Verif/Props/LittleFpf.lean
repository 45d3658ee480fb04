import Verif.Lemmas.LittleFpfLoop
import Verif.Lemmas.PermSignedInvolutions
import Verif.Props.Fpf

/-! # C107: Little bumps of words for fixed-point-free involutions -/

namespace Verif.Perm
open Verif.PermSpec
attribute [-simp] List.getD_eq_getElem?_getD

theorem fpf_value (word : List Nat) : fromFpfInvolutionWord false word = some (looseFpf word) := by
  rw [loose_fV, fromFpfInvolutionWord, fV_loop]

/-- C107: `fpf_involution_little_push(word, i)`, where dropping the letter at `i` leaves a reduced word of the fixed-point-free involution
`v`, raises that letter by one and does not raise.  It reports `None` if the new word is reduced, the same index if the length of its
value is smaller by one, and otherwise, where it is smaller by at least two, another index.  Dropping the letter at the reported index
leaves a word of `v`. -/
theorem C107_push {word : List Nat} (hp : ∀ x ∈ word, 1 ≤ x) {i : Nat} (hi : i < word.length) {v : SPerm}
    (hv : fromFpfInvolutionWord false (word.eraseIdx i) = some v) (hr : fpfInvolutionLength v + 1 = word.length) :
    ∃ new r w, fpfLittlePush word i = .ok (new, r) ∧ new.length = word.length ∧
      (∀ k < word.length, new.getD k 0 = word.getD k 0 + if k = i then 1 else 0) ∧
      fromFpfInvolutionWord false new = some w ∧ (r = none ↔ fpfInvolutionLength w = new.length) ∧
      (r = some i ↔ fpfInvolutionLength w + 1 = new.length) ∧
      ∀ j, r = some j → j < word.length ∧ fromFpfInvolutionWord false (new.eraseIdx j) = some v := by
  have hv' : looseFpf (word.eraseIdx i) = v := by rw [fpf_value] at hv; exact Option.some.inj hv
  rcases fpf_push_spec hp hi (by rw [hv']; omega) with ⟨h1, h2⟩ | ⟨h1, h2, -⟩ | ⟨j, h1, h2, h3, h4, h5⟩
  · refine ⟨_, _, _, h1, length_raised .., fun k _ => getD_raised hi k, fpf_value _, ⟨fun _ => by rw [h2, length_raised], fun _ => rfl⟩,
      ⟨fun h => (by cases h), fun h => ?_⟩, fun j hj => (by cases hj)⟩
    rw [length_raised] at h
    omega
  · refine ⟨_, _, _, h1, length_raised .., fun k _ => getD_raised hi k, fpf_value _, ⟨fun h => (by cases h), fun h => ?_⟩,
      ⟨fun _ => by rw [length_raised]; exact h2, fun _ => rfl⟩, fun j hj => ?_⟩
    · rw [length_raised] at h
      omega
    · obtain rfl := Option.some.inj hj
      exact ⟨hi, by rw [fpf_value, eraseIdx_raised, hv']⟩
  · refine ⟨_, _, _, h1, length_raised .., fun k _ => getD_raised hi k, fpf_value _, ⟨fun h => (by cases h), fun h => ?_⟩,
      ⟨fun h => ?_, fun h => ?_⟩, fun j' hj => ?_⟩
    · rw [length_raised] at h
      omega
    · exact absurd (Option.some.inj h) h4
    · rw [length_raised] at h
      omega
    · obtain rfl := Option.some.inj hj
      exact ⟨h3, by rw [fpf_value, h5, hv']⟩

example : fpfLittlePush [2, 1, 3] 1 = .ok ([2, 2, 3], some 0) ∧ fpfLittlePush [2] 0 = .ok ([3], some 0) ∧
    fpfLittlePush [3] 0 = .ok ([4], none) := by decide +kernel

/-- `a` is a reduced word of the fixed-point-free involution `y`: `from_fpf_involution_word(a)` is `y`, up to the cycles
`(m + 1, m + 2), (m + 3, m + 4), ...` at the end of `y`. -/
def FpfWordOf (a : List Nat) (y : SPerm) : Prop := (∀ i ∈ a, 1 ≤ i) ∧ ∃ v, fromFpfInvolutionWord true a = some v ∧ FpfExtends v y

theorem fpfWordOf_loose {a : List Nat} {y : SPerm} (h : FpfWordOf a y) : fpfInvolutionLength (looseFpf a) = a.length ∧
    FpfExtends (looseFpf a) y := by
  obtain ⟨h1, v, h2, h3⟩ := h
  have h4 : v = looseFpf a := by rw [loose_fV]; exact run_value h2
  subst h4
  refine ⟨(fr_loose (fits_size h1)).1 ?_, h3⟩
  unfold FR
  rw [← loose_fV]
  exact h2

theorem fpfWordOf_of {a : List Nat} {y : SPerm} (h : ∀ i ∈ a, 1 ≤ i) (h1 : fpfInvolutionLength (looseFpf a) = a.length)
    (h2 : FpfExtends (looseFpf a) y) : FpfWordOf a y := by
  refine ⟨h, _, ?_, h2⟩
  have h3 := (fr_loose (fits_size h)).2 h1
  unfold FR at h3
  rw [← loose_fV] at h3
  exact h3

/-- C107: `fpf_involution_little_bump(word, y)` for a reduced word of a fixed-point-free involution.  If dropping some letter leaves a
reduced word of `y`, the loop stops and the result is another reduced word of a fixed-point-free involution, of the same length and with
letters at least as large, from which a letter can again be dropped to leave a reduced word of `y`; otherwise the word is returned. -/
theorem C107_bump {word : List Nat} (hp : ∀ x ∈ word, 1 ≤ x) {z : SPerm} (hz : fromFpfInvolutionWord false word = some z)
    (hw : fpfInvolutionLength z = word.length) {y : SPerm} (hy : FpfInvolution y) {depth : Nat} (hd : fpfInvolutionLength y < depth) :
    ((∃ i < word.length, FpfWordOf (word.eraseIdx i) y) → ∃ N out, (∀ fuel, N ≤ fuel → fpfLittleBump depth fuel word y = .ok out) ∧
      out.length = word.length ∧ (∃ z', fromFpfInvolutionWord true out = some z' ∧ fpfInvolutionLength z' = out.length) ∧
      (∃ i < out.length, FpfWordOf (out.eraseIdx i) y) ∧ (∀ k, word.getD k 0 ≤ out.getD k 0) ∧ out ≠ word) ∧
    ((∀ i < word.length, ¬ FpfWordOf (word.eraseIdx i) y) → ∀ fuel, fpfLittleBump depth fuel word y = .ok word) := by
  have hz' : looseFpf word = z := by rw [fpf_value] at hz; exact Option.some.inj hz
  have hyf := (fpf_iff_spec.1 hy).checks.1
  obtain ⟨W, hW1, hW2⟩ := C58_get_fpf_involution_words hy hd
  have hbump : ∀ fuel, word ≠ [] → fpfLittleBump depth fuel word y =
      match (List.range word.length).find? (fun i => decide (without word i ∈ W)) with
      | some i => fpfBumpLoop fuel word i
      | none => .ok word := by
    intro fuel hne
    rw [fpfLittleBump, if_pos (by rw [hz', hw]), if_pos hyf, if_neg hne, hW1]; rfl
  cases hf : (List.range word.length).find? (fun i => decide (without word i ∈ W)) with
  | none =>
    rw [List.find?_eq_none] at hf
    refine ⟨fun ⟨i, hi, hc⟩ => ?_, fun _ fuel => ?_⟩
    · exact absurd (by rw [without_eq]; exact decide_eq_true ((hW2 _).2 hc)) (hf i (List.mem_range.2 hi))
    · by_cases hne : word = []
      · rw [fpfLittleBump, if_pos (by rw [hz', hw]), if_pos hyf, if_pos hne]
      · rw [hbump fuel hne, List.find?_eq_none.2 hf]
  | some i =>
    have h2 := List.find?_some hf
    have hi := List.mem_range.1 (List.mem_of_find?_eq_some hf)
    simp only [without_eq, decide_eq_true_eq] at h2
    have hwo : FpfWordOf (word.eraseIdx i) y := (hW2 _).1 h2
    obtain ⟨h3, h4⟩ := fpfWordOf_loose hwo
    refine ⟨fun _ => ?_, fun h => absurd hwo (h i hi)⟩
    have hle := List.length_eraseIdx_of_lt hi
    have hlv : fpfInvolutionLength (looseFpf (word.eraseIdx i)) + 1 = word.length := by rw [h3, hle]; omega
    obtain ⟨N, word', i', hs, hl, hfu⟩ := fpf_ends (Inv := fun w => ∀ k, word.getD k 0 ≤ w.getD k 0)
      (fun w j hj h k => by have := h k; rw [getD_raised hj]; omega) hlv _ ⟨hi, rfl, hp, rfl, fun _ => le_rfl⟩
      (Nat.le_add_left (word.length * (looseFpf (word.eraseIdx i)).rank + 1) word.sum)
    have hpr := letters_raised (i := i') hs.pos
    refine ⟨N, raised word' i', fun fuel hN => ?_, by rw [length_raised, hs.len], ⟨looseFpf (raised word' i'), ?_, ?_⟩, ⟨i', ?_, ?_⟩,
      fun k => ?_, fun hc => ?_⟩
    · rw [hbump fuel (by rintro rfl; simp at hi), hf]
      exact hfu fuel hN
    · have h5 := (fr_loose (fits_size hpr)).2 (by rw [hl, length_raised, hs.len])
      unfold FR at h5
      rw [← loose_fV] at h5
      exact h5
    · rw [hl, length_raised, hs.len]
    · rw [length_raised]; exact hs.lt
    · rw [eraseIdx_raised]
      refine fpfWordOf_of (letters_erase hs.pos) ?_ (by rw [hs.val]; exact h4)
      rw [hs.val, List.length_eraseIdx_of_lt hs.lt, hs.len, h3, hle]
    · have := hs.inv k
      rw [getD_raised hs.lt]; omega
    · have h5 := congrArg (fun l => l.getD i' 0) hc
      have h6 := hs.inv i'
      rw [getD_raised hs.lt, if_pos rfl] at h5
      omega

example : fromFpfInvolutionWord false [2, 4, 3] = some (looseFpf [2, 4, 3]) ∧ fpfInvolutionLength (looseFpf [2, 4, 3]) = 3 ∧
    isFpfInvolution (looseFpf [4, 3]) = true ∧ isUnsigned (looseFpf [4, 3]) = true ∧ fpfInvolutionLength (looseFpf [4, 3]) < 5 ∧
    fpfLittleBump 5 10 [2, 4, 3] (looseFpf [4, 3]) = .ok [4, 6, 5] := by decide +kernel

/-- C107: a word that is not reduced, and a `y` that is no fixed-point-free involution, fail an assertion. -/
theorem C107_assertion {word : List Nat} {z : SPerm} (hz : fromFpfInvolutionWord false word = some z) {y : SPerm}
    (h : fpfInvolutionLength z ≠ word.length ∨ isFpfInvolution y = false) (depth fuel : Nat) :
    fpfLittleBump depth fuel word y = .error .assertion := by
  have hz' : looseFpf word = z := by rw [fpf_value] at hz; exact Option.some.inj hz
  unfold fpfLittleBump
  rw [hz']
  rcases h with h | h
  · rw [if_neg h]
  · rw [h]
    split <;> rfl

example : fpfInvolutionLength (looseFpf [1, 2]) ≠ 2 ∧ isFpfInvolution (fromWord [2]) = false := by decide +kernel

/-- C107: `fpf_involution_little_bump(word, j, k)` for a reduced word of the fixed-point-free involution `z`, with `t` the transposition
of `j` and `k`: if some atom `x` of `z` has length one more than `x t`, and `t z t` is one shorter than `z`, it is
`fpf_involution_little_bump(word, t z t)`, and otherwise the word; in whatever order `get_fpf_atoms` lists its set. -/
theorem C107_bump_at {word : List Nat} (hp : ∀ x ∈ word, 1 ≤ x) {z : SPerm} (hz : fromFpfInvolutionWord false word = some z)
    (hw : fpfInvolutionLength z = word.length) {order : List SPerm → List SPerm} (ho : ∀ l x, x ∈ order l ↔ x ∈ l) {depth : Nat}
    (hd : fpfInvolutionLength z < depth) (fuel : Nat) {j k : Nat} (hj : 1 ≤ j) (hk : 1 ≤ k) :
    ((∃ x, mul (mul (inverse x) (fpfStart z.rank)) x = z ∧ (len x : Int) = fpfInvolutionLength z ∧ len (mul x (reflectionT j k)) + 1 = len x ∧
        fpfInvolutionLength (mul (mul (reflectionT j k) z) (reflectionT j k)) + 1 = fpfInvolutionLength z) →
      fpfLittleBumpAt order depth fuel word j k = fpfLittleBump depth fuel word (mul (mul (reflectionT j k) z) (reflectionT j k))) ∧
    ((¬ ∃ x, mul (mul (inverse x) (fpfStart z.rank)) x = z ∧ (len x : Int) = fpfInvolutionLength z ∧ len (mul x (reflectionT j k)) + 1 = len x ∧
        fpfInvolutionLength (mul (mul (reflectionT j k) z) (reflectionT j k)) + 1 = fpfInvolutionLength z) →
      fpfLittleBumpAt order depth fuel word j k = .ok word) := by
  have hz' : looseFpf word = z := by rw [fpf_value] at hz; exact Option.some.inj hz
  have hzf : Fpf (fpfSize word) z := by rw [← hz']; exact fits_loose hp
  have hrk := hzf.rank
  have hzs : FpfInvolution z := fpf_iff_spec.2 (by rw [hrk]; exact hzf)
  obtain ⟨X, hX1, hX2⟩ := C58_get_fpf_atoms hzs hd
  have hm : minfpf? (fpfSize word) = some (fpfStart z.rank) := by rw [hrk]; exact minfpf?_eq (fpfSize_even word)
  obtain ⟨t, ht⟩ : ∃ t, reflectionT j k = t := ⟨_, rfl⟩
  have htt : inverse t = t := by
    refine inverse_of_involution (fun a => ?_)
    rw [← ht, call_reflectionT hj hk, call_reflectionT hj hk]
    unfold tFun
    (repeat' split) <;> omega
  have hconj : ∀ x, mul (mul (inverse x) (fpfStart z.rank)) x = z →
      mul (mul (inverse (mul x t)) (fpfStart z.rank)) (mul x t) = mul (mul t z) t := by
    intro x hx
    have h1 := congrArg (fun x => mul (mul t x) t) hx
    rw [inverse_mul_rev, htt, ← h1]
    simp only [mul_assoc']
  unfold fpfLittleBumpAt
  rw [hz']
  dsimp only
  rw [if_pos hw, hm, hX1]
  dsimp only
  rw [ht]
  have hmem : ∀ y, y ∈ (((order X).filter (fun x => decide ((len (mul x t) : Int) = (len x : Int) - 1))).map (fun x => mul x t)).filter
      (fun x => decide (fpfInvolutionLength (mul (mul (inverse x) (fpfStart z.rank)) x) = len x)) ↔
      ∃ x, mul x t = y ∧ mul (mul (inverse x) (fpfStart z.rank)) x = z ∧ (len x : Int) = fpfInvolutionLength z ∧ len (mul x t) + 1 = len x ∧
        fpfInvolutionLength (mul (mul t z) t) + 1 = fpfInvolutionLength z := by
    intro y
    simp only [List.mem_filter, List.mem_map, decide_eq_true_eq, ho, hX2]
    constructor
    · rintro ⟨⟨x, ⟨⟨h1, h2⟩, h3⟩, rfl⟩, h4⟩
      rw [hconj x h1] at h4
      exact ⟨x, rfl, h1, h2, by omega, by omega⟩
    · rintro ⟨x, rfl, h1, h2, h3, h4⟩
      exact ⟨⟨x, ⟨⟨h1, h2⟩, by omega⟩, rfl⟩, by rw [hconj x h1]; omega⟩
  cases hs : (((order X).filter (fun x => decide ((len (mul x t) : Int) = (len x : Int) - 1))).map (fun x => mul x t)).filter
      (fun x => decide (fpfInvolutionLength (mul (mul (inverse x) (fpfStart z.rank)) x) = len x)) with
  | nil =>
    rw [hs] at hmem
    refine ⟨fun ⟨x, h⟩ => ?_, fun _ => rfl⟩
    exact absurd ((hmem (mul x t)).2 ⟨x, rfl, h⟩) (by simp)
  | cons a l =>
    rw [hs] at hmem
    obtain ⟨x, h1, h2, h3⟩ := (hmem a).1 List.mem_cons_self
    refine ⟨fun _ => ?_, fun h => absurd ⟨x, h2, h3⟩ h⟩
    dsimp only
    rw [← h1, hconj x h2]

example : fpfLittleBumpAt id 5 10 [2, 4, 3] 1 2 = .ok [2, 4, 3] ∧ fpfLittleBumpAt id 5 10 [2, 4, 3] 2 4 = .ok [4, 6, 5] ∧
    fpfLittleBumpAt id 5 10 [2, 4, 3] 3 4 = .ok [2, 6, 4] := by decide +kernel

end Verif.Perm
