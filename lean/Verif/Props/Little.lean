import Verif.Lemmas.LittleCross

/-! # C104, C105: Little bumps of reduced words -/

namespace Verif.Perm
open Verif.PermSpec
attribute [-simp] List.getD_eq_getElem?_getD

/-- C104: `little_push(word, i)`, where dropping the letter at `i` leaves a reduced word, raises that letter by one and does not raise.
It reports `None` if the new word is reduced and otherwise another index with the same permutation after dropping it. -/
theorem C104_push {word : List Nat} {i : Nat} (hi : i < word.length) (hr : len (fromWord (word.eraseIdx i)) = word.length - 1) :
    ∃ new r, littlePush word i = .ok (new, r) ∧ new.length = word.length ∧
      (∀ k < word.length, new.getD k 0 = word.getD k 0 + if k = i then 1 else 0) ∧
      (r = none ↔ len (fromWord new) = new.length) ∧
      ∀ j, r = some j → j < word.length ∧ j ≠ i ∧ fromWord (new.eraseIdx j) = fromWord (word.eraseIdx i) := by
  rcases push_spec littleSys hi (by omega) with ⟨h1, h2⟩ | ⟨j, h1, h2, h3, h4, h5⟩
  · exact ⟨_, _, h1, length_raised .., fun k _ => getD_raised hi k, ⟨fun _ => by rw [h2, length_raised], fun _ => rfl⟩, fun j hj => by cases hj⟩
  · refine ⟨_, _, h1, length_raised .., fun k _ => getD_raised hi k, ⟨fun h => (by cases h), fun h => ?_⟩, fun j' hj => ?_⟩
    · rw [length_raised] at h
      exact absurd h h2
    · obtain rfl := Option.some.inj hj
      exact ⟨h3, h4, h5⟩

/-- The push of the test in /repo/tests/test_conjectures_little.py. -/
example : len (fromWord ([1, 3, 4, 3, 2, 3, 1].eraseIdx 6)) = 6 ∧ littlePush [1, 3, 4, 3, 2, 3, 1] 6 = .ok ([1, 3, 4, 3, 2, 3, 2], some 3) ∧
    littlePush [1, 3, 4, 4, 2, 3, 2] 2 = .ok ([1, 3, 5, 4, 2, 3, 2], none) := by decide +kernel

/-- C104: `little_bump(word, y)` for a reduced word and a permutation `y` whose length is smaller by one.  If the permutation of the
word covers `y` in the Bruhat order, the loop stops and the result is another reduced word of the same length with letters at least
as large, and its permutation covers `y` as well; otherwise the word is returned. -/
theorem C104_bump {word : List Nat} (hw : len (fromWord word) = word.length) {y : SPerm} (hy : len y + 1 = word.length) :
    (BruhatCovers y (fromWord word) → ∃ N out, (∀ fuel, N ≤ fuel → littleBump fuel word y = .ok out) ∧ out.length = word.length ∧
      len (fromWord out) = out.length ∧ BruhatCovers y (fromWord out) ∧ (∀ k, word.getD k 0 ≤ out.getD k 0) ∧ out ≠ word) ∧
    (¬ BruhatCovers y (fromWord word) → ∀ fuel, littleBump fuel word y = .ok word) := by
  have hinv := bump_spec littleSys (fun w _ => ∀ k, word.getD k 0 ≤ w.getD k 0)
    (fun w i j hi _ h _ _ _ _ k => by have := h k; rw [getD_raised hi]; omega) hw hy (fun _ _ _ _ => le_rfl)
  rcases hinv with ⟨h1, h2⟩ | ⟨N, i, word', i', hi, he, hi', hl, he', hI, hf, hfu⟩
  · refine ⟨fun h => ?_, fun _ => h2⟩
    obtain ⟨i, hi, he⟩ := erase_of_covers h
    exact absurd he (h1 i hi)
  · refine ⟨fun _ => ⟨N, _, hfu, by rw [length_raised, hl], by rw [hf, length_raised, hl], ?_, fun k => ?_, fun hc => ?_⟩, fun h => ?_⟩
    · exact covers_of_erase (i := i') (by rw [length_raised]; omega) (by rw [hf, length_raised, hl]) (by rw [eraseIdx_raised, he'])
        (by rw [length_raised, hl, hy])
    · have := hI k
      rw [getD_raised (by omega)]; omega
    · have h3 := congrArg (fun l => l.getD i' 0) hc
      have h4 := hI i'
      rw [getD_raised (by omega), if_pos rfl] at h3
      omega
    · exact absurd (covers_of_erase hi hw he hy) h

example : ∃ y : SPerm, len (fromWord [1, 3, 4, 3, 2, 3, 1]) = 7 ∧ len y + 1 = 7 ∧ y = fromWord [1, 3, 4, 3, 2, 3] ∧
    littleBump 10 [1, 3, 4, 3, 2, 3, 1] y = .ok [1, 3, 5, 4, 2, 3, 2] := ⟨_, by decide +kernel, by decide +kernel, rfl, by decide +kernel⟩

/-- C104: `little_bump(word, j, k)` is the bump of the word with `y = w * t_{j,k}` if that has length one less, and returns the word
otherwise; in the former case `w` covers `y`. -/
theorem C104_bump_at {word : List Nat} (hw : len (fromWord word) = word.length) {j k : Nat} (hj : 1 ≤ j) (hk : 1 ≤ k) :
    ∃ y : SPerm, (∀ x : Int, y.call x = (fromWord word).call
        (if x = j then k else if x = k then j else if x = -j then -k else if x = -k then -j else x)) ∧
      (len y + 1 = word.length → BruhatCovers y (fromWord word) ∧ ∀ fuel, littleBumpAt fuel word j k = littleBump fuel word y) ∧
      (len y + 1 ≠ word.length → ∀ fuel, littleBumpAt fuel word j k = .ok word) := by
  refine ⟨mul (fromWord word) (reflectionT j k), fun x => ?_, fun h => ⟨?_, fun fuel => ?_⟩, fun h fuel => ?_⟩
  · rw [call_mul, call_reflectionT hj hk]; rfl
  · rw [bruhatCovers_iff]
    have hne : j ≠ k := by
      rintro rfl
      have h1 : reflectionT j j = identity := ext_call (fun x => by
        rw [call_reflectionT hj hj, call_identity]; unfold tFun; (repeat' split) <;> omega)
      rw [h1, mul_one'] at h
      omega
    refine ⟨Adj.step (adj_of (a := (j : Int)) (b := (k : Int)) (by omega) (by omega) (by omega) ⟨?_, ?_, fun x h1 h2 => ?_⟩) (by omega), by omega⟩
    · rw [call_mul, call_reflectionT hj hk]; congr 1; unfold tFun; (repeat' split) <;> omega
    · rw [call_mul, call_reflectionT hj hk]; congr 1; unfold tFun; (repeat' split) <;> omega
    · rw [call_mul, call_reflectionT hj hk]; congr 1; unfold tFun; (repeat' split) <;> omega
  · unfold littleBumpAt
    dsimp only
    rw [if_pos hw, if_neg (by omega)]
  · unfold littleBumpAt
    dsimp only
    rw [if_pos hw, if_pos (by omega)]

/-- The bump of the test in /repo/tests/test_conjectures_little.py. -/
example : len (fromWord [1, 3, 4, 3, 2, 3, 1]) = 7 ∧ len (mul (fromWord [1, 3, 4, 3, 2, 3, 1]) (reflectionT 1 2)) + 1 = 7 ∧
    littleBumpAt 10 [1, 3, 4, 3, 2, 3, 1] 1 2 = .ok [1, 3, 5, 4, 2, 3, 2] := by decide +kernel

/-- C104: a word that is not reduced fails the assertion. -/
theorem C104_assertion {word : List Nat} (hw : len (fromWord word) ≠ word.length) (fuel : Nat) (y : SPerm) (j k : Nat) :
    littleBump fuel word y = .error .assertion ∧ littleBumpAt fuel word j k = .error .assertion :=
  ⟨if_neg hw, if_neg hw⟩

example : len (fromWord [1, 2, 1, 2]) ≠ 4 := by decide +kernel

/-- C104: the hypothesis on the length of `y` is needed, `little_bump((1, 2, 1), Permutation())` raises `Exception`. -/
theorem C104_raises : len (fromWord [1, 2, 1]) = 3 ∧ ∀ fuel, littleBump (fuel + 1) [1, 2, 1] identity = .error .exception := by
  refine ⟨by decide +kernel, fun fuel => ?_⟩
  have h1 : littlePush [1, 2, 1] 1 = .error .exception := by decide +kernel
  have h2 : len (fromWord [1, 2, 1]) = [1, 2, 1].length := by decide +kernel
  have h3 : (List.range [1, 2, 1].length).find? (fun i => decide (fromWord (without [1, 2, 1] i) = identity)) = some 1 := by decide +kernel
  unfold littleBump bumpWith
  rw [if_pos h2, h3]
  unfold littlePush at h1
  dsimp only
  rw [bumpLoop, h1]

/-- C105: a Little bump of a reduced word of positive letters.  If the word belongs to `t_{q,r} y` with `q < r`, where `y` has length
one less, the bump is a reduced word of `t_{r,s} y` for some `s > r`; every letter grows by at most one, and the bump has the same
descents as the word. -/
theorem C105_little {word : List Nat} (hpos : ∀ a ∈ word, 1 ≤ a) (hw : len (fromWord word) = word.length) {y : SPerm}
    (hy : len y + 1 = word.length) {q r : Nat} (hq : 1 ≤ q) (hqr : q < r)
    (hwy : ∀ x : Int, (fromWord word).call x = if y.call x = q then (r : Int) else if y.call x = r then (q : Int)
      else if y.call x = -q then -r else if y.call x = -r then -q else y.call x) :
    ∃ N out, (∀ fuel, N ≤ fuel → littleBump fuel word y = .ok out) ∧ out.length = word.length ∧ len (fromWord out) = out.length ∧
      (∃ s : Nat, r < s ∧ ∀ x : Int, (fromWord out).call x = if y.call x = r then (s : Int) else if y.call x = s then (r : Int)
        else if y.call x = -r then -s else if y.call x = -s then -r else y.call x) ∧
      (∀ k, out.getD k 0 = word.getD k 0 ∨ out.getD k 0 = word.getD k 0 + 1) ∧
      ∀ k, k + 1 < word.length → (out.getD k 0 > out.getD (k + 1) 0 ↔ word.getD k 0 > word.getD (k + 1) 0) := by
  have hpos' : ∀ k < word.length, 1 ≤ word.getD k 0 := fun k hk => by
    rw [List.getD_eq_getElem _ _ hk]; exact hpos _ (List.getElem_mem hk)
  have hwy' : fromWord word = mul (reflectionT q r) y := ext_call (fun x => by
    rw [hwy, call_mul, call_reflectionT hq (by omega)]; rfl)
  have h0 : ∀ i < word.length, fromWord (word.eraseIdx i) = y → WireInv word r word i := by
    intro i hi he
    obtain ⟨a, b, ha, hab, hpa, hpb, hc⟩ := cross hpos' hi hw
    rw [he, hwy'] at hc
    obtain ⟨rfl, rfl⟩ := reflectionT_inj hq hqr ha hab (mul_right_cancel' hc)
    exact ⟨rfl, hpos', hpb, rfl, fun k _ => Or.inl rfl⟩
  rcases bump_spec littleSys (fun w i => WireInv word r w i) (fun w i j hi hr h _ hj hji hv =>
      wireInv_push hi (by rw [List.length_eraseIdx_of_lt hi]; omega) h hj hji hv) hw hy h0 with
    ⟨h1, h2⟩ | ⟨N, i, word', i', hi, he, hi', hl, he', hI, hf, hfu⟩
  · exfalso
    have hlt := hqr
    have hcov : BruhatCovers y (fromWord word) := by
      rw [bruhatCovers_iff, hwy']
      refine ⟨Adj.step (adj_of (a := (inverse y).call q) (b := (inverse y).call r) (call_ne_zero (by omega)) (call_ne_zero (by omega))
        (fun hc => ?_) ⟨?_, ?_, fun x hx1 hx2 => ?_⟩) (by rw [← hwy']; omega), by rw [← hwy']; omega⟩
      · have := (call_odd _).inj _ _ hc
        omega
      · rw [call_mul, call_inverse, call_reflectionT hq (by omega), call_inverse]; unfold tFun; (repeat' split) <;> omega
      · rw [call_mul, call_inverse, call_reflectionT hq (by omega), call_inverse]; unfold tFun; (repeat' split) <;> omega
      · have e1 : (y.call x).natAbs ≠ q := fun hc => hx1 (by
          have := (call_natAbs y (x := x) (y := (inverse y).call q)).1 (by rw [call_inverse]; omega)
          exact this)
        have e2 : (y.call x).natAbs ≠ r := fun hc => hx2 (by
          have := (call_natAbs y (x := x) (y := (inverse y).call r)).1 (by rw [call_inverse]; omega)
          exact this)
        rw [call_mul, call_reflectionT hq (by omega)]; unfold tFun; (repeat' split) <;> omega
    obtain ⟨i, hi, he⟩ := erase_of_covers hcov
    exact h1 i hi he
  · have hlen : (raised word' i').length = word.length := by rw [length_raised, hl]
    have hred : len (fromWord (raised word' i')) = (raised word' i').length := by rw [hf, hlen]
    have honce : ∀ k, (raised word' i').getD k 0 = word.getD k 0 ∨ (raised word' i').getD k 0 = word.getD k 0 + 1 := by
      intro k
      rw [getD_raised (by omega)]
      by_cases hk : k = i'
      · subst hk; rw [if_pos rfl, hI.here]; exact Or.inr rfl
      · rw [if_neg hk]
        by_cases hkl : k < word.length
        · rcases hI.once k (by omega) with h | h
          · exact Or.inl h
          · exact Or.inr h.1
        · left
          rw [List.getD_eq_default _ _ (by omega), List.getD_eq_default _ _ (by omega)]
    refine ⟨N, _, hfu, hlen, hred, ?_, honce, fun k hk => ?_⟩
    · have hpos2 : ∀ k < (raised word' i').length, 1 ≤ (raised word' i').getD k 0 := fun k hk => by
        have := hpos' k (by omega)
        rcases honce k with h | h <;> omega
      obtain ⟨a, b, ha, hab, hpa, hpb, hc⟩ := cross hpos2 (i := i') (by omega) hred
      have h3 : (a : Int) = r := by
        apply path_inj (word := word') (i := i') (t := i')
        rw [hI.wire, ← path_raised (by omega), hpa, getD_raised (by omega), if_pos rfl]
        push_cast; rfl
      have h4 : a = r := by omega
      subst h4
      refine ⟨b, hab, fun x => ?_⟩
      rw [hc, eraseIdx_raised, he', call_mul, call_reflectionT (by omega) (by omega)]; rfl
    · have h1 := adjacent_ne hw hk
      have h2 := adjacent_ne hred (k := k) (by omega)
      rcases honce k with h3 | h3 <;> rcases honce (k + 1) with h4 | h4 <;> omega

/-- The word above: `q = 2`, `r = 5`, `s = 6`. -/
example : (∀ x ∈ [(1 : Int), 2, 3, 4, 5, 6, 7], (fromWord [1, 3, 4, 3, 2, 3, 1]).call x =
      (reflectionT 2 5).call ((fromWord [1, 3, 4, 3, 2, 3]).call x)) ∧
    fromWord [1, 3, 4, 3, 2, 3, 1] = mul (reflectionT 2 5) (fromWord [1, 3, 4, 3, 2, 3]) ∧
    fromWord [1, 3, 5, 4, 2, 3, 2] = mul (reflectionT 5 6) (fromWord [1, 3, 4, 3, 2, 3]) := by decide +kernel

end Verif.Perm
