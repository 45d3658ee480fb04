import Verif.Lemmas.WordsZeta

/-!
# Properties C13-C16: words (words.py)
-/

namespace Verif

open Words

/-! ## C13 -/

/-- C13: `f_i` and `e_i` are mutually inverse where they do not return None. -/
theorem C13_inverse (i : ℤ) (w v : List ℤ) : f i w = some v ↔ e i v = some w := by
  constructor
  · intro h
    obtain ⟨_, _, _, _, he, _⟩ := f_some i w v h
    exact he
  · intro h
    obtain ⟨_, _, _, _, hf, _⟩ := e_some i v w h
    exact hf

/-- C13: with several words as arguments the result is that for the joined word, cut at the same places. -/
theorem C13_cut (i : ℤ) (args : List (List ℤ)) :
    (fArgs i args = none ↔ f i args.flatten = none) ∧ (eArgs i args = none ↔ e i args.flatten = none) ∧
    (∀ out, fArgs i args = some out →
      f i args.flatten = some out.flatten ∧ out.map List.length = args.map List.length) ∧
    (∀ out, eArgs i args = some out →
      e i args.flatten = some out.flatten ∧ out.map List.length = args.map List.length) := by
  refine ⟨by simp [fArgs], by simp [eArgs], ?_, ?_⟩
  · intro out h
    rw [fArgs] at h
    cases hf : f i args.flatten with
    | none => rw [hf] at h; simp at h
    | some w =>
      rw [hf, Option.map_some, Option.some.injEq] at h
      subst h
      obtain ⟨h1, h2⟩ := recut_spec args w (f_length i _ _ hf)
      exact ⟨by rw [h1], h2⟩
  · intro out h
    rw [eArgs] at h
    cases hf : e i args.flatten with
    | none => rw [hf] at h; simp at h
    | some w =>
      rw [hf, Option.map_some, Option.some.injEq] at h
      subst h
      obtain ⟨h1, h2⟩ := recut_spec args w (e_length i _ _ hf)
      exact ⟨by rw [h1], h2⟩

/-- C13: consequently the operators on tuples of words are mutually inverse as well. -/
theorem C13_inverse_args (i : ℤ) (args out : List (List ℤ)) :
    fArgs i args = some out ↔ eArgs i out = some args := by
  have key : ∀ (a b : List (List ℤ)), a.map List.length = b.map List.length → a.flatten = b.flatten → a = b := by
    intro a
    induction a with
    | nil => intro b h _; cases b with
      | nil => rfl
      | cons => simp at h
    | cons x a ih =>
      intro b h1 h2
      cases b with
      | nil => simp at h1
      | cons y b =>
        simp only [List.map_cons, List.cons.injEq, List.flatten_cons] at h1 h2
        obtain ⟨h3, h4⟩ := List.append_inj h2 h1.1
        rw [h3, ih b h1.2 h4]
  constructor
  · intro h
    obtain ⟨h1, h2⟩ := (C13_cut i args).2.2.1 out h
    have h3 := (C13_inverse i _ _).1 h1
    cases h4 : eArgs i out with
    | none => rw [(C13_cut i out).2.1, h3] at h4; cases h4
    | some o =>
      obtain ⟨h5, h6⟩ := (C13_cut i out).2.2.2 o h4
      rw [h3, Option.some.injEq] at h5
      rw [key o args (by rw [h6, h2]) h5.symm]
  · intro h
    obtain ⟨h1, h2⟩ := (C13_cut i out).2.2.2 args h
    have h3 := (C13_inverse i _ _).2 h1
    cases h4 : fArgs i args with
    | none => rw [(C13_cut i args).1, h3] at h4; cases h4
    | some o =>
      obtain ⟨h5, h6⟩ := (C13_cut i args).2.2.1 o h4
      rw [h3, Option.some.injEq] at h5
      rw [key o out (by rw [h6, h2]) h5.symm]

-- 1 2 1 1 2: the pair (2, 1) at positions 1, 2 cancels; f_1 changes the last unmatched 1, at position 3
example : f 1 [1, 2, 1, 1, 2] = some [1, 2, 1, 2, 2] ∧ e 1 [1, 2, 1, 2, 2] = some [1, 2, 1, 1, 2] := by
  have h : f 1 [1, 2, 1, 1, 2] = some [1, 2, 1, 2, 2] := by rw [f_eq]; decide
  exact ⟨h, (C13_inverse _ _ _).1 h⟩
example : fArgs 1 [[1, 2], [], [1, 1, 2]] = some [[1, 2], [], [1, 2, 2]] := by
  rw [fArgs, f_eq]; decide

/-! ## C14 -/

/-- C14: a successful `f_i` (`e_i`) changes one letter `i` to `i + 1` (`i + 1` to `i`) and nothing else. -/
theorem C14_one_letter (i : ℤ) (w v : List ℤ) :
    (f i w = some v → ∃ j : ℕ, w[j]? = some i ∧ v[j]? = some (i + 1) ∧ v.length = w.length ∧
      ∀ k, k ≠ j → v[k]? = w[k]?) ∧
    (e i w = some v → ∃ j : ℕ, w[j]? = some (i + 1) ∧ v[j]? = some i ∧ v.length = w.length ∧
      ∀ k, k ≠ j → v[k]? = w[k]?) := by
  have key : ∀ (w : List ℤ) (j k : ℕ) (b : ℤ), j < w.length → k ≠ j →
      (w.take j ++ [b] ++ w.drop (j + 1))[k]? = w[k]? := by
    intro w j k b hj hk
    have : w.take j ++ [b] ++ w.drop (j + 1) = w.set j b := by
      rw [List.set_eq_take_append_cons_drop, if_pos hj]; simp
    rw [this, List.getElem?_set_ne (Ne.symm hk)]
  constructor
  · intro h
    obtain ⟨j, h1, h2, h3, _⟩ := f_some i w v h
    have hj : j < w.length := by by_contra hc; rw [List.getElem?_eq_none (by omega)] at h1; cases h1
    exact ⟨j, h1, h3, f_length i w v h, fun k hk => by rw [h2]; exact key w j k _ hj hk⟩
  · intro h
    obtain ⟨j, h1, h2, h3, _⟩ := e_some i w v h
    have hj : j < w.length := by by_contra hc; rw [List.getElem?_eq_none (by omega)] at h1; cases h1
    exact ⟨j, h1, h3, e_length i w v h, fun k hk => by rw [h2]; exact key w j k _ hj hk⟩

/-- C14: `f_i` can be applied `n` times iff some prefix has at least `n` more letters `i` than `i + 1`, and `e_i` can
be applied `n` times iff some suffix has at least `n` more letters `i + 1` than `i`. -/
theorem C14_string_lengths (i : ℤ) (w : List ℤ) (n : ℕ) :
    ((iter (f i) n w).isSome = true ↔
      ∃ k ≤ w.length, (n : ℤ) ≤ (w.take k).count i - (w.take k).count (i + 1)) ∧
    ((iter (e i) n w).isSome = true ↔
      ∃ k ≤ w.length, (n : ℤ) ≤ (w.drop k).count (i + 1) - (w.drop k).count i) := by
  constructor
  · rw [iter_f, ← Nat.cast_le (α := ℤ), (pqw_char i w).2]; rfl
  · rw [iter_e, ← Nat.cast_le (α := ℤ), pqw_char_e]
    simp only [diff, neg_sub]

example : (iter (f 1) 2 [1, 2, 1, 1, 2, 2]).isSome = true ∧ (iter (f 1) 3 [1, 2, 1, 1, 2, 2]).isSome = false := by
  rw [Bool.eq_false_iff, ne_eq, (C14_string_lengths 1 _ 2).1, (C14_string_lengths 1 _ 3).1]
  decide

/-! ## C15 -/

/-- C15: the coefficient of a tuple in `quasisymmetrize(w, zeta)`. -/
theorem C15_quasisymmetrize (zeta : List ℤ → ℤ) (w : List ℤ) (c : List ℕ) :
    (quasisymmetrize zeta w).getD c 0 =
      if (∀ a ∈ c, 0 < a) ∧ c.sum = w.length then ((c.splitLengths w).map zeta).prod else 0 :=
  getD_quasi zeta w c

/-- C15: no zero coefficient is stored. -/
theorem C15_no_zero (zeta : List ℤ → ℤ) (w : List ℤ) (c : List ℕ) : (quasisymmetrize zeta w).get? c ≠ some 0 :=
  quasi_noZero zeta w c

example : (quasisymmetrize increasingZeta [1, 3, 2]).getD [2, 1] 0 = 1 ∧
    (quasisymmetrize increasingZeta [1, 3, 2]).getD [1, 2] 0 = 0 := by
  rw [C15_quasisymmetrize, C15_quasisymmetrize]; decide

/-! ## C16 -/

/-- C16: the four monotone characters are the indicator functions of the four kinds of monotone words. -/
theorem C16_monotone (w : List ℤ) :
    increasingZeta w = (if w.Pairwise (· < ·) then 1 else 0) ∧
    decreasingZeta w = (if w.Pairwise (· > ·) then 1 else 0) ∧
    weaklyIncreasingZeta w = (if w.Pairwise (· ≤ ·) then 1 else 0) ∧
    weaklyDecreasingZeta w = (if w.Pairwise (· ≥ ·) then 1 else 0) := by
  simp only [increasingZeta, decreasingZeta, weaklyIncreasingZeta, weaklyDecreasingZeta, inc_iff, dec_iff,
    winc_iff, wdec_iff, and_self]

/-- A word that strictly decreases to a letter `m` and strictly increases from it. -/
def IsValley (w : List ℤ) : Prop :=
  ∃ a m b, w = a ++ m :: b ∧ (a ++ [m]).Pairwise (· > ·) ∧ (m :: b).Pairwise (· < ·)

/-- A word that strictly decreases to a letter `m`, repeats it once, and strictly increases from there. -/
def IsFlatValley (w : List ℤ) : Prop :=
  ∃ a m b, w = a ++ m :: m :: b ∧ (a ++ [m]).Pairwise (· > ·) ∧ (m :: b).Pairwise (· < ·)

/-- C16: `unimodal_zeta` is 1 on the empty word, 2 on valley words, 1 on words with a valley of two equal letters,
and 0 on all others. -/
theorem C16_unimodal (w : List ℤ) :
    (w = [] → unimodalZeta w = 1) ∧ (IsValley w → unimodalZeta w = 2) ∧ (IsFlatValley w → unimodalZeta w = 1) ∧
    (w ≠ [] → ¬ IsValley w → ¬ IsFlatValley w → unimodalZeta w = 0) := by
  refine ⟨by rintro rfl; decide, ?_, ?_, ?_⟩
  · rintro ⟨a, m, b, rfl, ha, hb⟩
    rw [unimodalZeta_eq_card]
    have : ((Finset.range ((a ++ m :: b).length + 1)).filter (fun k =>
        ((a ++ m :: b).take k).Pairwise (· > ·) ∧ ((a ++ m :: b).drop k).Pairwise (· < ·))) =
        {a.length, a.length + 1} := by
      ext k
      rw [Finset.mem_filter, Finset.mem_range, Finset.mem_insert, Finset.mem_singleton]
      constructor
      · rintro ⟨hk, h⟩; exact (cuts_unimodal a b m ha hb k (by omega)).1 h
      · intro h
        have hk : k ≤ (a ++ m :: b).length := by simp; omega
        exact ⟨by omega, (cuts_unimodal a b m ha hb k hk).2 h⟩
    rw [this, Finset.card_pair (by omega)]; rfl
  · rintro ⟨a, m, b, rfl, ha, hb⟩
    rw [unimodalZeta_eq_card]
    have : ((Finset.range ((a ++ m :: m :: b).length + 1)).filter (fun k =>
        ((a ++ m :: m :: b).take k).Pairwise (· > ·) ∧ ((a ++ m :: m :: b).drop k).Pairwise (· < ·))) =
        {a.length + 1} := by
      ext k
      rw [Finset.mem_filter, Finset.mem_range, Finset.mem_singleton, cuts_flat a b m ha hb]
      constructor
      · exact fun h => h.2
      · rintro rfl; exact ⟨by simp, rfl⟩
    rw [this, Finset.card_singleton]; rfl
  · intro hne hv hflat
    rw [unimodalZeta_eq_card, Nat.cast_eq_zero, Finset.card_eq_zero, Finset.filter_eq_empty_iff]
    rintro k hk ⟨h1, h2⟩
    rw [Finset.mem_range] at hk
    have hw := List.take_append_drop k w
    -- the smaller of the last letter before the cut and the first letter after it is the bottom
    have hv : ∀ (a : List ℤ) (m : ℤ) (b : List ℤ), w = a ++ m :: b → (a ++ [m]).Pairwise (· > ·) →
        (m :: b).Pairwise (· < ·) → False := fun a m b h1 h2 h3 => hv ⟨a, m, b, h1, h2, h3⟩
    rcases List.eq_nil_or_concat (w.take k) with h3 | ⟨a, m, h3⟩
    · rw [h3] at hw
      cases h4 : w.drop k with
      | nil => rw [h4] at hw; simp at hw; exact absurd hw hne
      | cons m b => exact hv [] m b (by rw [← hw, h4]) (by simp) (by rw [← h4]; exact h2)
    · rw [List.concat_eq_append] at h3
      cases h4 : w.drop k with
      | nil => exact hv a m [] (by rw [← hw, h4, h3]; simp) (by rw [← h3]; exact h1) (by simp)
      | cons x b =>
        rcases lt_trichotomy m x with h | h | h
        · refine hv a m (x :: b) (by rw [← hw, h4, h3]; simp) (by rw [← h3]; exact h1) ?_
          rw [h4] at h2
          refine List.pairwise_cons.2 ⟨?_, h2⟩
          intro y hy
          rcases List.mem_cons.1 hy with rfl | hy
          · exact h
          · exact h.trans (List.rel_of_pairwise_cons h2 hy)
        · subst h
          exact hflat ⟨a, m, b, by rw [← hw, h4, h3]; simp, by rw [← h3]; exact h1, by rw [← h4]; exact h2⟩
        · refine hv (a ++ [m]) x b (by rw [← hw, h4, h3]) ?_ (by rw [← h4]; exact h2)
          rw [h3] at h1
          rw [List.pairwise_append]
          refine ⟨h1, by simp, ?_⟩
          intro y hy z hz
          rw [List.mem_singleton] at hz
          subst hz
          rcases List.mem_append.1 hy with hy | hy
          · exact h.trans ((List.pairwise_append.1 h1).2.2 y hy m (by simp))
          · rw [List.mem_singleton] at hy; subst hy; exact h

example : IsValley [3, 1, 2, 5] := ⟨[3], 1, [2, 5], rfl, by decide, by decide⟩
example : unimodalZeta [3, 1, 2, 5] = 2 ∧ unimodalZeta [1, 3, 2] = 0 ∧ unimodalZeta [3, 1, 1, 2] = 1 := by decide

end Verif
