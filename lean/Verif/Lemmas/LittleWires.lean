import Verif.Lemmas.Little
import Verif.Lemmas.Reflections

/-! # Wires of words of positive letters, and their change under pushes -/

namespace Verif.Perm
attribute [-simp] List.getD_eq_getElem?_getD

theorem reduced_prefix {a b : List Nat} (h : len (fromWord (a ++ b)) = (a ++ b).length) : len (fromWord a) = a.length := by
  obtain ⟨h1, h2⟩ := getReducedWord_reduced (fromWord a)
  have h3 : fromWord (getReducedWord (fromWord a) ++ b) = fromWord (a ++ b) := by rw [fromWord_append, h1, fromWord_append]
  have h4 := len_fromWord_le (getReducedWord (fromWord a) ++ b)
  have h5 := len_fromWord_le a
  rw [h3, h] at h4
  simp only [List.length_append] at h4
  omega

/-- The height of the wire `x` after `t` letters, where the letter at `i` is skipped. -/
def path (word : List Nat) (i : Nat) (x : Int) : Nat → Int
  | 0 => x
  | t + 1 => if t = i then path word i x t else sFun (word.getD t 0) (path word i x t)

theorem path_skip {word : List Nat} {i : Nat} {x : Int} : path word i x (i + 1) = path word i x i := if_pos rfl

theorem path_letter {word : List Nat} {i t : Nat} {x : Int} (h : t ≠ i) :
    path word i x (t + 1) = sFun (word.getD t 0) (path word i x t) := if_neg h

theorem take_succ_getD {word : List Nat} {t : Nat} (h : t < word.length) : word.take (t + 1) = word.take t ++ [word.getD t 0] := by
  rw [List.take_succ, List.getD_eq_getElem _ _ h, List.getElem?_eq_getElem h]; rfl

theorem erase_take {word : List Nat} {i t : Nat} (h : t < word.length) : (word.take (t + 1)).eraseIdx i =
    if t = i then (word.take t).eraseIdx i else (word.take t).eraseIdx i ++ [word.getD t 0] := by
  have hl : (word.take t).length = t := by simp; omega
  rw [take_succ_getD h]
  rcases lt_trichotomy t i with hlt | rfl | hgt
  · rw [if_neg (by omega), List.eraseIdx_of_length_le (by simp only [List.length_append, List.length_singleton]; omega),
      List.eraseIdx_of_length_le (by omega)]
  · rw [if_pos rfl, List.eraseIdx_append_of_length_le (by omega), hl, Nat.sub_self, List.eraseIdx_cons_zero, List.append_nil,
      List.eraseIdx_of_length_le (by omega)]
  · rw [if_neg (by omega), List.eraseIdx_append_of_lt_length (by omega)]

theorem path_eq {word : List Nat} {i : Nat} {x : Int} {t : Nat} (ht : t ≤ word.length) :
    path word i x t = (inverse (fromWord ((word.take t).eraseIdx i))).call x := by
  induction t with
  | zero =>
    have h1 : fromWord [] = identity := rfl
    have h2 : inverse identity = identity := inverse_of_involution identity_involution
    rw [List.take_zero, List.eraseIdx_nil, h1, h2, call_identity]; rfl
  | succ t ih =>
    have ih := ih (by omega)
    rw [erase_take (by omega)]
    by_cases h : t = i
    · rw [if_pos h, ← ih]; exact if_pos h
    · rw [if_neg h, path_letter h, ih, fromWord_concat]
      obtain ⟨u, hu⟩ : ∃ u, fromWord ((word.take t).eraseIdx i) = u := ⟨_, rfl⟩
      rw [hu]
      have h1 : inverse (mul u (s (word.getD t 0))) = mul (s (word.getD t 0)) (inverse u) := by
        apply mul_left_cancel' (u := mul u (s (word.getD t 0)))
        rw [mul_inverse, mul_assoc', s_mul_s_mul, mul_inverse]
      rw [h1, call_mul, call_s]

theorem path_inj {word : List Nat} {i : Nat} {x y : Int} {t : Nat} (h : path word i x t = path word i y t) : x = y := by
  induction t with
  | zero => exact h
  | succ t ih =>
    apply ih
    rw [path, path] at h
    split at h
    · exact h
    · have := congrArg (sFun (word.getD t 0)) h
      simpa only [sFun_sFun] using this

theorem path_surj {word : List Nat} {i t : Nat} (ht : t ≤ word.length) (z : Int) :
    ∃ x, path word i x t = z := by
  refine ⟨(fromWord ((word.take t).eraseIdx i)).call z, ?_⟩
  rw [path_eq ht]; simp

/-- Equal letters move equal heights to equal heights, and conversely. -/
theorem path_trans {word word' : List Nat} {i i' : Nat} {x y : Int} {t1 : Nat} (d : Nat)
    (h : ∀ t, t1 ≤ t → t < t1 + d → (t = i ↔ t = i') ∧ word.getD t 0 = word'.getD t 0) :
    path word i x t1 = path word' i' y t1 ↔ path word i x (t1 + d) = path word' i' y (t1 + d) := by
  induction d with
  | zero => rfl
  | succ d ih =>
    rw [ih (fun t h1 h2 => h t h1 (by omega)), ← Nat.add_assoc]
    obtain ⟨h1, h2⟩ := h (t1 + d) (by omega) (by omega)
    by_cases hi : t1 + d = i
    · have hi' := h1.1 hi
      subst hi
      subst hi'
      rw [path_skip, path_skip]
    · rw [path_letter hi, path_letter (fun hc => hi (h1.2 hc)), h2]
      constructor
      · intro h; rw [h]
      · intro h
        have := congrArg (sFun (word'.getD (t1 + d) 0)) h
        simpa only [sFun_sFun] using this

theorem path_pos {word : List Nat} (hw : ∀ k < word.length, 1 ≤ word.getD k 0) {i : Nat} {x : Int} (hx : 0 < x) {t : Nat} (ht : t ≤ word.length) :
    0 < path word i x t := by
  induction t with
  | zero => exact hx
  | succ t ih =>
    have ih := ih (by omega)
    have h1 := hw t (by omega)
    rw [path]
    split
    · exact ih
    · unfold sFun
      (repeat' split) <;> omega

/-- In a reduced word two wires that have crossed stay crossed. -/
theorem path_persist {word : List Nat} {i : Nat} (hr : len (fromWord (word.eraseIdx i)) = (word.eraseIdx i).length)
    {x y : Int} (hx : x ≠ 0) (hy : y ≠ 0) (hxy : x < y) {t1 t2 : Nat} (h12 : t1 ≤ t2) (ht : t2 ≤ word.length)
    (h : path word i y t1 < path word i x t1) : path word i y t2 < path word i x t2 := by
  obtain ⟨d, rfl⟩ := Nat.exists_eq_add_of_le h12
  clear h12
  induction d with
  | zero => exact h
  | succ d ih =>
    have ih := ih (by omega)
    rw [← Nat.add_assoc]
    obtain ⟨t, ht0⟩ : ∃ t, t1 + d = t := ⟨_, rfl⟩
    rw [ht0] at ih ⊢
    by_cases hti : t = i
    · subst hti; rwa [path_skip, path_skip]
    rw [path_letter hti, path_letter hti]
    obtain ⟨e, he⟩ : ∃ e, word.getD t 0 = e := ⟨_, rfl⟩
    rw [he]
    have hpre : ∃ b, word.eraseIdx i = (word.take (t + 1)).eraseIdx i ++ b := by
      by_cases hit : i < t + 1
      · refine ⟨word.drop (t + 1), ?_⟩
        conv_lhs => rw [← List.take_append_drop (t + 1) word]
        rw [List.eraseIdx_append_of_lt_length (by simp; omega)]
      · refine ⟨(word.drop (t + 1)).eraseIdx (i - (t + 1)), ?_⟩
        conv_lhs => rw [← List.take_append_drop (t + 1) word]
        have hl : (word.take (t + 1)).length = t + 1 := by simp; omega
        rw [List.eraseIdx_append_of_length_le (by omega), hl, List.eraseIdx_of_length_le (l := word.take (t + 1)) (by omega)]
    obtain ⟨b, hb⟩ := hpre
    rw [hb] at hr
    have hr' := reduced_prefix hr
    rw [erase_take (by omega), if_neg hti, he] at hr'
    have hred : Reduced (fromWord ((word.take t).eraseIdx i ++ [e])) ((word.take t).eraseIdx i ++ [e]) := ⟨rfl, hr'.symm⟩
    rw [reduced_concat] at hred
    have hd := hred.1
    rw [mem_rightDescents, fromWord_concat, desc_mul_s] at hd
    rw [path_eq (by omega), path_eq (by omega)] at ih ⊢
    obtain ⟨u, hu⟩ : ∃ u, fromWord ((word.take t).eraseIdx i) = u := ⟨_, rfl⟩
    rw [hu] at ih hd ⊢
    unfold Desc at hd
    refine sFun_lt ih (call_ne_zero hy) (call_ne_zero hx) (fun hc => hd ?_) (fun hc => hd ?_)
    · rw [← hc.1, ← hc.2]; simpa using hxy
    · have h1 : u.call (lo e) = -x := by
        have := congrArg u.call hc.2
        rw [call_inverse, (call_odd u).neg] at this
        omega
      have h2 : u.call ((e : Int) + 1) = -y := by
        have := congrArg u.call hc.1
        rw [call_inverse, (call_odd u).neg] at this
        omega
      rw [h1, h2]; omega

/-- The order of two wires does not change between two moments at which they are in the same order. -/
theorem path_between {word : List Nat} {i : Nat} (hr : len (fromWord (word.eraseIdx i)) = (word.eraseIdx i).length)
    {x y : Int} (hx : x ≠ 0) (hy : y ≠ 0) {t1 t2 t : Nat} (h1 : t1 ≤ t) (h2 : t ≤ t2) (ht : t2 ≤ word.length)
    (ha : path word i x t1 < path word i y t1) (hb : path word i x t2 < path word i y t2) : path word i x t < path word i y t := by
  rcases lt_trichotomy x y with hxy | rfl | hxy
  · by_contra hc
    have hne : path word i x t ≠ path word i y t := fun h => by have := path_inj h; omega
    have := path_persist hr hx hy hxy h2 ht (by omega)
    omega
  · omega
  · exact path_persist hr hy hx hxy h1 (by omega) ha

theorem path_neg {word : List Nat} {i : Nat} {x : Int} {t : Nat} (ht : t ≤ word.length) : path word i (-x) t = -path word i x t := by
  rw [path_eq ht, path_eq ht, (call_odd _).neg]

theorem pos_of_path {word : List Nat} (hw : ∀ k < word.length, 1 ≤ word.getD k 0) {i : Nat} {x : Int} {t : Nat} (ht : t ≤ word.length)
    (h : 0 < path word i x t) : 0 < x := by
  rcases lt_trichotomy x 0 with hx | rfl | hx
  · have := path_pos hw (i := i) (x := -x) (by omega) ht
    rw [path_neg ht] at this
    omega
  · have := path_neg (x := 0) (i := i) ht
    rw [neg_zero] at this
    omega
  · exact hx

theorem path_final {word : List Nat} {i : Nat} {x : Int} :
    path word i x word.length = (inverse (fromWord (word.eraseIdx i))).call x := by
  rw [path_eq le_rfl, List.take_length]

theorem sFun_pair {d : Nat} {a b : Int} (hd : 1 ≤ d) (ha : 0 < a) (hab : a ≠ b) (h : sFun d a = b) :
    (a = d ∧ b = d + 1) ∨ (a = d + 1 ∧ b = d) := by
  unfold sFun at h
  (repeat' split at h) <;> omega

theorem sFun_up {d : Nat} (hd : 1 ≤ d) : sFun d (d : Int) = d + 1 := (sFun_vals hd).1
theorem sFun_down {d : Nat} (hd : 1 ≤ d) : sFun d ((d : Int) + 1) = d := (sFun_vals hd).2.1

section
variable {word : List Nat} {i j : Nat} {r : Int}

/-- The crossing at which the push goes on, if it is to the right. -/
theorem push_right (hw : ∀ k < word.length, 1 ≤ word.getD k 0) (hred : len (fromWord (word.eraseIdx i)) = (word.eraseIdx i).length)
    (hr : path word i r i = word.getD i 0 + 1) (hij : i < j) (hj : j < word.length)
    (hv : fromWord ((raised word i).eraseIdx j) = fromWord (word.eraseIdx i)) {s : Int} (hs : path word i s i = word.getD i 0 + 2) :
    path word i r j = word.getD j 0 ∧ path word i s j = word.getD j 0 + 1 ∧
    (∀ t, t ≤ word.length → path (raised word i) j r t = if i < t ∧ t ≤ j then path word i s t else path word i r t) ∧
    ∀ t, i ≤ t → t ≤ j → path word i r t < path word i s t := by
  have hi : i < word.length := by omega
  have hr0 : 0 < r := pos_of_path hw (i := i) (t := i) (by omega) (by rw [hr]; omega)
  have hs0 : 0 < s := pos_of_path hw (i := i) (t := i) (by omega) (by rw [hs]; omega)
  have hrs : r ≠ s := by rintro rfl; omega
  have hfin : path (raised word i) j r (raised word i).length = path word i r word.length := by rw [path_final, path_final, hv]
  rw [length_raised] at hfin
  have hg : ∀ t, t ≠ i → word.getD t 0 = (raised word i).getD t 0 := fun t ht => by rw [getD_raised hi, if_neg ht]; rfl
  have h1 : ∀ t, t ≤ i → path word i r t = path (raised word i) j r t := fun t ht => by
    have := (path_trans (word := word) (word' := raised word i) (i := i) (i' := j) (x := r) (y := r) (t1 := 0) t
      (fun t' _ h2 => ⟨by omega, hg t' (by omega)⟩)).1 rfl
    simpa using this
  have h2 : path word i s (i + 1) = path (raised word i) j r (i + 1) := by
    rw [path_skip, hs, path_letter (by omega), ← h1 i le_rfl, hr, getD_raised hi, if_pos rfl]
    have := sFun_up (d := word.getD i 0 + 1) (by omega)
    push_cast at this ⊢
    omega
  have h3 : ∀ t, i < t → t ≤ j → path word i s t = path (raised word i) j r t := fun t ht1 ht2 => by
    have := (path_trans (word := word) (word' := raised word i) (i := i) (i' := j) (x := s) (y := r) (t1 := i + 1) (t - (i + 1))
      (fun t' h3 h4 => ⟨by omega, hg t' (by omega)⟩)).1 h2
    rwa [show i + 1 + (t - (i + 1)) = t by omega] at this
  have h4 : ∀ t, j < t → t ≤ word.length → path word i r t = path (raised word i) j r t := fun t ht1 ht2 => by
    have := (path_trans (word := word) (word' := raised word i) (i := i) (i' := j) (x := r) (y := r) (t1 := t) (word.length - t)
      (fun t' h3 h4 => ⟨by omega, hg t' (by omega)⟩)).2 (by rw [show t + (word.length - t) = word.length by omega]; exact hfin.symm)
    exact this
  have h5 : sFun (word.getD j 0) (path word i r j) = path word i s j := by
    have ha := h4 (j + 1) (by omega) (by omega)
    rw [path_letter (by omega), path_skip, ← h3 j hij le_rfl] at ha
    exact ha
  have hpj := path_pos hw (i := i) hr0 (show j ≤ word.length by omega)
  have h6 := sFun_pair (hw j hj) hpj (fun h => hrs (path_inj h)) h5
  have h7 : path word i r i < path word i s i := by omega
  have h8 : path word i r (j + 1) = path word i s j ∧ path word i s (j + 1) = path word i r j := by
    rw [path_letter (by omega), path_letter (by omega), ← h5, sFun_sFun]
    exact ⟨rfl, rfl⟩
  have h9 : path word i r j = word.getD j 0 ∧ path word i s j = word.getD j 0 + 1 := by
    rcases h6 with h | h
    · exact h
    · exfalso
      have := path_between hred (x := r) (y := s) (by omega) (by omega) (t1 := i) (t2 := j + 1) (t := j) (by omega) (by omega) (by omega) h7
        (by omega)
      omega
  refine ⟨h9.1, h9.2, fun t ht => ?_, fun t ht1 ht2 => ?_⟩
  · split
    · exact (h3 t (by omega) (by omega)).symm
    · by_cases hti : t ≤ i
      · exact (h1 t hti).symm
      · exact (h4 t (by omega) ht).symm
  · exact path_between hred (by omega) (by omega) ht1 ht2 (by omega) h7 (by omega)

/-- The crossing at which the push goes on, if it is to the left. -/
theorem push_left (hw : ∀ k < word.length, 1 ≤ word.getD k 0) (hred : len (fromWord (word.eraseIdx i)) = (word.eraseIdx i).length)
    (hr : path word i r i = word.getD i 0 + 1) (hij : j < i) (hi : i < word.length)
    (hv : fromWord ((raised word i).eraseIdx j) = fromWord (word.eraseIdx i)) {s : Int} (hs : path word i s i = word.getD i 0 + 2) :
    path word i r j = word.getD j 0 + 1 ∧ path word i s j = word.getD j 0 ∧
    (∀ t, t ≤ word.length → path (raised word i) j r t = if j < t ∧ t ≤ i then path word i s t else path word i r t) ∧
    ∀ t, j < t → t ≤ i → path word i r t < path word i s t := by
  have hr0 : 0 < r := pos_of_path hw (i := i) (t := i) (by omega) (by rw [hr]; omega)
  have hs0 : 0 < s := pos_of_path hw (i := i) (t := i) (by omega) (by rw [hs]; omega)
  have hrs : r ≠ s := by rintro rfl; omega
  have hfin : path (raised word i) j r (raised word i).length = path word i r word.length := by rw [path_final, path_final, hv]
  rw [length_raised] at hfin
  have hg : ∀ t, t ≠ i → word.getD t 0 = (raised word i).getD t 0 := fun t ht => by rw [getD_raised hi, if_neg ht]; rfl
  have h1 : ∀ t, t ≤ j → path word i r t = path (raised word i) j r t := fun t ht => by
    have := (path_trans (word := word) (word' := raised word i) (i := i) (i' := j) (x := r) (y := r) (t1 := 0) t
      (fun t' _ h2 => ⟨by omega, hg t' (by omega)⟩)).1 rfl
    simpa using this
  have h4 : ∀ t, i < t → t ≤ word.length → path word i r t = path (raised word i) j r t := fun t ht1 ht2 => by
    have := (path_trans (word := word) (word' := raised word i) (i := i) (i' := j) (x := r) (y := r) (t1 := t) (word.length - t)
      (fun t' h3 h4 => ⟨by omega, hg t' (by omega)⟩)).2 (by rw [show t + (word.length - t) = word.length by omega]; exact hfin.symm)
    exact this
  have h2 : path word i s i = path (raised word i) j r i := by
    have ha := h4 (i + 1) (by omega) (by omega)
    rw [path_skip, hr, path_letter (by omega), getD_raised hi, if_pos rfl] at ha
    have hb := congrArg (sFun (word.getD i 0 + 1)) ha
    rw [sFun_sFun] at hb
    have := sFun_up (d := word.getD i 0 + 1) (by omega)
    push_cast at this
    omega
  have h3 : ∀ t, j < t → t ≤ i → path word i s t = path (raised word i) j r t := fun t ht1 ht2 => by
    have := (path_trans (word := word) (word' := raised word i) (i := i) (i' := j) (x := s) (y := r) (t1 := t) (i - t)
      (fun t' h3 h4 => ⟨by omega, hg t' (by omega)⟩)).2 (by rw [show t + (i - t) = i by omega]; exact h2)
    exact this
  have h5 : sFun (word.getD j 0) (path word i r j) = path word i s j := by
    have ha := h3 (j + 1) (by omega) (by omega)
    rw [path_letter (by omega), path_skip, ← h1 j le_rfl] at ha
    rw [← ha, sFun_sFun]
  have hpj := path_pos hw (i := i) hr0 (show j ≤ word.length by omega)
  have h6 := sFun_pair (hw j (by omega)) hpj (fun h => hrs (path_inj h)) h5
  have h7 : path word i r i < path word i s i := by omega
  have h8 : path word i r (j + 1) = path word i s j ∧ path word i s (j + 1) = path word i r j := by
    rw [path_letter (by omega), path_letter (by omega), ← h5, sFun_sFun]
    exact ⟨rfl, rfl⟩
  have h9 : path word i r j = word.getD j 0 + 1 ∧ path word i s j = word.getD j 0 := by
    rcases h6 with h | h
    · exfalso
      have := path_between hred (x := r) (y := s) (by omega) (by omega) (t1 := j) (t2 := i) (t := j + 1) (by omega) (by omega) (by omega)
        (by omega) h7
      omega
    · exact h
  refine ⟨h9.1, h9.2, fun t ht => ?_, fun t ht1 ht2 => ?_⟩
  · split
    · exact (h3 t (by omega) (by omega)).symm
    · by_cases hti : t ≤ j
      · exact (h1 t hti).symm
      · exact (h4 t (by omega) ht).symm
  · exact path_between hred (t1 := j + 1) (t2 := i) (by omega) (by omega) ht1 ht2 (by omega) (by omega) h7

end

/-- What holds during a bump that begins with `start` and the wire `r`. -/
structure WireInv (start : List Nat) (r : Int) (word : List Nat) (i : Nat) : Prop where
  length : word.length = start.length
  pos : ∀ k < word.length, 1 ≤ word.getD k 0
  wire : path word i r i = word.getD i 0 + 1
  here : word.getD i 0 = start.getD i 0
  once : ∀ k < word.length, word.getD k 0 = start.getD k 0 ∨ (word.getD k 0 = start.getD k 0 + 1 ∧
    (k < i → (word.getD k 0 : Int) + 1 ≤ path word i r (k + 1)) ∧ (i < k → (word.getD k 0 : Int) + 1 ≤ path word i r k))

theorem sFun_high {d : Nat} (hd : 1 ≤ d) {a b : Int} (ha : 0 < a) (hb : 0 < b) (h : sFun d a = b) (hdb : (d : Int) + 1 ≤ b) : (d : Int) ≤ a := by
  unfold sFun at h
  (repeat' split at h) <;> omega

theorem wireInv_push {start word : List Nat} {r : Int} {i j : Nat} (hi : i < word.length)
    (hred : len (fromWord (word.eraseIdx i)) = (word.eraseIdx i).length) (h : WireInv start r word i) (hj : j < word.length) (hji : j ≠ i)
    (hv : fromWord ((raised word i).eraseIdx j) = fromWord (word.eraseIdx i)) : WireInv start r (raised word i) j := by
  obtain ⟨h1, h2, h3, h4, h5⟩ := h
  obtain ⟨s, hs⟩ := path_surj (word := word) (i := i) (t := i) (by omega) (word.getD i 0 + 2)
  have hr0 : 0 < r := pos_of_path h2 (i := i) (t := i) (by omega) (by rw [h3]; omega)
  have hpp : ∀ t ≤ word.length, 0 < path word i r t := fun t ht => path_pos h2 hr0 ht
  have hpos : ∀ k < (raised word i).length, 1 ≤ (raised word i).getD k 0 := fun k hk => by
    rw [length_raised] at hk
    have := h2 k hk
    rw [getD_raised hi]; omega
  rcases Nat.lt_or_gt_of_ne hji with hlt | hgt
  · obtain ⟨a1, a2, a3, a4⟩ := push_left h2 hred h3 hlt hi hv hs
    refine ⟨by rw [length_raised, h1], hpos, ?_, ?_, fun k hk => ?_⟩
    · rw [a3 j (by omega), if_neg (by omega), a1, getD_raised hi, if_neg hji]; rfl
    · rw [getD_raised hi, if_neg hji]
      rcases h5 j hj with h | ⟨ha, hb, hc⟩
      · exact h
      · exfalso
        have := hb hlt
        rw [path_letter hji, a1, sFun_down (h2 j hj)] at this
        omega
    · rw [length_raised] at hk
      by_cases hki : k = i
      · right
        subst hki
        rw [getD_raised hi, if_pos rfl, h4]
        refine ⟨rfl, fun h => by omega, fun _ => ?_⟩
        rw [a3 k (by omega), if_pos ⟨hlt, le_rfl⟩, hs, h4]
        push_cast
        omega
      · rw [getD_raised hi, if_neg hki, Nat.add_zero]
        refine (h5 k hk).imp id (fun ⟨ha, hb, hc⟩ => ⟨ha, fun hkj => ?_, fun hkj => ?_⟩)
        · have := hb (by omega)
          rw [a3 (k + 1) (by omega), if_neg (by omega)]
          exact this
        · rcases Nat.lt_or_gt_of_ne hki with hk1 | hk1
          · have hb := hb hk1
            rw [a3 k (by omega), if_pos ⟨hkj, by omega⟩]
            have h6 := a4 k hkj (by omega)
            have h7 := sFun_high (h2 k hk) (hpp k (by omega)) (hpp (k + 1) (by omega)) (path_letter (word := word) (i := i) (x := r) hki).symm hb
            omega
          · rw [a3 k (by omega), if_neg (by omega)]
            exact hc hk1
  · obtain ⟨a1, a2, a3, a4⟩ := push_right h2 hred h3 hgt hj hv hs
    refine ⟨by rw [length_raised, h1], hpos, ?_, ?_, fun k hk => ?_⟩
    · rw [a3 j (by omega), if_pos ⟨hgt, le_rfl⟩, a2, getD_raised hi, if_neg hji]; rfl
    · rw [getD_raised hi, if_neg hji]
      rcases h5 j hj with h | ⟨ha, hb, hc⟩
      · exact h
      · exfalso
        have := hc hgt
        omega
    · rw [length_raised] at hk
      by_cases hki : k = i
      · right
        subst hki
        rw [getD_raised hi, if_pos rfl, h4]
        refine ⟨rfl, fun _ => ?_, fun h => by omega⟩
        rw [a3 (k + 1) (by omega), if_pos ⟨by omega, by omega⟩, path_skip, hs, h4]
        push_cast
        omega
      · rw [getD_raised hi, if_neg hki, Nat.add_zero]
        refine (h5 k hk).imp id (fun ⟨ha, hb, hc⟩ => ⟨ha, fun hkj => ?_, fun hkj => ?_⟩)
        · rcases Nat.lt_or_gt_of_ne hki with hk1 | hk1
          · rw [a3 (k + 1) (by omega), if_neg (by omega)]
            exact hb hk1
          · have hc := hc hk1
            rw [a3 (k + 1) (by omega), if_pos ⟨by omega, by omega⟩]
            have h6 := a4 (k + 1) (by omega) (by omega)
            have h7 := sFun_high (h2 k hk) (hpp (k + 1) (by omega)) (hpp k (by omega))
              (by rw [path_letter (word := word) (i := i) (x := r) hki, sFun_sFun]) hc
            omega
        · rw [a3 k (by omega), if_neg (by omega)]
          exact hc (by omega)

end Verif.Perm
