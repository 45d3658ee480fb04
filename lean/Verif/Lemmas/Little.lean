import Verif.Model.Little
import Verif.Lemmas.Bruhat
import Verif.Lemmas.PermCodes

/-! # Pushes and bumps for a general value of words -/

namespace Verif.Perm
attribute [-simp] List.getD_eq_getElem?_getD

theorem without_eq (word : List Nat) (i : Nat) : without word i = word.eraseIdx i := (List.eraseIdx_eq_take_drop_succ word i).symm

theorem eraseIdx_set_self (word : List Nat) (i x : Nat) : (word.set i x).eraseIdx i = word.eraseIdx i := by
  induction word generalizing i with
  | nil => rfl
  | cons a l ih => cases i with
    | zero => rfl
    | succ i => simp [ih]

theorem set_eq_slices {word : List Nat} {i x : Nat} (hi : i < word.length) :
    word.take i ++ [x] ++ word.drop (i + 1) = word.set i x := by
  rw [List.set_eq_take_append_cons_drop, if_pos hi]; simp

/-- The letter at `i` raised by one. -/
def raised (word : List Nat) (i : Nat) : List Nat := word.set i (word.getD i 0 + 1)

theorem length_raised (word : List Nat) (i : Nat) : (raised word i).length = word.length := List.length_set

theorem eraseIdx_raised (word : List Nat) (i : Nat) : (raised word i).eraseIdx i = word.eraseIdx i := eraseIdx_set_self ..

theorem getD_raised {word : List Nat} {i : Nat} (hi : i < word.length) (k : Nat) :
    (raised word i).getD k 0 = word.getD k 0 + (if k = i then 1 else 0) := by
  unfold raised
  by_cases h : k = i
  · subst h
    rw [if_pos rfl, List.getD_eq_getElem _ _ (by simpa using hi)]
    simp
  · rw [if_neg h, List.getD_eq_getElem?_getD, List.getD_eq_getElem?_getD, List.getElem?_set_ne (by omega), ← List.getD_eq_getElem?_getD, Nat.add_zero]

theorem sum_raised {word : List Nat} {i : Nat} (hi : i < word.length) : (raised word i).sum = word.sum + 1 := by
  unfold raised
  rw [List.getD_eq_getElem _ _ hi]
  induction word generalizing i with
  | nil => simp at hi
  | cons a l ih => cases i with
    | zero => simp; omega
    | succ i =>
      simp only [List.set_cons_succ, List.sum_cons, List.getElem_cons_succ]
      rw [ih (by simpa using hi)]; omega

theorem sum_le_length_mul {l : List Nat} {m : Nat} (h : ∀ x ∈ l, x ≤ m) : l.sum ≤ l.length * m := by
  induction l with
  | nil => simp
  | cons a l ih =>
    have h1 := h a List.mem_cons_self
    have h2 := ih (fun x hx => h x (List.mem_cons_of_mem _ hx))
    rw [List.sum_cons, List.length_cons, Nat.succ_mul]
    omega

/-- What the functions below need to know of the value of words. -/
structure LittleSys (val : List Nat → SPerm) (ln : SPerm → Nat) : Prop where
  exch : ∀ (word : List Nat) (i : Nat), i < word.length → ln (val (word.eraseIdx i)) + 1 = word.length →
    ln (val word) ≠ word.length → ∃ j < word.length, j ≠ i ∧ val (word.eraseIdx j) = val (word.eraseIdx i)
  lt_rank : ∀ a : List Nat, ln (val a) = a.length → ∀ x ∈ a, x < (val a).rank

variable {val : List Nat → SPerm} {ln : SPerm → Nat}

theorem mem_of_two {word : List Nat} {i j : Nat} (hij : i ≠ j) {x : Nat} (hx : x ∈ word) :
    x ∈ word.eraseIdx i ∨ x ∈ word.eraseIdx j := by
  obtain ⟨k, hk, rfl⟩ := List.mem_iff_getElem.1 hx
  by_cases h : k = i
  · right; exact List.mem_eraseIdx_iff_getElem.2 ⟨k, hk, by omega, rfl⟩
  · left; exact List.mem_eraseIdx_iff_getElem.2 ⟨k, hk, h, rfl⟩

theorem push_spec (H : LittleSys val ln) {word : List Nat} {i : Nat} (hi : i < word.length)
    (hr : ln (val (word.eraseIdx i)) + 1 = word.length) :
    (pushWith val ln word i = .ok (raised word i, none) ∧ ln (val (raised word i)) = word.length) ∨
    ∃ j, pushWith val ln word i = .ok (raised word i, some j) ∧ ln (val (raised word i)) ≠ word.length ∧ j < word.length ∧ j ≠ i ∧
      val ((raised word i).eraseIdx j) = val (word.eraseIdx i) := by
  have h1 : word[i]? = some (word.getD i 0) := by rw [List.getD_eq_getElem _ _ hi]; exact List.getElem?_eq_getElem hi
  unfold pushWith
  rw [h1]
  dsimp only
  rw [set_eq_slices hi, show word.set i (word.getD i 0 + 1) = raised word i from rfl, length_raised]
  by_cases hw : ln (val (raised word i)) = word.length
  · left; rw [if_pos hw]; exact ⟨rfl, hw⟩
  · right
    rw [if_neg hw]
    obtain ⟨j, hj, hji, hv⟩ := H.exch (raised word i) i (by rwa [length_raised]) (by rwa [eraseIdx_raised, length_raised])
      (by rwa [length_raised])
    rw [eraseIdx_raised] at hv
    cases hf : (List.range word.length).find? (fun j => decide (i ≠ j) && decide (val (without word i) = val (without (raised word i) j))) with
    | none =>
      exfalso
      rw [List.find?_eq_none] at hf
      refine hf j (List.mem_range.2 (by rwa [length_raised] at hj)) ?_
      simp only [without_eq, Bool.and_eq_true, decide_eq_true_eq]
      exact ⟨fun h => hji h.symm, hv.symm⟩
    | some k =>
      have h2 := List.find?_some hf
      have h3 := List.mem_of_find?_eq_some hf
      simp only [without_eq, Bool.and_eq_true, decide_eq_true_eq] at h2
      exact ⟨k, rfl, hw, List.mem_range.1 h3, fun h => h2.1 h.symm, h2.2.symm⟩

/-- The loop stops, and carries every invariant to its last push. -/
theorem bumpLoop_spec (H : LittleSys val ln) (Inv : List Nat → Nat → Prop)
    (hInv : ∀ word i j, i < word.length → ln (val (word.eraseIdx i)) + 1 = word.length → Inv word i →
      ln (val (raised word i)) ≠ word.length → j < word.length → j ≠ i → val ((raised word i).eraseIdx j) = val (word.eraseIdx i) →
      Inv (raised word i) j)
    {v : SPerm} {n : Nat} (hv : ln v + 1 = n) : ∀ (d : Nat) {word : List Nat} {i : Nat}, i < word.length → word.length = n →
      val (word.eraseIdx i) = v → Inv word i → n * v.rank + 1 ≤ word.sum + d →
      ∃ N word' i', i' < n ∧ word'.length = n ∧ val (word'.eraseIdx i') = v ∧ Inv word' i' ∧
        ln (val (raised word' i')) = n ∧ ∀ fuel, N ≤ fuel → bumpLoop val ln fuel word i = .ok (raised word' i') := by
  intro d
  induction d with
  | zero =>
    intro word i hi hn he h0 hd
    rcases push_spec H hi (by rw [he]; omega) with ⟨h1, h2⟩ | ⟨j, h1, h2, h3, h4, h5⟩
    · exact ⟨1, word, i, by omega, hn, he, h0, by rw [h2, hn], fun fuel hf => by
        obtain ⟨f, rfl⟩ : ∃ f, fuel = f + 1 := ⟨fuel - 1, by omega⟩
        rw [bumpLoop, h1]⟩
    · exfalso
      have hall : ∀ x ∈ raised word i, x ≤ v.rank := by
        intro x hx
        rcases mem_of_two (i := i) (j := j) (by omega) hx with h | h
        · rw [eraseIdx_raised] at h
          have := H.lt_rank _ (by rw [he, List.length_eraseIdx_of_lt hi]; omega) x h
          rw [he] at this; omega
        · have := H.lt_rank _ (by rw [h5, he, List.length_eraseIdx_of_lt (by rwa [length_raised]), length_raised]; omega) x h
          rw [h5, he] at this; omega
      have := sum_le_length_mul hall
      rw [sum_raised hi, length_raised, hn] at this
      omega
  | succ d ih =>
    intro word i hi hn he h0 hd
    rcases push_spec H hi (by rw [he]; omega) with ⟨h1, h2⟩ | ⟨j, h1, h2, h3, h4, h5⟩
    · exact ⟨1, word, i, by omega, hn, he, h0, by rw [h2, hn], fun fuel hf => by
        obtain ⟨f, rfl⟩ : ∃ f, fuel = f + 1 := ⟨fuel - 1, by omega⟩
        rw [bumpLoop, h1]⟩
    · obtain ⟨N, word', i', a1, a2, a3, a4, a5, a6⟩ := ih (word := raised word i) (i := j) (by rwa [length_raised])
        (by rw [length_raised, hn]) (by rw [h5, he]) (hInv word i j hi (by rw [he]; omega) h0 h2 h3 h4 h5)
        (by rw [sum_raised hi]; omega)
      refine ⟨N + 1, word', i', a1, a2, a3, a4, a5, fun fuel hf => ?_⟩
      obtain ⟨f, rfl⟩ : ∃ f, fuel = f + 1 := ⟨fuel - 1, by omega⟩
      rw [bumpLoop, h1]
      exact a6 f (by omega)

/-- The bump, with an invariant that holds at every possible start. -/
theorem bump_spec (H : LittleSys val ln) (Inv : List Nat → Nat → Prop)
    (hInv : ∀ word i j, i < word.length → ln (val (word.eraseIdx i)) + 1 = word.length → Inv word i →
      ln (val (raised word i)) ≠ word.length → j < word.length → j ≠ i → val ((raised word i).eraseIdx j) = val (word.eraseIdx i) →
      Inv (raised word i) j)
    {word : List Nat} {y : SPerm} (hw : ln (val word) = word.length) (hy : ln y + 1 = word.length)
    (h0 : ∀ i < word.length, val (word.eraseIdx i) = y → Inv word i) :
    ((∀ i < word.length, val (word.eraseIdx i) ≠ y) ∧ ∀ fuel, bumpWith val ln fuel word y = .ok word) ∨
    ∃ N i word' i', i < word.length ∧ val (word.eraseIdx i) = y ∧ i' < word.length ∧ word'.length = word.length ∧
        val (word'.eraseIdx i') = y ∧ Inv word' i' ∧
        ln (val (raised word' i')) = word.length ∧ ∀ fuel, N ≤ fuel → bumpWith val ln fuel word y = .ok (raised word' i') := by
  cases hf : (List.range word.length).find? (fun i => decide (val (without word i) = y)) with
  | none =>
    left
    refine ⟨fun i hi hc => ?_, fun fuel => ?_⟩
    · rw [List.find?_eq_none] at hf
      exact hf i (List.mem_range.2 hi) (by rw [without_eq]; exact decide_eq_true hc)
    · rw [bumpWith, if_pos hw, hf]
  | some i =>
    right
    have h2 := List.find?_some hf
    have h3 := List.mem_range.1 (List.mem_of_find?_eq_some hf)
    simp only [without_eq, decide_eq_true_eq] at h2
    obtain ⟨N, word', i', a1, a2, a3, a4, a5, a6⟩ := bumpLoop_spec H Inv hInv hy (word.length * y.rank + 1) h3 rfl h2 (h0 i h3 h2) (by omega)
    refine ⟨N, i, word', i', h3, h2, a1, a2, a3, a4, a5, fun fuel hfu => ?_⟩
    rw [bumpWith, if_pos hw, hf]
    exact a6 fuel hfu

/-! ### ordinary words -/

theorem rank_of_desc {w : SPerm} {i : Nat} (h : Desc w.call i) : i + 1 ≤ w.rank := by
  by_contra hc
  unfold Desc at h
  have h1 := (call_odd w).out ((i : Int) + 1) (by omega)
  have h2 : (lo i).natAbs ≤ i + 1 ∧ lo i < i + 1 := by unfold lo; split <;> omega
  by_cases h3 : (lo i).natAbs ≤ w.rank
  · have := (call_odd w).bound _ h3
    omega
  · rw [(call_odd w).out _ (by omega)] at h
    omega

theorem rank_mul_s_of_desc {w : SPerm} {i : Nat} (h : Desc w.call i) : (mul w (s i)).rank ≤ w.rank :=
  rank_mul_s le_rfl (rank_of_desc h)

theorem lt_rank_word (a : List Nat) (h : len (fromWord a) = a.length) : ∀ x ∈ a, x < (fromWord a).rank := by
  induction a using List.reverseRecOn with
  | nil => intro x hx; simp at hx
  | append_singleton a i ih =>
    have hr : Reduced (fromWord (a ++ [i])) (a ++ [i]) := ⟨rfl, h.symm⟩
    rw [reduced_concat] at hr
    obtain ⟨hd, hr⟩ := hr
    rw [mem_rightDescents] at hd
    have hrk := rank_mul_s_of_desc hd
    intro x hx
    rcases List.mem_append.1 hx with hx | hx
    · have := ih (by rw [hr.1, hr.2]) x hx
      rw [hr.1] at this
      omega
    · have := rank_of_desc hd
      rw [List.mem_singleton] at hx
      omega

theorem mul_cancel_mid {a b x y : SPerm} : mul (mul a x) b = mul (mul a y) b ↔ x = y :=
  ⟨fun h => mul_left_cancel' (mul_right_cancel' h), fun h => by rw [h]⟩

theorem split_at {word : List Nat} {i : Nat} (hi : i < word.length) :
    ∃ P c S, word = P ++ c :: S ∧ P.length = i ∧ word.eraseIdx i = P ++ S := by
  refine ⟨word.take i, word[i], word.drop (i + 1), ?_, by simp; omega, List.eraseIdx_eq_take_drop_succ ..⟩
  rw [List.cons_getElem_drop_succ, List.take_append_drop]

theorem eraseIdx_at (P : List Nat) (c : Nat) (S : List Nat) : (P ++ c :: S).eraseIdx P.length = P ++ S := by
  rw [List.eraseIdx_append_of_length_le le_rfl, Nat.sub_self, List.eraseIdx_cons_zero]

theorem cancel_two {a b x : SPerm} {d c : Nat} (h : mul a (mul (s d) (mul b (mul (s c) x))) = mul a (mul b x)) :
    mul (s d) b = mul b (s c) := by
  have h1 := mul_left_cancel' h
  rw [← mul_assoc', ← mul_assoc'] at h1
  have h2 := mul_right_cancel' h1
  have h3 := congrArg (fun x => mul x (s c)) h2
  simpa only [mul_s_s] using h3

/-- Exchange for ordinary words. -/
theorem exch_word (word : List Nat) (i : Nat) (hi : i < word.length) (hr : len (fromWord (word.eraseIdx i)) + 1 = word.length)
    (hw : len (fromWord word) ≠ word.length) : ∃ j < word.length, j ≠ i ∧ fromWord (word.eraseIdx j) = fromWord (word.eraseIdx i) := by
  have hadj := adj_erase word hi
  have hle := len_fromWord_le word
  have hm := len_fromWord_mod word
  have hadj' : Adj (fromWord word) (fromWord (word.eraseIdx i)) := by
    obtain ⟨a, b, ha, hb, hab, hs⟩ := hadj
    exact ⟨a, b, ha, hb, hab, hs.symm⟩
  obtain ⟨k, hk, he⟩ := (hadj'.step (by omega)).exchange rfl
  obtain ⟨P, c, S, rfl, hP, he2⟩ := split_at hi
  rw [he2] at hk he ⊢
  by_cases hkP : k < P.length
  · obtain ⟨A, d, B, rfl, hA, he3⟩ := split_at hkP
    rw [List.eraseIdx_append_of_lt_length hkP, he3] at he
    refine ⟨k, by omega, by omega, ?_⟩
    rw [List.eraseIdx_append_of_lt_length hkP, he3]
    simp only [fromWord_append, fromWord_cons, mul_assoc'] at he ⊢
    have h1 := cancel_two he
    rw [← mul_assoc' (s d), h1, mul_assoc']
  · obtain ⟨A, d, B, rfl, hA, he3⟩ := split_at (word := S) (i := k - P.length) (by simp only [List.length_append] at hk; omega)
    rw [List.eraseIdx_append_of_length_le (by omega), he3] at he
    refine ⟨k + 1, by simp only [List.length_append, List.length_cons] at hk ⊢; omega, by omega, ?_⟩
    rw [List.eraseIdx_append_of_length_le (by omega), show k + 1 - P.length = (k - P.length) + 1 by omega, List.eraseIdx_cons_succ, he3]
    simp only [fromWord_append, fromWord_cons, mul_assoc'] at he ⊢
    have h1 := cancel_two he
    rw [← mul_assoc' (s c), h1, mul_assoc']

theorem littleSys : LittleSys fromWord len := ⟨exch_word, lt_rank_word⟩

end Verif.Perm
