import Verif.Lemmas.LittleWires

/-! # The reflection of a crossing, and the result of a Little bump -/

namespace Verif.Perm
open Verif.PermSpec
attribute [-simp] List.getD_eq_getElem?_getD

theorem split_getD {word : List Nat} {i : Nat} (hi : i < word.length) : word = word.take i ++ word.getD i 0 :: word.drop (i + 1) := by
  rw [List.getD_eq_getElem _ _ hi, List.cons_getElem_drop_succ, List.take_append_drop]

theorem call_pos_word {word : List Nat} (hw : ∀ k < word.length, 1 ≤ word.getD k 0) {x : Int} (hx : 0 < x) : 0 < (fromWord word).call x := by
  have h := path_final (word := word) (i := word.length) (x := (fromWord word).call x)
  rw [List.eraseIdx_of_length_le le_rfl, inverse_call] at h
  exact pos_of_path hw le_rfl (by rw [h]; exact hx)

theorem conj_reflection {P : SPerm} {c a b : Nat} (hc : 1 ≤ c) (h1a : 1 ≤ a) (h1b : 1 ≤ b) (ha : P.call c = (a : Int))
    (hb : P.call ((c : Int) + 1) = (b : Int)) : mul P (s c) = mul (reflectionT a b) P := by
  refine ext_call (fun x => ?_)
  rw [call_mul, call_mul, call_s, call_reflectionT (by omega) (by omega)]
  have hn : ∀ z : Int, P.call (-z) = - P.call z := (call_odd P).neg
  have h1 : P.call x = a → x = c := fun h => (call_odd P).inj _ _ (by rw [h, ha])
  have h2 : P.call x = b → x = (c : Int) + 1 := fun h => (call_odd P).inj _ _ (by rw [h, hb])
  have h3 : P.call x = -(a : Int) → x = -(c : Int) := fun h => (call_odd P).inj _ _ (by rw [h, hn, ha])
  have h4 : P.call x = -(b : Int) → x = -((c : Int) + 1) := fun h => (call_odd P).inj _ _ (by rw [h, hn, hb])
  by_cases e1 : x = c
  · subst e1; rw [sFun_up hc, ha, hb]; unfold tFun; simp
  by_cases e2 : x = (c : Int) + 1
  · subst e2; rw [sFun_down hc, ha, hb]; unfold tFun; (repeat' split) <;> omega
  by_cases e3 : x = -(c : Int)
  · subst e3; rw [sFun_neg, sFun_up hc, hn, hn, ha, hb]; unfold tFun; (repeat' split) <;> omega
  by_cases e4 : x = -((c : Int) + 1)
  · subst e4; rw [sFun_neg, sFun_down hc, hn, hn, ha, hb]; unfold tFun; (repeat' split) <;> omega
  have hl : lo c = c := if_neg (by omega)
  rw [sFun_of_ne (by rw [hl]; exact e1) (by rw [hl]; exact e3) e2 e4]
  unfold tFun
  rw [if_neg (fun h => e1 (h1 h)), if_neg (fun h => e2 (h2 h)), if_neg (fun h => e3 (h3 h)), if_neg (fun h => e4 (h4 h))]

/-- The crossing at `i` exchanges two wires. -/
theorem cross {word : List Nat} (hw : ∀ k < word.length, 1 ≤ word.getD k 0) {i : Nat} (hi : i < word.length)
    (hred : len (fromWord word) = word.length) :
    ∃ a b : Nat, 1 ≤ a ∧ a < b ∧ path word i a i = word.getD i 0 ∧ path word i b i = word.getD i 0 + 1 ∧
      fromWord word = mul (reflectionT a b) (fromWord (word.eraseIdx i)) := by
  have hc := hw i hi
  have hsp := split_getD hi
  have hers : word.eraseIdx i = word.take i ++ word.drop (i + 1) := List.eraseIdx_eq_take_drop_succ ..
  have hpath : ∀ z, path word i ((fromWord (word.take i)).call z) i = z := fun z => by
    rw [path_eq (by omega), List.eraseIdx_of_length_le (by simp), inverse_call]
  have hlt : (fromWord (word.take i)).call (word.getD i 0) < (fromWord (word.take i)).call ((word.getD i 0 : Int) + 1) := by
    have h1 : word = (word.take i ++ [word.getD i 0]) ++ word.drop (i + 1) := by
      conv_lhs => rw [hsp]
      simp
    have h2 := reduced_prefix (a := word.take i ++ [word.getD i 0]) (b := word.drop (i + 1)) (by rw [← h1]; exact hred)
    have h3 : Reduced (fromWord (word.take i ++ [word.getD i 0])) (word.take i ++ [word.getD i 0]) := ⟨rfl, h2.symm⟩
    rw [reduced_concat, mem_rightDescents, fromWord_concat, desc_mul_s] at h3
    have h4 := h3.1
    unfold Desc at h4
    have h5 : lo (word.getD i 0) = word.getD i 0 := if_neg (by omega)
    rw [h5] at h4
    have h6 : (fromWord (word.take i)).call (word.getD i 0) ≠ (fromWord (word.take i)).call ((word.getD i 0 : Int) + 1) := fun h => by
      have := (call_odd _).inj _ _ h
      omega
    omega
  have hval : fromWord word = mul (fromWord (word.take i)) (mul (s (word.getD i 0)) (fromWord (word.drop (i + 1)))) := by
    conv_lhs => rw [hsp]
    rw [fromWord_append, fromWord_cons]
  have hp1 := hpath (word.getD i 0)
  have hp2 := hpath ((word.getD i 0 : Int) + 1)
  have hA : 0 < (fromWord (word.take i)).call (word.getD i 0) := pos_of_path hw (i := i) (t := i) (by omega) (by rw [hp1]; omega)
  obtain ⟨c, hc0⟩ : ∃ c, word.getD i 0 = c := ⟨_, rfl⟩
  rw [hc0] at hc hlt hval hp1 hp2 hA ⊢
  obtain ⟨P, hP⟩ : ∃ P, fromWord (word.take i) = P := ⟨_, rfl⟩
  obtain ⟨S, hS⟩ : ∃ S, fromWord (word.drop (i + 1)) = S := ⟨_, rfl⟩
  rw [hP] at hpath hlt hp1 hp2 hA
  rw [hers, fromWord_append, hval, hP, hS]
  obtain ⟨a, ha⟩ := Int.eq_ofNat_of_zero_le (show 0 ≤ P.call c by omega)
  obtain ⟨b, hb⟩ := Int.eq_ofNat_of_zero_le (show 0 ≤ P.call ((c : Int) + 1) by omega)
  rw [ha, hb] at hlt
  rw [ha] at hp1 hA
  rw [hb] at hp2
  refine ⟨a, b, by omega, by omega, hp1, hp2, ?_⟩
  have hcr := conj_reflection (a := a) (b := b) hc (by omega) (by omega) ha hb
  rw [← mul_assoc', ← mul_assoc', hcr]

theorem path_raised {word : List Nat} {i : Nat} (hi : i < word.length) (x : Int) : path (raised word i) i x i = path word i x i := by
  have := (path_trans (word := raised word i) (word' := word) (i := i) (i' := i) (x := x) (y := x) (t1 := 0) i
    (fun t _ h2 => ⟨Iff.rfl, by rw [getD_raised hi, if_neg (by omega)]; rfl⟩)).1 rfl
  simpa using this

theorem reflectionT_inj {a b q r : Nat} (ha : 1 ≤ a) (hab : a < b) (hq : 1 ≤ q) (hqr : q < r) (h : reflectionT a b = reflectionT q r) :
    a = q ∧ b = r := by
  have h1 : ∀ x, tFun a b x = tFun q r x := fun x => by
    rw [← call_reflectionT ha (by omega), h, call_reflectionT hq (by omega)]
  have h2 := h1 a
  have h3 := h1 q
  unfold tFun at h2 h3
  simp only [if_true] at h2 h3
  (repeat' split at h2) <;> (repeat' split at h3) <;> omega

/-- Neighbouring letters of a reduced word differ. -/
theorem adjacent_ne {word : List Nat} (hred : len (fromWord word) = word.length) {k : Nat} (hk : k + 1 < word.length) :
    word.getD k 0 ≠ word.getD (k + 1) 0 := by
  intro h
  have h1 := split_getD (word := word) (i := k) (by omega)
  have h2 : word.drop (k + 1) = word.getD (k + 1) 0 :: word.drop (k + 2) := by
    rw [List.getD_eq_getElem _ _ hk, List.cons_getElem_drop_succ]
  have h3 : fromWord word = fromWord (word.take k ++ word.drop (k + 2)) := by
    conv_lhs => rw [h1, h2, ← h]
    rw [fromWord_append, fromWord_cons, fromWord_cons, s_mul_s_mul, fromWord_append]
  have h4 := len_fromWord_le (word.take k ++ word.drop (k + 2))
  rw [← h3, hred] at h4
  simp only [List.length_append, List.length_take, List.length_drop] at h4
  omega

theorem covers_of_erase {word : List Nat} {i : Nat} (hi : i < word.length) (hw : len (fromWord word) = word.length) {y : SPerm}
    (he : fromWord (word.eraseIdx i) = y) (hy : len y + 1 = word.length) : BruhatCovers y (fromWord word) := by
  rw [bruhatCovers_iff]
  have := adj_erase word hi
  rw [he] at this
  exact ⟨this.step (by omega), by omega⟩

theorem erase_of_covers {word : List Nat} {y : SPerm} (h : BruhatCovers y (fromWord word)) : ∃ i < word.length, fromWord (word.eraseIdx i) = y := by
  rw [bruhatCovers_iff] at h
  obtain ⟨k, hk, he⟩ := h.1.exchange rfl
  exact ⟨k, hk, he.symm⟩

end Verif.Perm
