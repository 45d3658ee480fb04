import Verif.Lemmas.LittleFpf

/-! # The exchange property of words for fixed-point-free involutions, continued -/

namespace Verif.Perm
open Verif.PermSpec
attribute [-simp] List.getD_eq_getElem?_getD
attribute [local irreducible] mul s inverse identity len fpfStart

theorem sFun_fix {e : Nat} {x : Int} (h1 : x.natAbs ≠ e) (h2 : x.natAbs ≠ e + 1) : sFun e x = x := by
  unfold sFun
  (repeat' split) <;> omega

theorem sFun_support {e : Nat} (he : 1 ≤ e) {x : Int} :
    ((sFun e x).natAbs = e ∨ (sFun e x).natAbs = e + 1) ↔ (x.natAbs = e ∨ x.natAbs = e + 1) := by
  unfold sFun
  (repeat' split) <;> omega

/-- Where the letter `e` does not commute with `p`, both of `e` and `e + 1` are moved out of `e, e + 1`. -/
theorem Fpf.moves {N : Nat} {p : SPerm} (hp : Fpf N p) {e : Nat} (h1 : 1 ≤ e) (h2 : e + 1 ≤ N) (hc : p.call e ≠ (e : Int) + 1) {x : Int}
    (hx : x.natAbs = e ∨ x.natAbs = e + 1) : (p.call x).natAbs ≠ e ∧ (p.call x).natAbs ≠ e + 1 := by
  have key : ∀ y : Int, y = e ∨ y = (e : Int) + 1 → (p.call y).natAbs ≠ e ∧ (p.call y).natAbs ≠ e + 1 := by
    intro y hy
    have h3 := hp.pos y (by omega)
    have h4 := hp.ne y (by omega) (by omega)
    have h5 := hp.inv y
    rcases hy with rfl | rfl
    · omega
    · refine ⟨fun h => ?_, by omega⟩
      have h6 : p.call ((e : Int) + 1) = e := by omega
      rw [h6] at h5
      exact hc h5
  rcases le_total 0 x with h | h
  · exact key x (by omega)
  · have h3 := key (-x) (by omega)
    rw [hp.odd.neg] at h3
    omega

theorem psp_comm {N : Nat} {p : SPerm} (hp : Fpf N p) {e : Nat} (h1 : 1 ≤ e) (h2 : e + 1 ≤ N) (hc : p.call e ≠ (e : Int) + 1) (x : Int) :
    p.call (sFun e (p.call (sFun e x))) = sFun e (p.call (sFun e (p.call x))) := by
  by_cases hx : x.natAbs = e ∨ x.natAbs = e + 1
  · obtain ⟨h3, h4⟩ := hp.moves h1 h2 hc hx
    obtain ⟨h5, h6⟩ := hp.moves h1 h2 hc ((sFun_support h1).2 hx)
    rw [sFun_fix h3 h4, sFun_fix h5 h6, hp.inv, hp.inv]
  · rw [not_or] at hx
    rw [sFun_fix hx.1 hx.2]
    by_cases hy : (p.call x).natAbs = e ∨ (p.call x).natAbs = e + 1
    · obtain ⟨h3, h4⟩ := hp.moves h1 h2 hc ((sFun_support h1).2 hy)
      rw [sFun_fix h3 h4]
    · rw [not_or] at hy
      rw [sFun_fix hy.1 hy.2, hp.inv, sFun_fix hx.1 hx.2]

theorem fV_call (N : Nat) (a : List Nat) (x : Int) :
    (fV N a).call x = (inverse (fromWord a)).call ((fpfStart N).call ((fromWord a).call x)) := by
  rw [fV_eq, call_mul, call_mul]

theorem fV_erase {N : Nat} {A : List Nat} {k : Nat} {r : SPerm} (h : mul (fromWord A) r = fromWord (A.eraseIdx k)) (x : Int) :
    (fV N (A.eraseIdx k)).call x = (inverse r).call ((fV N A).call (r.call x)) := by
  rw [fV_call, ← h, inverse_mul_rev, call_mul, call_mul, fV_call]

theorem word_bound {N : Nat} {A : List Nat} (h : Fits N A) {x : Int} (h1 : 0 < x) (h2 : x ≤ N) :
    0 < (fromWord A).call x ∧ (fromWord A).call x ≤ N := by
  induction A using List.reverseRecOn generalizing x with
  | nil => rw [show fromWord [] = identity from rfl, call_identity]; omega
  | append_singleton A i ih =>
    have hi := h.letters i (by simp)
    rw [fromWord_append, show fromWord [i] = s i from fromWord_singleton i, call_mul, call_s]
    apply ih h.left
    · exact (sFun_pos hi.1).2 h1
    · have := ((sFun_odd i).mono hi.2).bound x (by omega)
      omega

/-- Exchange to the left. -/
theorem exch_left {N : Nat} {A : List Nat} (h : Fits N A) {e : Nat} (h1 : 1 ≤ e) (h2 : e + 1 ≤ N) (hd : Desc (fV N A).call e)
    (hc : (fV N A).call e ≠ (e : Int) + 1) : ∃ j < A.length, fV N (A.eraseIdx j) = conj (fV N A) e := by
  have hp := h.fpf
  have hlo : lo e = e := by unfold lo; rw [if_neg (by omega)]
  rw [Desc, hlo] at hd
  have hu := call_odd (fromWord A)
  have hlt : (fromWord A).call e ≠ (fromWord A).call ((e : Int) + 1) := fun hc => by
    have := hu.inj _ _ hc
    omega
  rcases lt_or_gt_of_ne hlt with hlt | hgt
  · have hM : ∀ x, (fpfStart N).call ((fromWord A).call x) = (fromWord A).call ((fV N A).call x) := by
      intro x; rw [fV_call, call_inverse]
    obtain ⟨x1, x2⟩ := word_bound h (x := e) (by omega) (by omega)
    obtain ⟨y1, y2⟩ := word_bound h (x := (e : Int) + 1) (by omega) (by omega)
    have m1 := hM e
    have m2 := hM ((e : Int) + 1)
    have hne : (fpfStart N).call ((fromWord A).call e) ≠ (fromWord A).call ((e : Int) + 1) := by
      rw [m1]
      exact fun h' => hc (hu.inj _ _ h')
    rw [fpfStart_call h.even _ x1, if_pos x2] at m1 hne
    rw [fpfStart_call h.even _ y1, if_pos y2] at m2
    have hab : (fromWord A).call ((fV N A).call e) < (fromWord A).call ((fV N A).call ((e : Int) + 1)) := by
      rw [← m1, ← m2]
      split at hne <;> split <;> omega
    have p1 := hp.pos e (by omega)
    have p2 := hp.pos ((e : Int) + 1) (by omega)
    have hsw : Swap ((fV N A).call ((e : Int) + 1)) ((fV N A).call e) (fromWord A)
        (mul (fromWord A) (mul (fV N A) (mul (s e) (fV N A)))) := by
      refine ⟨?_, ?_, fun x hx1 hx2 => ?_⟩
      · simp only [call_mul, call_s]
        rw [hp.inv, show sFun e ((e : Int) + 1) = e by unfold sFun; (repeat' split) <;> omega]
      · simp only [call_mul, call_s]
        rw [hp.inv, show sFun e (e : Int) = (e : Int) + 1 by unfold sFun; (repeat' split) <;> omega]
      · simp only [call_mul, call_s]
        have hq : (fV N A).call ((fV N A).call x) = x := hp.inv x
        rw [sFun_fix, hq]
        · intro hcc
          rcases Int.natAbs_eq ((fV N A).call x) with h' | h'
          · rw [h', hcc] at hq
            rw [hq] at hx2; exact hx2 rfl
          · rw [h', hcc, hp.odd.neg] at hq
            rw [← hq, Int.natAbs_neg] at hx2; exact hx2 rfl
        · intro hcc
          rcases Int.natAbs_eq ((fV N A).call x) with h' | h'
          · rw [h', hcc, Nat.cast_add, Nat.cast_one] at hq
            rw [hq] at hx1; exact hx1 rfl
          · rw [h', hcc, hp.odd.neg, Nat.cast_add, Nat.cast_one] at hq
            rw [← hq, Int.natAbs_neg] at hx1; exact hx1 rfl
    obtain ⟨k, hk, he⟩ := exchange (by omega) (by omega) hd A hsw hab
    refine ⟨k, hk, ext_call (fun x => ?_)⟩
    have hr : inverse (mul (fV N A) (mul (s e) (fV N A))) = mul (fV N A) (mul (s e) (fV N A)) := by
      rw [inverse_mul_rev, inverse_mul_rev, inverse_s, inverse_of_involution hp.inv, mul_assoc']
    rw [fV_erase he, hr, conj_call]
    simp only [call_mul, call_s]
    rw [hp.inv, psp_comm hp h1 h2 hc, hp.inv]
  · have hsw : Swap (e : Int) ((e : Int) + 1) (fromWord A) (mul (fromWord A) (s e)) := by
      refine ⟨?_, ?_, fun x hx1 hx2 => ?_⟩
      · rw [call_mul, call_s, show sFun e (e : Int) = (e : Int) + 1 by unfold sFun; (repeat' split) <;> omega]
      · rw [call_mul, call_s, show sFun e ((e : Int) + 1) = e by unfold sFun; (repeat' split) <;> omega]
      · rw [call_mul, call_s, sFun_fix (by omega) (by omega)]
    obtain ⟨k, hk, he⟩ := exchange (by omega) (by omega) (by omega) A hsw hgt
    refine ⟨k, hk, ext_call (fun x => ?_)⟩
    rw [fV_erase he, inverse_s, conj_call, call_s, call_s]

/-- Exchange to the right. -/
theorem exch_right {N : Nat} {P S : List Nat} {c e : Nat} (h : Fits N (P ++ c :: S)) (hr : FR N (P ++ c :: S))
    (hd : Desc (fV N (P ++ c :: S)).call e) (he : Fits N (P ++ S ++ [e])) (hr' : FR N (P ++ S ++ [e])) :
    (fV N (P ++ c :: S)).call e ≠ (e : Int) + 1 ∧ conj (fV N (P ++ c :: S)) e = fV N (P ++ S) := by
  obtain ⟨h1, h2, h3⟩ := fr_concat.1 hr'
  have hf := h.fpf
  have hf' := he.left.fpf
  obtain ⟨a1, a2⟩ := fr_ired h hr
  obtain ⟨b1, b2⟩ := fr_ired he.left h1
  have hE := he.letters e (by simp)
  have hle : BruhatLE (fV N (P ++ S)) (fV N (P ++ c :: S)) := by
    rw [← a1, ← b1, ← List.append_assoc, ← List.append_assoc]
    exact le_insert (odds N ++ P) c S (by rw [List.append_assoc]; exact b2) (by rw [List.append_assoc]; exact a2)
  have h4 := lower_le hf'.inv hf.inv hle e
  rw [if_neg (fun hc => h2 ((mem_rightDescents _ e).1 hc)), if_pos ((mem_rightDescents _ e).2 hd)] at h4
  obtain ⟨b, g1, g2, g3⟩ := subword a2 (x := invStep (fV N (P ++ c :: S)) e) (invStep_involution hf.inv e) (by
    rw [a1]; exact lower_self_le hf.inv hd)
  have h5 := ilen_down hf.inv hd
  unfold IRed at a2 b2
  rw [a1] at a2
  rw [b1] at b2
  have h6 := invol_graded hf'.inv g3 (by rw [g2]; exact h4) (by
    unfold IRed at g3
    rw [g2] at g3
    simp only [List.length_append, List.length_cons] at a2 b2
    omega)
  rw [g2] at h6
  have hcc : (fV N (P ++ c :: S)).call e ≠ (e : Int) + 1 := by
    intro hc
    have hcm := (hf.comm_iff_of_desc hd).2 hc
    rw [invStep, if_pos hcm] at h6
    have h7 := hf'.ne e (by omega) (by omega)
    rw [h6, call_mul, call_s, show sFun e (e : Int) = (e : Int) + 1 by unfold sFun; (repeat' split) <;> omega, ← hc, hf.inv] at h7
    exact h7 rfl
  refine ⟨hcc, ?_⟩
  rw [h6, invStep, if_neg (fun h' => hcc ((hf.comm_iff_of_desc hd).1 h'))]; rfl

theorem desc_of_comm {N : Nat} {p : SPerm} (hp : Fpf N p) {e : Nat} (h1 : 1 ≤ e) (h2 : e + 1 ≤ N) (h : mul (s e) p = mul p (s e)) :
    p.call e = (e : Int) + 1 := by
  by_contra hc
  obtain ⟨h3, h4⟩ := hp.moves h1 h2 hc (x := e) (by omega)
  have h5 := congrArg (fun x => x.call (e : Int)) h
  simp only [call_mul, call_s] at h5
  rw [sFun_fix h3 h4, show sFun e (e : Int) = (e : Int) + 1 by unfold sFun; (repeat' split) <;> omega] at h5
  have := hp.odd.inj _ _ h5
  omega

theorem first_bad_fpf {N : Nat} (word : List Nat) (hf : Fits N word) (h : ¬ FR N word) :
    ∃ A e B, word = A ++ e :: B ∧ FR N A ∧ Desc (fV N A).call e := by
  induction word using List.reverseRecOn with
  | nil => exact absurd (by unfold FR; rfl) h
  | append_singleton a i ih =>
    by_cases ha : FR N a
    · refine ⟨a, i, [], rfl, ha, ?_⟩
      by_contra hc
      have hi := hf.letters i (by simp)
      refine h (fr_concat.2 ⟨ha, hc, fun hcm => hc ?_⟩)
      have h1 := desc_of_comm hf.left.fpf hi.1 hi.2 hcm
      have h2 := hf.left.fpf.inv i
      rw [h1] at h2
      rw [Desc, show lo i = i by unfold lo; rw [if_neg (by omega)], h1, h2]
      omega
    · obtain ⟨A, e, B, rfl, h1, h2⟩ := ih hf.left ha
      exact ⟨A, e, B ++ [i], by simp, h1, h2⟩

/-- What a word can be that leaves a reduced word when the letter at `i` is dropped. -/
theorem fpf_exch {N : Nat} {word : List Nat} (hf : Fits N word) {i : Nat} (hi : i < word.length) (hr : FR N (word.eraseIdx i)) :
    FR N word ∨
    (fV N word = fV N (word.eraseIdx i) ∧ (fV N (word.take i)).call (word.getD i 0) = (word.getD i 0 : Int) + 1) ∨
    (fpfInvolutionLength (fV N word) + 2 ≤ word.length ∧ ∃ j < word.length, j ≠ i ∧ fV N (word.eraseIdx j) = fV N (word.eraseIdx i)) := by
  by_cases hw : FR N word
  · exact .inl hw
  right
  obtain ⟨A, e, B, rfl, hA, hd⟩ := first_bad_fpf word hf hw
  have hlen : (A ++ e :: B).length = A.length + B.length + 1 := by simp; omega
  have hE := hf.letters e (by simp)
  have hfA : Fits N A := hf.left
  have hsplit : A ++ e :: B = (A ++ [e]) ++ B := by simp
  rcases lt_trichotomy A.length i with hlt | heq | hgt
  · exfalso
    rw [List.eraseIdx_append_of_length_le (by omega), show i - A.length = (i - A.length - 1) + 1 by omega, List.eraseIdx_cons_succ] at hr
    have h1 : A ++ e :: B.eraseIdx (i - A.length - 1) = (A ++ [e]) ++ B.eraseIdx (i - A.length - 1) := by simp
    rw [h1] at hr
    exact (fr_concat.1 (fr_prefix hr)).2.1 hd
  · subst heq
    rw [eraseIdx_at] at hr ⊢
    by_cases hc : (fV N A).call e = (e : Int) + 1
    · left
      have hcm := (hfA.fpf.comm_iff_of_desc hd).2 hc
      refine ⟨?_, ?_⟩
      · rw [hsplit]
        apply fV_congr
        rw [fV_concat, conj_of_comm hcm]
      · have e1 : (A ++ e :: B).take A.length = A := by simp
        have e2 : (A ++ e :: B).getD A.length 0 = e := by
          rw [List.getD_eq_getElem _ _ (by omega)]; simp
        rw [e1, e2, hc]
    · right
      obtain ⟨j, hj, he⟩ := exch_left hfA hE.1 hE.2 hd hc
      have h1 : fV N (A ++ e :: B) = fV N (A.eraseIdx j ++ B) := by
        rw [hsplit]
        apply fV_congr
        rw [fV_concat, he]
      refine ⟨?_, j, by omega, by omega, ?_⟩
      · rw [h1]
        have h2 := flen_le (N := N) (a := A.eraseIdx j ++ B) ⟨hf.even, fun x hx => hf.letters x (by
          rcases List.mem_append.1 hx with hx | hx
          · exact List.mem_append_left _ (List.mem_of_mem_eraseIdx hx)
          · exact List.mem_append_right _ (List.mem_cons_of_mem _ hx))⟩
        rw [List.length_append, List.length_eraseIdx_of_lt hj] at h2
        omega
      · rw [List.eraseIdx_append_of_lt_length hj, show A.eraseIdx j ++ e :: B = (A.eraseIdx j ++ [e]) ++ B by simp]
        apply fV_congr
        rw [fV_concat, he, conj_conj]
  · right
    rw [List.eraseIdx_append_of_lt_length hgt, show A.eraseIdx i ++ e :: B = (A.eraseIdx i ++ [e]) ++ B by simp] at hr ⊢
    obtain ⟨P, c, S, rfl, hP, he⟩ := split_at hgt
    rw [he] at hr ⊢
    have hfits : Fits N (P ++ S ++ [e]) := ⟨hf.even, fun x hx => hf.letters x (by
      simp only [List.mem_append, List.mem_cons] at hx ⊢
      tauto)⟩
    obtain ⟨h1, h2⟩ := exch_right hfA hA hd hfits (fr_prefix hr)
    refine ⟨?_, (P ++ c :: S).length, by omega, by omega, ?_⟩
    · have h3 : fV N (P ++ c :: S ++ e :: B) = fV N (P ++ S ++ B) := by
        rw [hsplit]
        apply fV_congr
        rw [fV_concat, h2]
      rw [h3]
      have h4 := flen_le (N := N) (a := P ++ S ++ B) ⟨hf.even, fun x hx => hf.letters x (by
        simp only [List.mem_append, List.mem_cons] at hx ⊢
        tauto)⟩
      simp only [List.length_append, List.length_cons] at h4 ⊢
      omega
    · rw [eraseIdx_at]
      apply fV_congr
      rw [fV_concat, ← h2, conj_conj]

end Verif.Perm
