import Verif.Lemmas.Little
import Verif.Lemmas.Involutions

/-! # The Bruhat order on involutions and the exchange property of involution words -/

namespace Verif.Perm
open Verif.PermSpec
attribute [-simp] List.getD_eq_getElem?_getD

theorem Adj.inverse {u w : SPerm} (h : Adj u w) : Adj (inverse u) (inverse w) := by
  obtain ⟨a, b, ha, hb, hab, h1, h2, h3⟩ := h
  refine adj_of (a := u.call a) (b := u.call b) (call_ne_zero ha) (call_ne_zero hb) (fun hc => ?_) ⟨?_, ?_, fun x hx1 hx2 => ?_⟩
  · have := (call_odd u).inj _ _ hc
    omega
  · rw [← h2, inverse_call, inverse_call]
  · rw [← h1, inverse_call, inverse_call]
  · obtain ⟨y, rfl⟩ : ∃ y, u.call y = x := ⟨(Verif.Perm.inverse u).call x, by simp⟩
    rw [inverse_call]
    have h4 := h3 y (fun h => hx1 ((call_natAbs u).2 h)) (fun h => hx2 ((call_natAbs u).2 h))
    rw [← h4, inverse_call]

theorem bruhatLE_inverse {u w : SPerm} (h : BruhatLE u w) : BruhatLE (inverse u) (inverse w) := by
  induction h with
  | refl => exact .refl
  | tail _ h ih =>
    refine ih.tail (h.adj.inverse.step ?_)
    rw [len_inverse, len_inverse]
    exact h.len_lt.le

/-- Removing the right descent `i`, if it is one. -/
def down (w : SPerm) (i : Nat) : SPerm := if i ∈ rightDescents w then mul w (s i) else w

theorem down_of_desc {w : SPerm} {i : Nat} (h : Desc w.call i) : down w i = mul w (s i) := if_pos ((mem_rightDescents w i).2 h)
theorem down_of_not {w : SPerm} {i : Nat} (h : ¬ Desc w.call i) : down w i = w := if_neg (fun hc => h ((mem_rightDescents w i).1 hc))

theorem step_of_desc {w : SPerm} {i : Nat} (h : Desc w.call i) : BruhatStep (mul w (s i)) w := by
  have := step_mul_s (w := mul w (s i)) (i := i) (by rw [desc_mul_s]; simpa using h)
  rwa [mul_s_s] at this

theorem down_step {x y : SPerm} (h : BruhatStep x y) (i : Nat) : BruhatLE (down x i) (down y i) := by
  have hl := h.len_lt
  have ha := h.adj.mul_right (s i)
  by_cases hx : Desc x.call i
  · rw [down_of_desc hx]
    have hlx := len_mul_s_of_desc hx
    by_cases hy : Desc y.call i
    · rw [down_of_desc hy]
      have hly := len_mul_s_of_desc hy
      exact .single (ha.step (by omega))
    · rw [down_of_not hy]
      exact (Relation.ReflTransGen.single (step_of_desc hx)).tail h
  · rw [down_of_not hx]
    have hlx := len_mul_s_of_not hx
    by_cases hy : Desc y.call i
    · rw [down_of_desc hy]
      have hly := len_mul_s_of_desc hy
      have h1 := act_step h i
      rw [act_of_not hx, act_of_desc hy] at h1
      have hm := h.mod
      by_cases hc : len y = len x + 1
      · have h2 := (BruhatLE.len_le h1).2 (by omega)
        rw [← h2, mul_s_s]
        exact .refl
      · exact (Relation.ReflTransGen.single (step_mul_s hx)).tail (ha.step (by omega))
    · rw [down_of_not hy]
      exact .single h

theorem down_le {x y : SPerm} (h : BruhatLE x y) (i : Nat) : BruhatLE (down x i) (down y i) := by
  induction h with
  | refl => exact .refl
  | tail _ h ih => exact ih.trans (down_step h i)

theorem down_self_le (x : SPerm) (i : Nat) : BruhatLE (down x i) x := by
  by_cases hx : Desc x.call i
  · rw [down_of_desc hx]; exact .single (step_of_desc hx)
  · rw [down_of_not hx]; exact .refl

/-- An involution. -/
abbrev Invol (w : SPerm) : Prop := ∀ a, w.call (w.call a) = a

theorem invStep_down {w : SPerm} (hw : Invol w) (i : Nat) : inverse (down (inverse (down w i)) i) =
    if i ∈ rightDescents w then invStep w i else w := by
  have hinv := inverse_of_involution hw
  by_cases hd : Desc w.call i
  · rw [if_pos ((mem_rightDescents w i).2 hd), down_of_desc hd, inverse_mul_rev, inverse_s, hinv]
    have hn := not_desc_invStep hw hd
    by_cases hc : mul (s i) w = mul w (s i)
    · have hs : invStep w i = mul w (s i) := if_pos hc
      rw [hs] at hn ⊢
      rw [hc, down_of_not hn, inverse_mul_rev, inverse_s, hinv, hc]
    · have hs : invStep w i = mul (mul (s i) w) (s i) := if_neg hc
      rw [hs] at hn ⊢
      have h1 : Desc (mul (s i) w).call i := by rw [desc_mul_s] at hn; simpa using hn
      rw [down_of_desc h1, inverse_mul_rev, inverse_s, inverse_s_mul, hinv, mul_assoc']
  · rw [if_neg (fun hc => hd ((mem_rightDescents w i).1 hc)), down_of_not hd, hinv, down_of_not hd, hinv]

theorem invStep_up {w : SPerm} (hw : Invol w) {i : Nat} (hd : ¬ Desc w.call i) : inverse (act (inverse (act w i)) i) = invStep w i := by
  have hinv := inverse_of_involution hw
  rw [act_of_not hd, inverse_mul_rev, inverse_s, hinv]
  by_cases hc : mul (s i) w = mul w (s i)
  · have hs : invStep w i = mul w (s i) := if_pos hc
    rw [hs, hc, act_of_desc (by rw [desc_mul_s]; exact hd), inverse_mul_rev, inverse_s, hinv, hc]
  · have hs : invStep w i = mul (mul (s i) w) (s i) := if_neg hc
    have h1 : ¬ Desc (mul (s i) w).call i := by
      have := not_desc_conj (w := w) (i := i) (by rwa [hinv]) hc
      rwa [inverse_mul_rev, inverse_s, hinv] at this
    rw [hs, act_of_not h1, inverse_mul_rev, inverse_s, inverse_s_mul, hinv, mul_assoc']

/-- Lowering at `i` is monotone. -/
theorem lower_le {x y : SPerm} (hx : Invol x) (hy : Invol y) (h : BruhatLE x y) (i : Nat) :
    BruhatLE (if i ∈ rightDescents x then invStep x i else x) (if i ∈ rightDescents y then invStep y i else y) := by
  rw [← invStep_down hx, ← invStep_down hy]
  exact bruhatLE_inverse (down_le (bruhatLE_inverse (down_le h i)) i)

theorem lower_self_le {x : SPerm} (hx : Invol x) {i : Nat} (hd : Desc x.call i) : BruhatLE (invStep x i) x := by
  have h1 := invStep_down hx i
  rw [if_pos ((mem_rightDescents x i).2 hd)] at h1
  rw [← h1]
  have h2 := bruhatLE_inverse (down_self_le (inverse (down x i)) i)
  rw [inverse_inverse] at h2
  exact h2.trans (down_self_le x i)

theorem raise_le {x y : SPerm} (hx : Invol x) (hy : Invol y) (h : BruhatLE x y) {i : Nat} (hdx : ¬ Desc x.call i) (hdy : ¬ Desc y.call i) :
    BruhatLE (invStep x i) (invStep y i) := by
  rw [← invStep_up hx hdx, ← invStep_up hy hdy]
  exact bruhatLE_inverse (act_le (bruhatLE_inverse (act_le h i)) i)

theorem raise_self_le {x : SPerm} (hx : Invol x) {i : Nat} (hd : ¬ Desc x.call i) : BruhatLE x (invStep x i) := by
  have h1 := lower_self_le (invStep_involution hx i) (invStep_spec hx hd).2.1
  rwa [invStep_invStep] at h1

/-! ### involution words -/

theorem loose_concat (a : List Nat) (i : Nat) : looseInvolution (a ++ [i]) = invStep (looseInvolution a) i := by
  obtain ⟨w, h1, -⟩ := fromInvolutionWord_false a
  unfold looseInvolution
  rw [fromInvolutionWord_concat, h1]
  simp

theorem loose_invol (a : List Nat) : Invol (looseInvolution a) := by
  obtain ⟨w, h1, h2, -⟩ := fromInvolutionWord_false a
  unfold looseInvolution
  rw [h1]; exact h2

theorem loose_nil : looseInvolution [] = identity := rfl

theorem loose_congr {a b : List Nat} (h : looseInvolution a = looseInvolution b) (c : List Nat) :
    looseInvolution (a ++ c) = looseInvolution (b ++ c) := by
  induction c using List.reverseRecOn with
  | nil => simpa using h
  | append_singleton c i ih => rw [← List.append_assoc, ← List.append_assoc, loose_concat, loose_concat, ih]

theorem ilen_up {w : SPerm} (hw : Invol w) {i : Nat} (hd : ¬ Desc w.call i) : involutionLength (invStep w i) = involutionLength w + 1 := by
  have h1 := (invStep_spec hw hd).1
  have h2 := ilen2_even hw
  have h3 := ilen2_even (invStep_involution hw i)
  omega

theorem ilen_down {w : SPerm} (hw : Invol w) {i : Nat} (hd : Desc w.call i) : involutionLength w = involutionLength (invStep w i) + 1 := by
  have := ilen_up (invStep_involution hw i) (not_desc_invStep hw hd)
  rwa [invStep_invStep] at this

/-- A reduced involution word. -/
def IRed (a : List Nat) : Prop := involutionLength (looseInvolution a) = a.length

theorem ilen_le (a : List Nat) : involutionLength (looseInvolution a) ≤ a.length := by
  obtain ⟨w, h1, h2, h3, -⟩ := fromInvolutionWord_false a
  have := ilen2_even h2
  unfold looseInvolution
  rw [h1, Option.getD_some]
  omega

theorem ired_concat {a : List Nat} {i : Nat} : IRed (a ++ [i]) ↔ IRed a ∧ ¬ Desc (looseInvolution a).call i := by
  unfold IRed
  rw [loose_concat, List.length_append, List.length_singleton]
  have h1 := ilen_le a
  by_cases hd : Desc (looseInvolution a).call i
  · have := ilen_down (loose_invol a) hd
    constructor
    · intro h; omega
    · intro h; exact absurd hd h.2
  · have := ilen_up (loose_invol a) hd
    constructor
    · intro h; exact ⟨by omega, hd⟩
    · intro h; omega

theorem ired_prefix {a b : List Nat} (h : IRed (a ++ b)) : IRed a := by
  induction b using List.reverseRecOn with
  | nil => simpa using h
  | append_singleton b i ih =>
    rw [← List.append_assoc, ired_concat] at h
    exact ih h.1

/-- The subword property of involution words. -/
theorem subword {a : List Nat} (ha : IRed a) {x : SPerm} (hx : Invol x) (h : BruhatLE x (looseInvolution a)) :
    ∃ b, b.Sublist a ∧ looseInvolution b = x ∧ IRed b := by
  induction a using List.reverseRecOn generalizing x with
  | nil =>
    rw [loose_nil] at h
    have h1 := BruhatLE.len_le h
    rw [len_identity] at h1
    exact ⟨[], List.Sublist.refl _, (h1.2 (by omega)).symm, ha⟩
  | append_singleton a i ih =>
    obtain ⟨ha', hd⟩ := ired_concat.1 ha
    rw [loose_concat] at h
    have hd' := (invStep_spec (loose_invol a) hd).2.1
    have h1 := lower_le hx (invStep_involution (loose_invol a) i) h i
    rw [if_pos ((mem_rightDescents _ i).2 hd'), invStep_invStep] at h1
    by_cases hdx : Desc x.call i
    · rw [if_pos ((mem_rightDescents _ i).2 hdx)] at h1
      obtain ⟨b, hb1, hb2, hb3⟩ := ih ha' (invStep_involution hx i) h1
      refine ⟨b ++ [i], hb1.append_right [i], by rw [loose_concat, hb2, invStep_invStep], ?_⟩
      rw [ired_concat, hb2]
      exact ⟨hb3, not_desc_invStep hx hdx⟩
    · rw [if_neg (fun hc => hdx ((mem_rightDescents _ i).1 hc))] at h1
      obtain ⟨b, hb1, hb2, hb3⟩ := ih ha' hx h1
      exact ⟨b, hb1.trans (List.sublist_append_left a [i]), hb2, hb3⟩

/-- The Bruhat order on involutions is graded by `involution_length`. -/
theorem invol_graded {x : SPerm} (hx : Invol x) {a : List Nat} (ha : IRed a) (h : BruhatLE x (looseInvolution a))
    (hl : a.length ≤ involutionLength x) : x = looseInvolution a := by
  obtain ⟨b, hb1, hb2, hb3⟩ := subword ha hx h
  unfold IRed at hb3
  rw [hb2] at hb3
  rw [← hb2, hb1.eq_of_length_le (by omega)]

theorem sublist_erase {b a : List Nat} (h : b.Sublist a) (hl : b.length + 1 = a.length) : ∃ j < a.length, b = a.eraseIdx j := by
  induction h with
  | slnil => simp at hl
  | cons x h _ =>
    refine ⟨0, by simp, ?_⟩
    rw [List.eraseIdx_cons_zero]
    exact h.eq_of_length_le (by simp only [List.length_cons] at hl; omega)
  | cons_cons x h ih =>
    obtain ⟨j, hj, he⟩ := ih (by simpa using hl)
    exact ⟨j + 1, by simpa using hj, by rw [List.eraseIdx_cons_succ, he]⟩

theorem mono_append {a a' : List Nat} (h : BruhatLE (looseInvolution a) (looseInvolution a')) (b : List Nat) (h1 : IRed (a ++ b))
    (h2 : IRed (a' ++ b)) : BruhatLE (looseInvolution (a ++ b)) (looseInvolution (a' ++ b)) := by
  induction b using List.reverseRecOn with
  | nil => simpa using h
  | append_singleton b i ih =>
    rw [← List.append_assoc] at h1 h2 ⊢
    rw [← List.append_assoc]
    obtain ⟨h1, h3⟩ := ired_concat.1 h1
    obtain ⟨h2, h4⟩ := ired_concat.1 h2
    rw [loose_concat, loose_concat]
    exact raise_le (loose_invol _) (loose_invol _) (ih h1 h2) h3 h4

/-- A letter more makes a larger involution. -/
theorem le_insert (P : List Nat) (c : Nat) (M : List Nat) (h1 : IRed (P ++ M)) (h2 : IRed (P ++ c :: M)) :
    BruhatLE (looseInvolution (P ++ M)) (looseInvolution (P ++ c :: M)) := by
  have h3 : P ++ c :: M = (P ++ [c]) ++ M := by simp
  rw [h3] at h2 ⊢
  refine mono_append ?_ M h1 h2
  rw [loose_concat]
  exact raise_self_le (loose_invol P) (ired_concat.1 (ired_prefix h2)).2

theorem first_bad (word : List Nat) (h : ¬ IRed word) : ∃ A e B, word = A ++ e :: B ∧ IRed A ∧ Desc (looseInvolution A).call e := by
  induction word using List.reverseRecOn with
  | nil => exact absurd rfl h
  | append_singleton a i ih =>
    by_cases ha : IRed a
    · refine ⟨a, i, [], rfl, ha, ?_⟩
      by_contra hc
      exact h (ired_concat.2 ⟨ha, hc⟩)
    · obtain ⟨A, e, B, rfl, h1, h2⟩ := ih ha
      exact ⟨A, e, B ++ [i], by simp, h1, h2⟩

/-- Exchange for involution words. -/
theorem exch_inv (word : List Nat) (i : Nat) (hi : i < word.length)
    (hr : involutionLength (looseInvolution (word.eraseIdx i)) + 1 = word.length) (hw : involutionLength (looseInvolution word) ≠ word.length) :
    ∃ j < word.length, j ≠ i ∧ looseInvolution (word.eraseIdx j) = looseInvolution (word.eraseIdx i) := by
  have hr' : IRed (word.eraseIdx i) := by unfold IRed; rw [List.length_eraseIdx_of_lt hi]; omega
  obtain ⟨A, e, B, rfl, hA, hd⟩ := first_bad word hw
  have hlen : (A ++ e :: B).length = A.length + B.length + 1 := by simp; omega
  rcases lt_trichotomy A.length i with hlt | heq | hgt
  · exfalso
    rw [List.eraseIdx_append_of_length_le (by omega), show i - A.length = (i - A.length - 1) + 1 by omega, List.eraseIdx_cons_succ] at hr'
    have h1 : A ++ e :: B.eraseIdx (i - A.length - 1) = (A ++ [e]) ++ B.eraseIdx (i - A.length - 1) := by simp
    rw [h1] at hr'
    exact (ired_concat.1 (ired_prefix hr')).2 hd
  · subst heq
    obtain ⟨b, hb1, hb2, hb3⟩ := subword hA (invStep_involution (loose_invol A) e) (lower_self_le (loose_invol A) hd)
    unfold IRed at hb3 hA
    have h1 := ilen_down (loose_invol A) hd
    rw [← hb2, hb3, hA] at h1
    obtain ⟨j, hj, rfl⟩ := sublist_erase hb1 h1.symm
    refine ⟨j, by omega, by omega, ?_⟩
    rw [eraseIdx_at, List.eraseIdx_append_of_lt_length hj, show A.eraseIdx j ++ e :: B = (A.eraseIdx j ++ [e]) ++ B by simp]
    apply loose_congr
    rw [loose_concat, hb2, invStep_invStep]
  · refine ⟨A.length, by omega, by omega, ?_⟩
    rw [eraseIdx_at]
    rw [List.eraseIdx_append_of_lt_length hgt, show A.eraseIdx i ++ e :: B = (A.eraseIdx i ++ [e]) ++ B by simp] at hr' ⊢
    apply loose_congr
    obtain ⟨P, c, M, rfl, hP, he⟩ := split_at hgt
    rw [he] at hr' ⊢
    obtain ⟨h1, h2⟩ := ired_concat.1 (ired_prefix hr')
    have h3 := lower_le (loose_invol _) (loose_invol _) (le_insert P c M h1 hA) e
    rw [if_neg (fun hc => h2 ((mem_rightDescents _ e).1 hc)), if_pos ((mem_rightDescents _ e).2 hd)] at h3
    obtain ⟨b, hb1, hb2, hb3⟩ := subword hA (invStep_involution (loose_invol _) e) (lower_self_le (loose_invol _) hd)
    rw [loose_concat]
    have h4 := ilen_down (loose_invol _) hd
    rw [← hb2] at h3
    have h5 := invol_graded (loose_invol _) hb3 h3 (by
      unfold IRed at h1 hA hb3
      rw [hA, ← hb2, hb3] at h4
      rw [h1]
      simp only [List.length_append, List.length_cons] at h4 ⊢
      omega)
    rw [h5, hb2, invStep_invStep]

theorem rank_mul_le {u v : SPerm} : (mul u v).rank ≤ max u.rank v.rank := by
  apply rank_le_of_odd
  have : (mul u v).call = fun i => u.call (v.call i) := funext (fun i => call_mul u v i)
  rw [this]
  exact mul_odd u v

theorem rank_s_le (i : Nat) : (s i).rank ≤ i + 1 := by
  apply rank_le_of_odd
  have : (s i).call = sFun i := funext (fun a => call_s i a)
  rw [this]
  exact sFun_odd i

theorem rank_invStep {w : SPerm} {i : Nat} (hd : Desc w.call i) : (invStep w i).rank ≤ w.rank := by
  have h1 := rank_of_desc hd
  have h2 := rank_s_le i
  unfold invStep
  split
  · have := rank_mul_le (u := w) (v := s i)
    omega
  · have h3 := rank_mul_le (u := s i) (v := w)
    have h4 := rank_mul_le (u := mul (s i) w) (v := s i)
    omega

theorem lt_rank_inv (a : List Nat) (h : involutionLength (looseInvolution a) = a.length) : ∀ x ∈ a, x < (looseInvolution a).rank := by
  induction a using List.reverseRecOn with
  | nil => intro x hx; simp at hx
  | append_singleton a i ih =>
    obtain ⟨h1, h2⟩ := ired_concat.1 (show IRed (a ++ [i]) from h)
    have hd := (invStep_spec (loose_invol a) h2).2.1
    have h3 := rank_invStep hd
    rw [invStep_invStep] at h3
    intro x hx
    rw [loose_concat]
    rcases List.mem_append.1 hx with hx | hx
    · have := ih h1 x hx
      omega
    · have := rank_of_desc hd
      rw [List.mem_singleton] at hx
      omega

theorem littleSys_inv : LittleSys looseInvolution involutionLength := ⟨exch_inv, lt_rank_inv⟩

end Verif.Perm
