import Verif.Lemmas.AtomsMin

/-! # Steps between the atoms of involutions -/

namespace Verif.Perm
open Verif.PermSpec
attribute [-simp] List.getD_eq_getElem?_getD
attribute [local irreducible] mul s inverse identity len mod act demazure SPerm.call sFun invStep

variable {x y : SPerm} {T : Int → Int → Prop}

/-- The four numbers moved by an adjacent transposition. -/
structure Four (i : Nat) (I J K L : Int) : Prop where
  hi : 1 ≤ i
  hI : I = i
  hJ : J = I + 1
  hK : K = -I
  hL : L = -J

theorem Four.vals {i : Nat} {I J K L : Int} (F : Four i I J K L) :
    1 ≤ I ∧ sFun i I = J ∧ sFun i J = I ∧ sFun i K = L ∧ sFun i L = K := by
  obtain ⟨v1, v2, v3, v4⟩ := sFun_four F.hi
  rw [F.hL, F.hK, F.hJ, F.hI]
  exact ⟨by have := F.hi; omega, v1, v2, v3, v4⟩

theorem Four.far {i : Nat} {I J K L : Int} (F : Four i I J K L) (hy : ∀ a, y.call (y.call a) = a)
    (h : y.call I = J ∧ y.call J = I ∨ y.call I = I ∧ y.call J = J ∨ y.call I = K ∧ y.call J = L ∨ y.call I = L ∧ y.call J = K) {a : Int}
    (h1 : a ≠ I) (h2 : a ≠ J) (h3 : a ≠ K) (h4 : a ≠ L) : sFun i a = a ∧ sFun i (y.call a) = y.call a := by
  rw [F.hL, F.hK, F.hJ, F.hI] at *
  exact ⟨(far_call hy F.hi h h1 h2 h3 h4).1, (far_call hy F.hi h h1 h2 h3 h4).2.1⟩

theorem GM.comm_down (h : GM x y T) (hy : ∀ a, y.call (y.call a) = a) {i : Nat} {I J K L : Int} (F : Four i I J K L)
    (h1 : y.call I = J) : GM (mul x (s i)) (mul y (s i)) T := by
  obtain ⟨hI1, v1, v2, v3, v4⟩ := F.vals
  have hJ := F.hJ
  have hK := F.hK
  have hL := F.hL
  have hn := (call_odd y).neg
  have h2 := hy I
  rw [h1] at h2
  have n1 : y.call K = -y.call I := by rw [hK, hn]
  have n2 : y.call L = -y.call J := by rw [hL, hn]
  have far := @Four.far y i I J K L F hy (.inl ⟨h1, h2⟩)
  have hm : IsEnd y T I := h.mat.end_pos (by omega) (by omega)
  have hb := h.block I (by omega) (by omega)
  rw [h1] at hb
  have w1 : (mul y (s i)).call I = I := by rw [call_mul, call_s, v1, h2]
  have w2 : (mul y (s i)).call J = J := by rw [call_mul, call_s, v2, h1]
  have w3 : (mul y (s i)).call K = K := by rw [hK, (call_odd _).neg, w1]
  have w4 : (mul y (s i)).call L = L := by rw [hL, (call_odd _).neg, w2]
  have w : ∀ a : Int, (a = I ∨ a = J ∨ a = K ∨ a = L) ∨ (a ≠ I ∧ a ≠ J ∧ a ≠ K ∧ a ≠ L ∧
      (mul y (s i)).call a = y.call a) := by
    intro a
    by_cases hc : a = I ∨ a = J ∨ a = K ∨ a = L
    · exact .inl hc
    · push Not at hc
      exact .inr ⟨hc.1, hc.2.1, hc.2.2.1, hc.2.2.2, by rw [call_mul, call_s, (far hc.1 hc.2.1 hc.2.2.1 hc.2.2.2).1]⟩
  have q : ∀ a, IsEnd (mul y (s i)) T a → (a = I ∧ sFun i a = J) ∨ (a = J ∧ sFun i a = I) ∨
      (IsEnd y T a ∧ sFun i a = a ∧ a ≠ I ∧ a ≠ J) := by
    rintro a ⟨⟨m0, m1, m2⟩, m3⟩
    rcases w a with (e | e | e | e) | ⟨e1, e2, e3, e4, e⟩
    · subst e; exact .inl ⟨rfl, v1⟩
    · subst e; exact .inr (.inl ⟨rfl, v2⟩)
    · subst e; omega
    · subst e; omega
    · rw [e] at m1 m2
      exact .inr (.inr ⟨⟨⟨m0, m1, m2⟩, m3⟩, (far e1 e2 e3 e4).1, e1, e2⟩)
  refine ⟨h.mat.congr 0 (fun a b hab => (h.mat.neg _ _ hab).1) (fun c hc => ?_), fun a ha => ?_, fun a ha hb' => ?_, fun a b hab => ?_,
    fun a b ha hb' hab => ?_⟩
  · rcases w c with (e | e | e | e) | ⟨e1, e2, e3, e4, e⟩
    · clear * - e w1 h1 hI1 hJ hK hL
      subst e; exact iff_of_false (by omega) (by omega)
    · clear * - e w2 h2 hI1 hJ hK hL
      subst e; exact iff_of_false (by omega) (by omega)
    · clear * - e hc hI1 hJ hK hL
      omega
    · clear * - e hc hI1 hJ hK hL
      omega
    · rw [e]
  · simp only [call_mul, call_s]
    rcases q a ha with ⟨e, e'⟩ | ⟨e, e'⟩ | ⟨e, e', _⟩ <;> rw [e']
    · exact hb.2
    · omega
    · exact h.pos a e
  · rcases w a with (e | e | e | e) | ⟨e1, e2, e3, e4, e⟩
    · subst e; omega
    · subst e; omega
    · subst e; omega
    · subst e; omega
    · rw [e] at ha hb' ⊢
      obtain ⟨f1, f2⟩ := far e1 e2 e3 e4
      rw [call_mul, call_mul, call_s, call_s, f1, f2]
      exact h.block a ha hb'
  · obtain ⟨t1, t2, t3, t4⟩ := h.mat.neg _ _ hab
    have ne1 : ∀ c : Int, 0 < c → y.call c = -c → c ≠ I ∧ c ≠ J := by
      clear * - h1 h2 hI1 hJ hK hL
      exact fun c hc hcc => ⟨fun e => by subst e; omega, fun e => by subst e; omega⟩
    have na := ne1 a t1 t3
    have nb := ne1 b (by omega) t4
    rw [call_mul, call_mul, call_s, call_s, (sFun_odd i).neg, (far na.1 na.2 (by omega) (by omega)).1,
      (far nb.1 nb.2 (by omega) (by omega)).1]
    exact h.tblock _ _ hab
  · simp only [call_mul, call_s]
    rcases q a ha with ⟨e, e'⟩ | ⟨e, e'⟩ | ⟨e, e', e1, e2⟩ <;> rcases q b hb' with ⟨f, f'⟩ | ⟨f, f'⟩ | ⟨f, f', f1, f2⟩ <;> rw [e', f']
    · omega
    · omega
    · have := h.order I b hm f (by omega); omega
    · omega
    · omega
    · exact h.order I b hm f (by omega)
    · have := h.order a I e hm (by omega)
      have := (call_odd x).inj a J
      omega
    · exact h.order a I e hm (by omega)
    · exact h.order a b e f hab

theorem GM.comm_up (h : GM x y T) (hy : ∀ a, y.call (y.call a) = a) {i : Nat} {I J K L : Int} (F : Four i I J K L)
    (h1 : y.call I = I) (h2 : y.call J = J) (hx : x.call J = x.call I + 1) :
    GM (mul x (s i)) (mul y (s i)) T := by
  obtain ⟨hI1, v1, v2, v3, v4⟩ := F.vals
  have hJ := F.hJ
  have hK := F.hK
  have hL := F.hL
  have hn := (call_odd y).neg
  have n1 : y.call K = -y.call I := by rw [hK, hn]
  have n2 : y.call L = -y.call J := by rw [hL, hn]
  have far := @Four.far y i I J K L F hy (.inr (.inl ⟨h1, h2⟩))
  have hm : IsEnd y T I := h.mat.end_pos (by omega) (by omega)
  have hm' : IsEnd y T J := h.mat.end_pos (by omega) (by omega)
  have hp := h.pos I hm
  have w1 : (mul y (s i)).call I = J := by rw [call_mul, call_s, v1, h2]
  have w2 : (mul y (s i)).call J = I := by rw [call_mul, call_s, v2, h1]
  have w3 : (mul y (s i)).call K = L := by rw [hK, (call_odd _).neg, w1, hL]
  have w4 : (mul y (s i)).call L = K := by rw [hL, (call_odd _).neg, w2, hK]
  have w : ∀ a : Int, (a = I ∨ a = J ∨ a = K ∨ a = L) ∨ (a ≠ I ∧ a ≠ J ∧ a ≠ K ∧ a ≠ L ∧
      (mul y (s i)).call a = y.call a) := by
    intro a
    by_cases hc : a = I ∨ a = J ∨ a = K ∨ a = L
    · exact .inl hc
    · push Not at hc
      exact .inr ⟨hc.1, hc.2.1, hc.2.2.1, hc.2.2.2, by rw [call_mul, call_s, (far hc.1 hc.2.1 hc.2.2.1 hc.2.2.2).1]⟩
  have q : ∀ a, IsEnd (mul y (s i)) T a → (a = I ∧ sFun i a = J) ∨ (IsEnd y T a ∧ sFun i a = a ∧ a ≠ I ∧ a ≠ J) := by
    rintro a ⟨⟨m0, m1, m2⟩, m3⟩
    rcases w a with (e | e | e | e) | ⟨e1, e2, e3, e4, e⟩
    · subst e; exact .inl ⟨rfl, v1⟩
    · subst e; omega
    · subst e; omega
    · subst e; omega
    · rw [e] at m1 m2
      exact .inr ⟨⟨⟨m0, m1, m2⟩, m3⟩, (far e1 e2 e3 e4).1, e1, e2⟩
  refine ⟨h.mat.congr 0 (fun a b hab => (h.mat.neg _ _ hab).1) (fun c hc => ?_), fun a ha => ?_, fun a ha hb' => ?_, fun a b hab => ?_,
    fun a b ha hb' hab => ?_⟩
  · rcases w c with (e | e | e | e) | ⟨e1, e2, e3, e4, e⟩
    · clear * - e w1 h1 hI1 hJ hK hL
      subst e; exact iff_of_false (by omega) (by omega)
    · clear * - e w2 h2 hI1 hJ hK hL
      subst e; exact iff_of_false (by omega) (by omega)
    · clear * - e hc hI1 hJ hK hL
      omega
    · clear * - e hc hI1 hJ hK hL
      omega
    · rw [e]
  · simp only [call_mul, call_s]
    rcases q a ha with ⟨e, e'⟩ | ⟨e, e', _⟩ <;> rw [e']
    · omega
    · exact h.pos a e
  · rcases w a with (e | e | e | e) | ⟨e1, e2, e3, e4, e⟩
    · subst e; rw [w1, call_mul, call_mul, call_s, call_s, v1, v2]; omega
    · subst e; omega
    · subst e; omega
    · subst e; omega
    · rw [e] at ha hb' ⊢
      obtain ⟨f1, f2⟩ := far e1 e2 e3 e4
      rw [call_mul, call_mul, call_s, call_s, f1, f2]
      exact h.block a ha hb'
  · obtain ⟨t1, t2, t3, t4⟩ := h.mat.neg _ _ hab
    have ne1 : ∀ c : Int, 0 < c → y.call c = -c → c ≠ I ∧ c ≠ J := by
      clear * - h1 h2 hI1 hJ hK hL
      exact fun c hc hcc => ⟨fun e => by subst e; omega, fun e => by subst e; omega⟩
    have na := ne1 a t1 t3
    have nb := ne1 b (by omega) t4
    rw [call_mul, call_mul, call_s, call_s, (sFun_odd i).neg, (far na.1 na.2 (by omega) (by omega)).1,
      (far nb.1 nb.2 (by omega) (by omega)).1]
    exact h.tblock _ _ hab
  · simp only [call_mul, call_s]
    rcases q a ha with ⟨e, e'⟩ | ⟨e, e', e1, e2⟩ <;> rcases q b hb' with ⟨f, f'⟩ | ⟨f, f', f1, f2⟩ <;> rw [e', f']
    · omega
    · exact h.order _ b hm' f (by omega)
    · have := h.order a I e hm (by omega); omega
    · exact h.order a b e f hab

theorem GM.pair_down (h : GM x y T) (hy : ∀ a, y.call (y.call a) = a) {i : Nat} {I J K L : Int} (F : Four i I J K L)
    (ht : T I J) : GM (mul x (s i)) (mul y (s i)) (fun a b => T a b ∧ a ≠ I) := by
  obtain ⟨hI1, v1, v2, v3, v4⟩ := F.vals
  have hJ := F.hJ
  have hK := F.hK
  have hL := F.hL
  have hn := (call_odd y).neg
  obtain ⟨_, _, h1, h2⟩ := h.mat.neg _ _ ht
  rw [← hK] at h1
  rw [← hL] at h2
  have n1 : y.call K = -y.call I := by rw [hK, hn]
  have n2 : y.call L = -y.call J := by rw [hL, hn]
  have far := @Four.far y i I J K L F hy (.inr (.inr (.inl ⟨h1, h2⟩)))
  have hm : IsEnd y T L := by rw [hL]; exact h.mat.end_big ht
  have hb := h.tblock _ _ ht
  rw [← hL] at hb
  have w1 : (mul y (s i)).call I = L := by rw [call_mul, call_s, v1, h2]
  have w2 : (mul y (s i)).call J = K := by rw [call_mul, call_s, v2, h1]
  have w3 : (mul y (s i)).call K = J := by rw [hK, (call_odd _).neg, w1]; omega
  have w4 : (mul y (s i)).call L = I := by rw [hL, (call_odd _).neg, w2]; omega
  have w : ∀ a : Int, (a = I ∨ a = J ∨ a = K ∨ a = L) ∨ (a ≠ I ∧ a ≠ J ∧ a ≠ K ∧ a ≠ L ∧
      (mul y (s i)).call a = y.call a) := by
    intro a
    by_cases hc : a = I ∨ a = J ∨ a = K ∨ a = L
    · exact .inl hc
    · push Not at hc
      exact .inr ⟨hc.1, hc.2.1, hc.2.2.1, hc.2.2.2, by rw [call_mul, call_s, (far hc.1 hc.2.1 hc.2.2.1 hc.2.2.2).1]⟩
  have tn : ∀ a b, T a b → a ≠ I → 0 < a ∧ a < b ∧ a ≠ J ∧ b ≠ I ∧ b ≠ J ∧ y.call a = -a ∧ y.call b = -b := by
    intro a b hab hai
    have := h.mat.neg _ _ hab
    rcases h.mat.uniq _ _ _ _ hab ht with u | u
    · exact absurd u.1 hai
    · exact ⟨this.1, this.2.1, u.2.1, u.2.2.1, u.2.2.2, this.2.2⟩
  have wp : ∀ a : Int, 0 < a → a ≠ I → a ≠ J → (mul y (s i)).call a = y.call a := by
    intro a h0 ha hb
    rcases w a with (e | e | e | e) | ⟨e1, e2, e3, e4, e⟩
    · exact absurd e ha
    · exact absurd e hb
    · clear * - e h0 hI1 hJ hK hL
      omega
    · clear * - e h0 hI1 hJ hK hL
      omega
    · exact e
  have q : ∀ a, IsEnd (mul y (s i)) (fun a b => T a b ∧ a ≠ I) a → (a = K ∧ sFun i a = L) ∨
      (IsEnd y T a ∧ sFun i a = a ∧ a ≠ K ∧ a ≠ L) := by
    rintro a ⟨⟨m0, m1, m2⟩, m3⟩
    rcases w a with (e | e | e | e) | ⟨e1, e2, e3, e4, e⟩
    · subst e; omega
    · subst e; omega
    · subst e; exact .inl ⟨rfl, v3⟩
    · subst e; omega
    · rw [e] at m1 m2
      exact .inr ⟨⟨⟨m0, m1, m2⟩, fun b hb => m3 b ⟨hb, by omega⟩⟩, (far e1 e2 e3 e4).1, e3, e4⟩
  refine ⟨⟨?_, ?_, ?_⟩, fun a ha => ?_, fun a ha hb' => ?_, ?_, fun a b ha hb' hab => ?_⟩
  · rintro a b ⟨hab, hai⟩
    obtain ⟨t1, t2, t3, t4, t5, t6, t7⟩ := tn a b hab hai
    exact ⟨t1, t2, by rw [wp a t1 hai t3, t6], by rw [wp b (by omega) t4 t5, t7]⟩
  · rintro a b c d ⟨hab, _⟩ ⟨hcd, _⟩
    exact h.mat.uniq _ _ _ _ hab hcd
  · rintro a b c ⟨hab, hai⟩ hac hcb hc
    obtain ⟨t1, t2, t3, t4, t5, t6, t7⟩ := tn a b hab hai
    have hci : c ≠ I := fun e => by subst e; omega
    have hci' : c ≠ J := fun e => by subst e; omega
    rw [wp c (by omega) hci hci'] at hc
    obtain ⟨d, hd, d1, d2⟩ := h.mat.nest a b c hab hac hcb hc
    refine ⟨d, ?_, d1, d2⟩
    rcases hd with hd | hd
    · exact .inl ⟨hd, hci⟩
    · refine .inr ⟨hd, fun e => ?_⟩
      subst e
      rcases h.mat.uniq _ _ _ _ hd ht with u | u
      · exact hci' u.2
      · exact u.1 rfl
  · simp only [call_mul, call_s]
    rcases q a ha with ⟨e, e'⟩ | ⟨e, e', _⟩ <;> rw [e']
    · omega
    · exact h.pos a e
  · rcases w a with (e | e | e | e) | ⟨e1, e2, e3, e4, e⟩
    · subst e; omega
    · subst e; omega
    · subst e; rw [w3, call_mul, call_mul, call_s, call_s, v2, v3]; exact hb
    · subst e; omega
    · rw [e] at ha hb' ⊢
      obtain ⟨f1, f2⟩ := far e1 e2 e3 e4
      rw [call_mul, call_mul, call_s, call_s, f1, f2]
      exact h.block a ha hb'
  · rintro a b ⟨hab, hai⟩
    obtain ⟨t1, t2, t3, t4, t5, t6, t7⟩ := tn a b hab hai
    rw [call_mul, call_mul, call_s, call_s, (sFun_odd i).neg, (far hai t3 (by omega) (by omega)).1,
      (far t4 t5 (by omega) (by omega)).1]
    exact h.tblock _ _ hab
  · simp only [call_mul, call_s]
    rcases q a ha with ⟨e, e'⟩ | ⟨e, e', e1, e2⟩ <;> rcases q b hb' with ⟨f, f'⟩ | ⟨f, f', f1, f2⟩ <;> rw [e', f']
    · omega
    · exact h.order _ b hm f (by omega)
    · exact h.order a _ e hm (by omega)
    · exact h.order a b e f hab

theorem GM.pair_up (h : GM x y T) (hy : ∀ a, y.call (y.call a) = a) {i : Nat} {I J K L : Int} (F : Four i I J K L)
    (h1 : y.call I = L) : GM (mul x (s i)) (mul y (s i)) (fun a b => T a b ∨ (a = I ∧ b = J)) := by
  obtain ⟨hI1, v1, v2, v3, v4⟩ := F.vals
  have hJ := F.hJ
  have hK := F.hK
  have hL := F.hL
  have hn := (call_odd y).neg
  have h2 : y.call J = K := by
    have := hy I
    rw [h1, hL, hn] at this; omega
  have n1 : y.call K = -y.call I := by rw [hK, hn]
  have n2 : y.call L = -y.call J := by rw [hL, hn]
  have far := @Four.far y i I J K L F hy (.inr (.inr (.inr ⟨h1, h2⟩)))
  have hm : IsEnd y T K := h.mat.end_pair (by omega) (by omega)
  have hb := h.block K (by omega) (by omega)
  rw [show y.call K = J by omega] at hb
  have w1 : (mul y (s i)).call I = K := by rw [call_mul, call_s, v1, h2]
  have w2 : (mul y (s i)).call J = L := by rw [call_mul, call_s, v2, h1]
  have w3 : (mul y (s i)).call K = I := by rw [hK, (call_odd _).neg, w1]; omega
  have w4 : (mul y (s i)).call L = J := by rw [hL, (call_odd _).neg, w2]; omega
  have w : ∀ a : Int, (a = I ∨ a = J ∨ a = K ∨ a = L) ∨ (a ≠ I ∧ a ≠ J ∧ a ≠ K ∧ a ≠ L ∧
      (mul y (s i)).call a = y.call a) := by
    intro a
    by_cases hc : a = I ∨ a = J ∨ a = K ∨ a = L
    · exact .inl hc
    · push Not at hc
      exact .inr ⟨hc.1, hc.2.1, hc.2.2.1, hc.2.2.2, by rw [call_mul, call_s, (far hc.1 hc.2.1 hc.2.2.1 hc.2.2.2).1]⟩
  have tn : ∀ a b, T a b → 0 < a ∧ a < b ∧ a ≠ I ∧ a ≠ J ∧ b ≠ I ∧ b ≠ J ∧ y.call a = -a ∧ y.call b = -b := by
    intro a b hab
    have := h.mat.neg _ _ hab
    obtain ⟨m1, m2, m3, m4⟩ := this
    clear * - m1 m2 m3 m4 h1 h2 hI1 hJ hK hL
    refine ⟨m1, m2, ?_, ?_, ?_, ?_, m3, m4⟩ <;> intro e <;> subst e <;> omega
  have wp : ∀ a : Int, 0 < a → a ≠ I → a ≠ J → (mul y (s i)).call a = y.call a := by
    intro a h0 ha hb
    rcases w a with (e | e | e | e) | ⟨e1, e2, e3, e4, e⟩
    · exact absurd e ha
    · exact absurd e hb
    · clear * - e h0 hI1 hJ hK hL
      omega
    · clear * - e h0 hI1 hJ hK hL
      omega
    · exact e
  have q : ∀ a, IsEnd (mul y (s i)) (fun a b => T a b ∨ (a = I ∧ b = J)) a → (a = L ∧ sFun i a = K) ∨
      (IsEnd y T a ∧ sFun i a = a ∧ a ≠ K ∧ a ≠ L) := by
    rintro a ⟨⟨m0, m1, m2⟩, m3⟩
    rcases w a with (e | e | e | e) | ⟨e1, e2, e3, e4, e⟩
    · subst e; omega
    · subst e; omega
    · exact absurd (.inr ⟨by omega, rfl⟩) (m3 J)
    · subst e; exact .inl ⟨rfl, v4⟩
    · rw [e] at m1 m2
      exact .inr ⟨⟨⟨m0, m1, m2⟩, fun b hb => m3 b (.inl hb)⟩, (far e1 e2 e3 e4).1, e3, e4⟩
  refine ⟨⟨?_, ?_, ?_⟩, fun a ha => ?_, fun a ha hb' => ?_, ?_, fun a b ha hb' hab => ?_⟩
  · rintro a b (hab | ⟨rfl, rfl⟩)
    · obtain ⟨t1, t2, t3, t4, t5, t6, t7, t8⟩ := tn a b hab
      exact ⟨t1, t2, by rw [wp a t1 t3 t4, t7], by rw [wp b (by omega) t5 t6, t8]⟩
    · exact ⟨by omega, by omega, by rw [w1, hK], by rw [w2, hL]⟩
  · rintro a b c d (hab | ⟨rfl, rfl⟩) (hcd | ⟨rfl, rfl⟩)
    · exact h.mat.uniq _ _ _ _ hab hcd
    · have := tn a b hab; omega
    · have := tn c d hcd; omega
    · omega
  · rintro a b c (hab | ⟨rfl, rfl⟩) hac hcb hc
    · obtain ⟨t1, t2, t3, t4, t5, t6, t7, t8⟩ := tn a b hab
      by_cases hci : c = I
      · exact ⟨J, .inl (.inr ⟨hci, rfl⟩), by omega, by omega⟩
      · by_cases hci' : c = J
        · exact ⟨I, .inr (.inr ⟨rfl, hci'⟩), by omega, by omega⟩
        · rw [wp c (by omega) hci hci'] at hc
          obtain ⟨d, hd, d1, d2⟩ := h.mat.nest a b c hab hac hcb hc
          exact ⟨d, hd.imp .inl .inl, d1, d2⟩
    · omega
  · simp only [call_mul, call_s]
    rcases q a ha with ⟨e, e'⟩ | ⟨e, e', _⟩ <;> rw [e']
    · omega
    · exact h.pos a e
  · rcases w a with (e | e | e | e) | ⟨e1, e2, e3, e4, e⟩
    · subst e; omega
    · subst e; omega
    · subst e; omega
    · subst e; omega
    · rw [e] at ha hb' ⊢
      obtain ⟨f1, f2⟩ := far e1 e2 e3 e4
      rw [call_mul, call_mul, call_s, call_s, f1, f2]
      exact h.block a ha hb'
  · rintro a b (hab | ⟨rfl, rfl⟩)
    · obtain ⟨t1, t2, t3, t4, t5, t6, t7, t8⟩ := tn a b hab
      rw [call_mul, call_mul, call_s, call_s, (sFun_odd i).neg, (far t3 t4 (by omega) (by omega)).1,
        (far t5 t6 (by omega) (by omega)).1]
      exact h.tblock _ _ hab
    · rw [call_mul, call_mul, call_s, call_s, ← hL, v1, v4]; exact hb
  · simp only [call_mul, call_s]
    rcases q a ha with ⟨e, e'⟩ | ⟨e, e', e1, e2⟩ <;> rcases q b hb' with ⟨f, f'⟩ | ⟨f, f', f1, f2⟩ <;> rw [e', f']
    · omega
    · exact h.order _ b hm f (by omega)
    · exact h.order a _ e hm (by omega)
    · exact h.order a b e f hab

end Verif.Perm
