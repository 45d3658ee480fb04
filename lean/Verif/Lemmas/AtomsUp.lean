import Verif.Lemmas.AtomsDown

/-! # Atoms of involutions: ascents -/

namespace Verif.Perm
open Verif.PermSpec
attribute [-simp] List.getD_eq_getElem?_getD
attribute [local irreducible] mul s inverse identity len mod act demazure SPerm.call sFun invStep

variable {x y : SPerm} {T : Int → Int → Prop}

/-- Of three consecutive entries of the inverse the last is not the smallest. -/
def NB (x : SPerm) : Prop :=
  ∀ a b c, 0 < x.call a → x.call b = x.call a + 1 → x.call c = x.call a + 2 → ¬ (c < a ∧ c < b)

theorem NB.down (h : NB x) {i : Nat} (hd : Desc x.call i) : NB (mul x (s i)) := by
  intro a b c h1 h2 h3 h4
  have hn := (call_odd x).neg
  rw [call_mul, call_s] at h1
  rw [call_mul, call_mul, call_s, call_s] at h2 h3
  refine h (sFun i a) (sFun i b) (sFun i c) h1 h2 h3 ?_
  have key : ∀ d, c < d → 0 < x.call (sFun i d) → x.call (sFun i d) < x.call (sFun i c) → sFun i c < sFun i d := by
    intro d hcd hp hl
    by_cases hi : i = 0
    · subst hi
      rw [desc_zero_iff] at hd
      have := hn 1
      rcases sFun_zero_of c with ⟨e, e'⟩ | ⟨e, e'⟩ | ⟨e1, e2, e'⟩ <;> rcases sFun_zero_of d with ⟨f, f'⟩ | ⟨f, f'⟩ | ⟨f1, f2, f'⟩
      · omega
      · omega
      · omega
      · rw [e', f'] at hl; omega
      · omega
      · have : d ≠ 0 := fun e => by rw [f', e, (call_odd x).zero] at hp; omega
        omega
      · have : c ≠ 0 := fun e => by rw [e', e, (call_odd x).zero] at hl; omega
        omega
      · have : c ≠ 0 := fun e => by rw [e', e, (call_odd x).zero] at hl; omega
        omega
      · omega
    · rw [desc_pos_iff hi] at hd
      rcases lt_or_ge (sFun i c) (sFun i d) with e | e
      · exact e
      · exfalso
        rcases Int.lt_or_eq_of_le e with e | e
        · rcases sFun_lt_cases (by omega) e with e | ⟨e, f⟩ | ⟨e, f⟩
          · omega
          · rw [e, f, (sFun_four (by omega)).1, (sFun_four (by omega)).2.1] at hl; omega
          · rw [e, f, (sFun_four (by omega)).2.2.1, (sFun_four (by omega)).2.2.2, hn, hn] at hl; omega
        · have := (sFun_odd i).inj _ _ e; omega
  exact ⟨key a h4.1 h1 (by omega), key b h4.2 (by omega) (by omega)⟩

/-- The block after that of `m` is that of `m + 1`. -/
theorem GM.next (h : GM x y T) (hy : ∀ a, y.call (y.call a) = a) {m m' : Int} (hm : m' = m + 1) (h1 : IsEnd y T m) (h2 : IsEnd y T m')
    (h3 : y.call m' ≠ -m') : x.call (y.call m') = x.call m + 1 := by
  have p1 := h.pos _ h1
  have l1 := h.order _ _ h1 h2 (by omega)
  have hinj := (call_odd x).inj
  have hym := hy m'
  have hm2 := h2.1.2
  obtain ⟨v, hv⟩ := (call_odd x).surj_on (x.call m + 1)
  have hend : IsEnd y T v → x.call (y.call m') = x.call m + 1 := by
    intro he
    have e1 := (h.lt_iff h1 he).1 (by omega)
    have e2 : v = m' := by
      by_contra hc
      have := h.order _ _ h2 he (by omega); omega
    rw [e2] at hv
    rcases Int.lt_or_eq_of_le hm2.1 with e | e
    · have := (h.block m' (by omega) (by omega)).1
      have := hinj (y.call m') m (by omega)
      omega
    · rw [← e, hv]
  have hn := (call_odd x).neg v
  have hv0 : v ≠ 0 := fun e => by rw [e, (call_odd x).zero] at hv; omega
  rcases lt_or_ge v 0 with hs | hs
  · rcases h.kind hy (v := -v) (by omega) with ⟨a1, a2, a3⟩ | ⟨a1, a2, a3, a4, a5⟩ | ⟨a1, a2, a3, a4, a5⟩ | ⟨b, a1, a2, a3, a4, a5, a6, a7⟩
    · omega
    · omega
    · rw [neg_neg] at a5; exact hend a5
    · omega
  · rcases h.kind hy (v := v) (by omega) with ⟨a1, a2, a3⟩ | ⟨a1, a2, a3, a4, a5⟩ | ⟨a1, a2, a3, a4, a5⟩ | ⟨b, a1, a2, a3, a4, a5, a6, a7⟩
    · exact hend a3
    · have e1 := (h.lt_iff h1 a5).1 (by omega)
      by_cases hc : m' < y.call v
      · have := h.order _ _ h2 a5 hc
        have := hinj v m' (by omega)
        subst this; omega
      · have : y.call v = m' := by omega
        rw [← this, hy, hv]
    · omega
    · have e1 := (h.lt_iff h1 a7).1 (by omega)
      by_cases hc : m' < -b
      · have := h.order _ _ h2 a7 hc
        have := hinj v m' (by omega)
        subst this; omega
      · have : -b = m' := by omega
        have h5 := (call_odd y).neg b
        rw [this, a4] at h5; omega

theorem GM.up_pos (h : GM x y T) (hy : ∀ a, y.call (y.call a) = a) {i : Nat} {I J K L : Int} (F : Four i I J K L)
    (hyd : y.call I < y.call J) (hn : NB (mul x (s i))) :
    ∃ T', GM (mul x (s i)) (invStep y i) T' := by
  obtain ⟨hI1, v1, v2, v3, v4⟩ := F.vals
  have hJ := F.hJ
  have hK := F.hK
  have hL := F.hL
  have nI : y.call K = -y.call I := by rw [hK, (call_odd y).neg]
  have nJ : y.call L = -y.call J := by rw [hL, (call_odd y).neg]
  have hyI := hy I
  have hyJ := hy J
  have sfix : ∀ a, J < a → sFun i a = a := by
    intro a ha
    have := F.hI
    rcases sFun_of F.hi a with ⟨e, e'⟩ | ⟨e, e'⟩ | ⟨e, e'⟩ | ⟨e, e'⟩ | ⟨e1, e2, e3, e4, e'⟩ <;> omega
  rcases h.kind hy (v := I) (by omega) with ⟨a1, a2, a3⟩ | ⟨a1, a2, a3, a4, a5⟩ | ⟨a1, a2, a3, a4, a5⟩ | ⟨b, a1, a2, a3, a4, a5, a6, a7⟩ <;>
  rcases h.kind hy (v := J) (by omega) with ⟨b1, b2, b3⟩ | ⟨b1, b2, b3, b4, b5⟩ | ⟨b1, b2, b3, b4, b5⟩ | ⟨c, b1, b2, b3, b4, b5, b6, b7⟩
  · have hx := h.next hy hJ a3 b3 (by omega)
    by_cases hJf : y.call J = J
    · rw [hJf] at hx
      by_cases hIf : y.call I = I
      · refine ⟨T, ?_⟩
        rw [invStep_comm (F.comm hy (.inr (.inl ⟨hIf, hJf⟩)))]
        exact h.comm_up hy F hIf hJf hx
      · exfalso
        have hb := h.block I (by omega) (by omega)
        have hne : y.call I ≠ J := fun e => by rw [e] at hyI; omega
        have e1 := sfix (y.call I) (by omega)
        exact hn (y.call I) J I (by rw [call_mul, call_s, e1]; omega)
          (by rw [call_mul, call_mul, call_s, call_s, e1, v2]; omega)
          (by rw [call_mul, call_mul, call_s, call_s, e1, v1]; omega) ⟨by omega, by omega⟩
    · exfalso
      have hb := h.block J (by omega) (by omega)
      have e1 := sfix (y.call J) (by omega)
      exact hn J (y.call J) I (by rw [call_mul, call_s, v2]; omega)
          (by rw [call_mul, call_mul, call_s, call_s, e1, v2]; omega)
          (by rw [call_mul, call_mul, call_s, call_s, v1, v2]; omega) ⟨by omega, by omega⟩
  · omega
  · omega
  · omega
  · refine h.conj_four hy F (by omega) (by omega) (by omega) (fun e => ?_) (fun e => ?_)
    · have := e.1.1.2.1; omega
    · have := e.1.1.2.2; omega
  · refine h.conj_four hy F (by omega) (by omega) (by omega) (fun e => ?_) (fun e => ?_)
    · have := e.1.1.2.1; omega
    · have := e.1.1.2.2; omega
  · omega
  · omega
  · refine h.conj_four hy F (by omega) (by omega) (fun e => ?_) (fun e => ?_) (fun e => ?_)
    · rw [e, nJ] at hyI; omega
    · have := e.1.1.2.1; omega
    · have := e.2.1.2.2; omega
  · by_cases hc : y.call I = L
    · refine ⟨fun a c => T a c ∨ (a = I ∧ c = J), ?_⟩
      have : y.call J = K := by rw [hc, nJ] at hyI; omega
      rw [invStep_comm (F.comm hy (.inr (.inr (.inr ⟨hc, this⟩))))]
      exact h.pair_up hy F hc
    · refine h.conj_four hy F (by omega) (by omega) hc (fun e => ?_) (fun e => ?_)
      · have := e.1.1.2.1; omega
      · have := e.2.1.2.2; omega
  · exfalso
    rw [← hK] at a5
    rw [← hL] at b5
    have hx := h.next hy (m := L) (m' := K) (by omega) b5 a5 (by omega)
    have hb := h.block K (by omega) (by omega)
    have e1 := sfix (y.call K) (by omega)
    have := h.pos _ b5
    exact hn K (y.call K) L (by rw [call_mul, call_s, v3]; omega)
        (by rw [call_mul, call_mul, call_s, call_s, e1, v3]; omega)
        (by rw [call_mul, call_mul, call_s, call_s, v3, v4]; omega) ⟨by omega, by omega⟩
  · refine h.conj_four hy F (by omega) (by omega) (by omega) (fun e => ?_) (fun e => ?_)
    · have := e.1.1.2.1; omega
    · exact e.2.2 c (by rw [hL, neg_neg]; exact b1)
  · refine h.conj_four hy F (by omega) (by omega) (by omega) (fun e => ?_) (fun e => ?_)
    · have := e.1.1.2.1; omega
    · exact e.1.2 b (by rw [hK, neg_neg]; exact a1)
  · refine h.conj_four hy F (by omega) (by omega) (by omega) (fun e => ?_) (fun e => ?_)
    · have := e.1.1.2.1; omega
    · exact e.1.2 b (by rw [hK, neg_neg]; exact a1)
  · omega
  · omega

theorem GM.up (h : GM x y T) (hy : ∀ a, y.call (y.call a) = a) {i : Nat} (hd : ¬ Desc y.call i) (hn : NB (mul x (s i))) :
    ∃ T', GM (mul x (s i)) (invStep y i) T' := by
  by_cases hi : i = 0
  · subst hi
    rw [desc_zero_iff] at hd
    have := invol_zero (y := y) (a := 1) (by omega)
    exact ⟨T, h.zero hy (.inl rfl) (by omega) (fun b hb => by have := h.mat.neg _ _ hb; omega)⟩
  · rw [desc_pos_iff hi] at hd
    have := (call_odd y).inj i (i + 1)
    exact h.up_pos hy (four_of hi) (by omega) hn

theorem gm_identity : GM identity identity (fun _ _ => False) := by
  refine ⟨⟨fun a b h => h.elim, fun a b c d h => h.elim, fun a b c h => h.elim⟩, fun a ha => ?_, fun a ha hb => ?_,
    fun a b h => h.elim, fun a b ha hb hab => ?_⟩
  · have := ha.1; unfold IsMin at this; rw [call_identity] at this ⊢; omega
  · rw [call_identity] at ha; omega
  · rw [call_identity, call_identity]; exact hab

/-- The shape of the atoms in which the last of three consecutive entries is never the smallest. -/
theorem Atom.gm (h : Atom x y) (hn : NB x) : ∃ T, GM x y T := by
  induction hl : len x generalizing x y with
  | zero =>
    have hx := len_eq_zero.1 hl
    subst hx
    rw [h.one]
    exact ⟨_, gm_identity⟩
  | succ n ih =>
    obtain ⟨i, hi⟩ : ∃ i, Desc x.call i := by
      by_contra hc
      push Not at hc
      rw [eq_identity_of_no_desc hc, len_identity] at hl
      omega
    obtain ⟨y', h1, h2, rfl⟩ := h.down hi
    obtain ⟨T, h3⟩ := ih h1 (hn.down hi) (by have := len_mul_s_of_desc hi; omega)
    have := h3.up h1.invol h2 (by rwa [mul_s_s])
    rwa [mul_s_s] at this

end Verif.Perm
