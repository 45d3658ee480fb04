import Verif.Lemmas.Atoms

/-! # The minimal atom of an involution -/

namespace Verif.Perm
open Verif.PermSpec
attribute [-simp] List.getD_eq_getElem?_getD
attribute [local irreducible] mul s inverse identity len mod act demazure

/-- The smaller elements of the cycles that are listed by `cyc`. -/
def IsMin (y : SPerm) (a : Int) : Prop := a ≠ 0 ∧ a ≤ y.call a ∧ -a ≤ y.call a

/-- A noncrossing matching of some of the numbers that `y` negates; all negated numbers between two matched ones are matched. -/
structure Mat (y : SPerm) (T : Int → Int → Prop) : Prop where
  neg : ∀ a b, T a b → 0 < a ∧ a < b ∧ y.call a = -a ∧ y.call b = -b
  uniq : ∀ a b c d, T a b → T c d → (a = c ∧ b = d) ∨ (a ≠ c ∧ a ≠ d ∧ b ≠ c ∧ b ≠ d)
  nest : ∀ a b c, T a b → a < c → c < b → y.call c = -c → ∃ d, (T c d ∨ T d c) ∧ a < d ∧ d < b

/-- The smallest elements of the blocks. -/
def IsEnd (y : SPerm) (T : Int → Int → Prop) (a : Int) : Prop := IsMin y a ∧ ∀ b, ¬ T (-a) b

/-- The positions of an atom without a consecutive pattern in which the last of three is the smallest.  The blocks are the cycles
that are not matched, and `a, -b` for two matched numbers; they are listed in increasing order of the last elements. -/
structure GM (x y : SPerm) (T : Int → Int → Prop) : Prop where
  mat : Mat y T
  pos : ∀ a, IsEnd y T a → 0 < x.call a
  block : ∀ a, a < y.call a → -a < y.call a → x.call (y.call a) + 1 = x.call a ∧ 0 < x.call (y.call a)
  tblock : ∀ a b, T a b → x.call a + 1 = x.call (-b) ∧ 0 < x.call a
  order : ∀ a b, IsEnd y T a → IsEnd y T b → a < b → x.call a < x.call b

theorem invol_zero {y : SPerm} {a : Int} (h : a ≠ 0) : y.call a ≠ 0 := (call_odd y).ne_zero h

theorem Mat.end_pair {y : SPerm} {T : Int → Int → Prop} (h : Mat y T) {a : Int} (h1 : a < y.call a) (h2 : -a < y.call a) :
    IsEnd y T a := by
  have hz : a = 0 → y.call a = 0 := fun h => by rw [h, (call_odd y).zero]
  refine ⟨⟨fun h => by have := hz h; omega, by omega, by omega⟩, fun b hb => ?_⟩
  have := h.neg _ _ hb
  rw [(call_odd y).neg] at this; omega

theorem Mat.end_pos {y : SPerm} {T : Int → Int → Prop} (h : Mat y T) {a : Int} (h0 : 0 < a) (h1 : a ≤ y.call a) :
    IsEnd y T a := by
  refine ⟨⟨by omega, by omega, by omega⟩, fun b hb => ?_⟩
  have := h.neg _ _ hb
  omega

theorem Mat.end_big {y : SPerm} {T : Int → Int → Prop} (h : Mat y T) {a b : Int} (ht : T a b) : IsEnd y T (-b) := by
  have h1 := h.neg _ _ ht
  have hn := (call_odd y).neg b
  refine ⟨⟨by omega, by omega, by omega⟩, fun c hc => ?_⟩
  rw [neg_neg] at hc
  have := h.uniq _ _ _ _ ht hc
  omega

variable {x y : SPerm} {T : Int → Int → Prop}

/-- The four kinds of positive numbers. -/
inductive Kind (x y : SPerm) (T : Int → Int → Prop) (v : Int) : Prop
  | top : v ≤ y.call v → 0 < x.call v → IsEnd y T v → Kind x y T v
  | mid : -v < y.call v → y.call v < v → 0 < x.call v → x.call v + 1 = x.call (y.call v) → IsEnd y T (y.call v) → Kind x y T v
  | neg : y.call v ≤ -v → x.call v < 0 → 0 < x.call (-v) → x.call v = -x.call (-v) → IsEnd y T (-v) → Kind x y T v
  | low (b : Int) : T v b → v < b → y.call v = -v → y.call b = -b → 0 < x.call v → x.call v + 1 = x.call (-b) → IsEnd y T (-b) → Kind x y T v

theorem GM.kind (h : GM x y T) (hy : ∀ a, y.call (y.call a) = a) {v : Int} (hv : 0 < v) : Kind x y T v := by
  have hn := (call_odd y).neg v
  have hx := (call_odd x).neg v
  have h0 := invol_zero (y := y) (a := v) (by omega)
  by_cases h1 : v ≤ y.call v
  · have hm := h.mat.end_pos hv h1
    exact .top h1 (h.pos v hm) hm
  · by_cases h2 : y.call v ≤ -v
    · by_cases ht : ∃ b, T v b
      · obtain ⟨b, hb⟩ := ht
        have h3 := h.mat.neg _ _ hb
        have h4 := h.tblock _ _ hb
        exact .low b hb (by omega) (by omega) (by omega) (by omega) (by omega) (h.mat.end_big hb)
      · have hm : IsEnd y T (-v) := ⟨⟨by omega, by omega, by omega⟩, fun b hb => ht ⟨b, by rwa [neg_neg] at hb⟩⟩
        have := h.pos _ hm
        exact .neg h2 (by omega) this (by omega) hm
    · have hb := h.block (y.call v) (by rw [hy]; omega) (by rw [hy]; omega)
      have hm := h.mat.end_pair (a := y.call v) (by rw [hy]; omega) (by rw [hy]; omega)
      rw [hy] at hb
      exact .mid (by omega) (by omega) hb.2 hb.1 hm

theorem GM.lt_iff (h : GM x y T) {a b : Int} (ha : IsEnd y T a) (hb : IsEnd y T b) : x.call a < x.call b ↔ a < b := by
  constructor
  · intro hl
    by_contra hc
    rcases Int.lt_or_eq_of_le (not_lt.1 hc) with hc | hc
    · have := h.order b a hb ha hc; omega
    · subst hc; omega
  · exact h.order a b ha hb

/-! ### steps -/

theorem sFun_of {i : Nat} (hi : 1 ≤ i) (a : Int) : (a = i ∧ sFun i a = i + 1) ∨ (a = i + 1 ∧ sFun i a = i) ∨
    (a = -i ∧ sFun i a = -(i + 1)) ∨ (a = -(i + 1) ∧ sFun i a = -i) ∨
    (a ≠ i ∧ a ≠ i + 1 ∧ a ≠ -i ∧ a ≠ -(i + 1) ∧ sFun i a = a) := by
  unfold sFun
  rw [if_neg (by omega)]
  repeat' split
  all_goals omega

theorem comm_iff_call {y : SPerm} {i : Nat} : mul (s i) y = mul y (s i) ↔ ∀ a, sFun i (y.call a) = y.call (sFun i a) := by
  constructor
  · intro h a
    have := congrArg (fun w => SPerm.call w a) h
    simpa using this
  · intro h
    exact ext_call (fun a => by simpa using h a)

/-- The two numbers are exchanged or fixed. -/
theorem comm_of {y : SPerm} (hy : ∀ a, y.call (y.call a) = a) {i : Nat} (hi : 1 ≤ i)
    (h : y.call i = i + 1 ∨ y.call i = i ∧ y.call (i + 1) = i + 1) : mul (s i) y = mul y (s i) := by
  rw [comm_iff_call]
  intro a
  have hn := (call_odd y).neg
  have n1 := hn i
  have n2 := hn (i + 1)
  have hyi := hy i
  have hya := hy a
  have hinj := (call_odd y).inj
  have i1 := hinj a i
  have i2 := hinj a (i + 1)
  have i3 := hinj a (-i)
  have i4 := hinj a (-(i + 1))
  rcases h with h | ⟨h, h'⟩
  · rw [h] at hyi
    rcases sFun_of hi a with ⟨e, e'⟩ | ⟨e, e'⟩ | ⟨e, e'⟩ | ⟨e, e'⟩ | ⟨e1, e2, e3, e4, e'⟩ <;> rw [e'] <;>
    rcases sFun_of hi (y.call a) with ⟨f, f'⟩ | ⟨f, f'⟩ | ⟨f, f'⟩ | ⟨f, f'⟩ | ⟨f1, f2, f3, f4, f'⟩ <;>
    first
    | omega
    | (subst e; omega)
  · rcases sFun_of hi a with ⟨e, e'⟩ | ⟨e, e'⟩ | ⟨e, e'⟩ | ⟨e, e'⟩ | ⟨e1, e2, e3, e4, e'⟩ <;> rw [e'] <;>
    rcases sFun_of hi (y.call a) with ⟨f, f'⟩ | ⟨f, f'⟩ | ⟨f, f'⟩ | ⟨f, f'⟩ | ⟨f1, f2, f3, f4, f'⟩ <;>
    first
    | omega
    | (subst e; omega)

theorem sFun_lt_cases {i : Nat} (hi : 1 ≤ i) {p q : Int} (h : sFun i p < sFun i q) :
    p < q ∨ (p = i + 1 ∧ q = i) ∨ (p = -i ∧ q = -(i + 1)) := by
  rcases sFun_of hi p with ⟨e, e'⟩ | ⟨e, e'⟩ | ⟨e, e'⟩ | ⟨e, e'⟩ | ⟨e1, e2, e3, e4, e'⟩ <;>
  rcases sFun_of hi q with ⟨f, f'⟩ | ⟨f, f'⟩ | ⟨f, f'⟩ | ⟨f, f'⟩ | ⟨f1, f2, f3, f4, f'⟩ <;> omega

theorem sFun_pos_iff {i : Nat} (hi : 1 ≤ i) (a : Int) : 0 < sFun i a ↔ 0 < a := by
  rcases sFun_of hi a with ⟨e, e'⟩ | ⟨e, e'⟩ | ⟨e, e'⟩ | ⟨e, e'⟩ | ⟨e1, e2, e3, e4, e'⟩ <;> omega

theorem Mat.conj (h : Mat y T) {i : Nat} (hi : 1 ≤ i) (h0 : ¬ (y.call i = -i ∧ y.call (i + 1) = -(i + 1))) :
    Mat (mul (mul (s i) y) (s i)) (fun a b => T (sFun i a) (sFun i b)) := by
  have hs := (sFun_odd i).neg
  have key : ∀ a b, 0 < a → y.call a = -a → y.call b = -b → a < b → sFun i a < sFun i b := by
    intro a b ha h1 h2 hab
    rcases lt_or_ge (sFun i a) (sFun i b) with h | h
    · exact h
    · exfalso
      rcases Int.lt_or_eq_of_le h with h | h
      · rcases sFun_lt_cases hi h with h | ⟨e, e'⟩ | ⟨e, e'⟩
        · omega
        · exact h0 ⟨by rw [← e']; exact h1, by rw [← e]; exact h2⟩
        · omega
      · have := (sFun_odd i).inj _ _ h; omega
  have key' : ∀ a b, 0 < a → y.call (sFun i a) = -sFun i a → y.call (sFun i b) = -sFun i b → a < b → sFun i a < sFun i b := by
    intro a b ha h1 h2 hab
    by_contra hc
    rcases Int.lt_or_eq_of_le (not_lt.1 hc) with hc | hc
    · have := key _ _ ((sFun_pos_iff hi b).2 (by omega)) h2 h1 hc
      rw [sFun_sFun, sFun_sFun] at this; omega
    · have := (sFun_odd i).inj _ _ hc; omega
  refine ⟨fun a b hab => ?_, fun a b c d hab hcd => ?_, fun a b c hab hac hcb hc => ?_⟩
  · obtain ⟨n1, n2, n3, n4⟩ := h.neg _ _ hab
    have := key _ _ n1 n3 n4 n2
    rw [sFun_sFun, sFun_sFun] at this
    refine ⟨(sFun_pos_iff hi a).1 n1, this, ?_, ?_⟩
    · rw [call_mul, call_mul, call_s, call_s, n3, hs, sFun_sFun]
    · rw [call_mul, call_mul, call_s, call_s, n4, hs, sFun_sFun]
  · have hinj := (sFun_odd i).inj
    rcases h.uniq _ _ _ _ hab hcd with ⟨u1, u2⟩ | ⟨u1, u2, u3, u4⟩
    · exact .inl ⟨hinj _ _ u1, hinj _ _ u2⟩
    · exact .inr ⟨fun e => u1 (by rw [e]), fun e => u2 (by rw [e]), fun e => u3 (by rw [e]), fun e => u4 (by rw [e])⟩
  · obtain ⟨n1, n2, n3, n4⟩ := h.neg _ _ hab
    have ha := (sFun_pos_iff hi a).1 n1
    have hc' : y.call (sFun i c) = -sFun i c := by
      rw [call_mul, call_mul, call_s, call_s] at hc
      have := congrArg (sFun i) hc
      rwa [sFun_sFun, hs] at this
    obtain ⟨d, hd, d1, d2⟩ := h.nest _ _ (sFun i c) hab (key' a c ha n3 hc' hac) (key' c b (by omega) hc' n4 hcb) hc'
    have hdn : 0 < d ∧ y.call d = -d := by
      rcases hd with hd | hd
      · have := h.neg _ _ hd; exact ⟨by omega, this.2.2.2⟩
      · have := h.neg _ _ hd; exact ⟨by omega, this.2.2.1⟩
    refine ⟨sFun i d, by rw [sFun_sFun]; exact hd, ?_, ?_⟩
    · have := key _ _ n1 n3 hdn.2 d1
      rwa [sFun_sFun] at this
    · have := key _ _ hdn.1 hdn.2 n4 d2
      rwa [sFun_sFun] at this

theorem GM.conj (h : GM x y T) (hy : ∀ a, y.call (y.call a) = a) {i : Nat} (hi : 1 ≤ i)
    (h0 : ¬ (y.call i = -i ∧ y.call (i + 1) = -(i + 1)))
    (h1 : y.call i ≠ i + 1) (h2 : y.call i ≠ -(i + 1)) (h3 : ¬ (IsEnd y T i ∧ IsEnd y T (i + 1)))
    (h4 : ¬ (IsEnd y T (-i) ∧ IsEnd y T (-(i + 1)))) :
    GM (mul x (s i)) (mul (mul (s i) y) (s i)) (fun a b => T (sFun i a) (sFun i b)) := by
  have hn := (call_odd y).neg
  have hs := (sFun_odd i).neg
  have q1 : ∀ a, sFun i a < sFun i (y.call a) → a < y.call a := by
    intro a ha
    have hya := hy a
    rcases sFun_lt_cases hi ha with h | ⟨e, e'⟩ | ⟨e, e'⟩
    · exact h
    · subst e; rw [e'] at hya; omega
    · subst e; rw [hn] at e'; omega
  have q2 : ∀ a, -sFun i a < sFun i (y.call a) → -a < y.call a := by
    intro a ha
    have hya := hy a
    rw [← hs] at ha
    rcases sFun_lt_cases hi ha with h | ⟨e, e'⟩ | ⟨e, e'⟩
    · exact h
    · rw [show a = -(i + 1) by omega, hn] at e'
      have := hy (i + 1); rw [show y.call (i + 1) = -i by omega, hn] at this; omega
    · rw [show a = i by omega] at e'; omega
  have q3 : ∀ a, IsEnd (mul (mul (s i) y) (s i)) (fun a b => T (sFun i a) (sFun i b)) a → IsEnd y T (sFun i a) := by
    rintro a ⟨⟨m0, m1, m2⟩, m3⟩
    simp only [call_mul, call_s] at m1 m2
    have e0 := sFun_sFun i a
    refine ⟨⟨(sFun_odd i).ne_zero m0, ?_, ?_⟩, fun b hb => m3 (sFun i b) (by
      show T (sFun i (-a)) (sFun i (sFun i b)); rw [sFun_sFun, hs]; exact hb)⟩
    · rcases Int.lt_or_eq_of_le m1 with m1 | m1
      · have := q1 (sFun i a) (by rw [e0]; exact m1); omega
      · have := congrArg (sFun i) m1; rw [sFun_sFun] at this; omega
    · rcases Int.lt_or_eq_of_le m2 with m2 | m2
      · have := q2 (sFun i a) (by rw [e0]; exact m2); omega
      · have := congrArg (sFun i) m2; rw [sFun_sFun, hs] at this; omega
  refine ⟨h.mat.conj hi h0, fun a ha => ?_, fun a ha hb => ?_, fun a b hab => ?_, fun a b ha hb hab => ?_⟩
  · simp only [call_mul, call_s]; exact h.pos _ (q3 a ha)
  · simp only [call_mul, call_s, sFun_sFun] at ha hb ⊢
    have e0 := sFun_sFun i a
    exact h.block _ (q1 (sFun i a) (by rw [e0]; exact ha)) (q2 (sFun i a) (by rw [e0]; exact hb))
  · simp only [call_mul, call_s, hs]; exact h.tblock _ _ hab
  · simp only [call_mul, call_s]
    have ma := q3 a ha
    have mb := q3 b hb
    refine h.order _ _ ma mb ?_
    rcases sFun_lt_cases hi (p := sFun i a) (q := sFun i b) (by rw [sFun_sFun, sFun_sFun]; exact hab) with e | ⟨e, e'⟩ | ⟨e, e'⟩
    · exact e
    · exact absurd ⟨by rw [← e']; exact mb, by rw [← e]; exact ma⟩ h3
    · exact absurd ⟨by rw [← e]; exact ma, by rw [← e']; exact mb⟩ h4

theorem GM.conj_step (h : GM x y T) (hy : ∀ a, y.call (y.call a) = a) {i : Nat} (hi : 1 ≤ i)
    (h0 : ¬ (y.call i = -i ∧ y.call (i + 1) = -(i + 1)))
    (h1 : y.call i ≠ i + 1) (h2 : y.call i ≠ -(i + 1)) (h3 : ¬ (IsEnd y T i ∧ IsEnd y T (i + 1)))
    (h4 : ¬ (IsEnd y T (-i) ∧ IsEnd y T (-(i + 1)))) : ∃ T', GM (mul x (s i)) (invStep y i) T' := by
  refine ⟨fun a b => T (sFun i a) (sFun i b), ?_⟩
  rw [invStep, if_neg]
  · exact h.conj hy hi h0 h1 h2 h3 h4
  · intro hc'
    have := comm_iff_call.1 hc' i
    have hyi := hy i
    have h3' : ¬ (y.call i = i ∧ y.call (i + 1) = i + 1) := fun hc =>
      h3 ⟨h.mat.end_pos (by omega) (by omega), h.mat.end_pos (by omega) (by omega)⟩
    have hinj := (call_odd y).inj i (i + 1)
    rcases sFun_of (i := i) (by omega) i with ⟨f, f'⟩ | ⟨f, f'⟩ | ⟨f, f'⟩ | ⟨f, f'⟩ | ⟨f1, f2, f3, f4, f'⟩ <;> try omega
    rw [f'] at this
    rcases sFun_of (i := i) (by omega) (y.call i) with ⟨g, g'⟩ | ⟨g, g'⟩ | ⟨g, g'⟩ | ⟨g, g'⟩ | ⟨g1, g2, g3, g4, g'⟩ <;> omega

theorem Mat.congr {y' : SPerm} (h : Mat y T) (k : Int) (hk : ∀ a b, T a b → k < a)
    (hc : ∀ c, k < c → (y.call c = -c ↔ y'.call c = -c)) : Mat y' T := by
  refine ⟨fun a b hab => ?_, h.uniq, fun a b c hab hac hcb hcc => ?_⟩
  · obtain ⟨n1, n2, n3, n4⟩ := h.neg _ _ hab
    have := hk _ _ hab
    exact ⟨n1, n2, (hc a this).1 n3, (hc b (by omega)).1 n4⟩
  · have := hk _ _ hab
    exact h.nest a b c hab hac hcb ((hc c (by omega)).2 hcc)

/-- The product of an involution with a commuting adjacent transposition, away from the two numbers. -/
theorem far_call (hy : ∀ a, y.call (y.call a) = a) {i : Nat} (hi : 1 ≤ i)
    (h : y.call i = i + 1 ∧ y.call (i + 1) = i ∨ y.call i = i ∧ y.call (i + 1) = i + 1 ∨
      y.call i = -i ∧ y.call (i + 1) = -(i + 1) ∨ y.call i = -(i + 1) ∧ y.call (i + 1) = -i) {a : Int}
    (h1 : a ≠ i) (h2 : a ≠ i + 1) (h3 : a ≠ -i) (h4 : a ≠ -(i + 1)) :
    sFun i a = a ∧ sFun i (y.call a) = y.call a ∧ y.call a ≠ i ∧ y.call a ≠ i + 1 ∧ y.call a ≠ -i ∧ y.call a ≠ -(i + 1) := by
  have hn := (call_odd y).neg
  have n1 := hn i
  have n2 := hn (i + 1)
  have hya := hy a
  have e : sFun i a = a := by
    rcases sFun_of hi a with ⟨e, e'⟩ | ⟨e, e'⟩ | ⟨e, e'⟩ | ⟨e, e'⟩ | ⟨e1, e2, e3, e4, e'⟩ <;> omega
  refine ⟨e, ?_⟩
  rcases sFun_of hi (y.call a) with ⟨f, f'⟩ | ⟨f, f'⟩ | ⟨f, f'⟩ | ⟨f, f'⟩ | ⟨f1, f2, f3, f4, f'⟩
  · rw [f] at hya; omega
  · rw [f] at hya; omega
  · rw [f] at hya; omega
  · rw [f] at hya; omega
  · exact ⟨f', f1, f2, f3, f4⟩

theorem sFun_four {i : Nat} (hi : 1 ≤ i) : sFun i i = i + 1 ∧ sFun i (i + 1) = i ∧ sFun i (-i) = -(i + 1) ∧ sFun i (-(i + 1)) = -i := by
  have hs := (sFun_odd i).neg
  have h1 : sFun i i = i + 1 := by
    rcases sFun_of hi i with ⟨e, e'⟩ | ⟨e, e'⟩ | ⟨e, e'⟩ | ⟨e, e'⟩ | ⟨e1, e2, e3, e4, e'⟩ <;> omega
  have h2 : sFun i (i + 1) = i := by rw [← h1, sFun_sFun]
  exact ⟨h1, h2, by rw [hs, h1], by rw [hs, h2]⟩

end Verif.Perm
