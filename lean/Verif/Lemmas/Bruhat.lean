import Verif.Spec.Bruhat
import Verif.Lemmas.PermHecke
import Verif.Lemmas.FpfWords

/-! # Lemmas for property C60: strong exchange, lifting and chains in the Bruhat order -/

namespace Verif.Perm

open Verif.PermSpec

attribute [local irreducible] mul s inverse identity len mod act

theorem call_ne_zero {u : SPerm} {x : Int} (h : x ≠ 0) : u.call x ≠ 0 := by
  intro hc
  exact h ((call_odd u).inj _ _ (hc.trans (call_odd u).zero.symm))

theorem _root_.Verif.PermSpec.Swap.symm {a b : Int} {u w : SPerm} (h : Swap a b u w) : Swap a b w u :=
  ⟨h.2.1.symm, h.1.symm, fun x h1 h2 => (h.2.2 x h1 h2).symm⟩

theorem _root_.Verif.PermSpec.Swap.flip {a b : Int} {u w : SPerm} (h : Swap a b u w) : Swap b a u w :=
  ⟨h.2.1, h.1, fun x h1 h2 => h.2.2 x h2 h1⟩

theorem _root_.Verif.PermSpec.Swap.mul_left {a b : Int} {u w : SPerm} (h : Swap a b u w) (v : SPerm) : Swap a b (mul v u) (mul v w) :=
  ⟨by simp [h.1], by simp [h.2.1], fun x h1 h2 => by simp [h.2.2 x h1 h2]⟩

theorem _root_.Verif.PermSpec.Swap.unique {a b : Int} {u v w : SPerm} (h : Swap a b u v) (h' : Swap a b u w) : v = w := by
  refine ext_call (fun x => ?_)
  by_cases h1 : x.natAbs = a.natAbs
  · rcases Int.natAbs_eq_natAbs_iff.1 h1 with rfl | rfl
    · rw [h.1, h'.1]
    · rw [(call_odd v).neg, (call_odd w).neg, h.1, h'.1]
  · by_cases h2 : x.natAbs = b.natAbs
    · rcases Int.natAbs_eq_natAbs_iff.1 h2 with rfl | rfl
      · rw [h.2.1, h'.2.1]
      · rw [(call_odd v).neg, (call_odd w).neg, h.2.1, h'.2.1]
    · rw [h.2.2 x h1 h2, h'.2.2 x h1 h2]

theorem call_natAbs (u : SPerm) {x y : Int} : (u.call x).natAbs = (u.call y).natAbs ↔ x.natAbs = y.natAbs := by
  rw [Int.natAbs_eq_natAbs_iff, Int.natAbs_eq_natAbs_iff, ← (call_odd u).neg]
  constructor
  · rintro (h | h)
    · exact Or.inl ((call_odd u).inj _ _ h)
    · exact Or.inr ((call_odd u).inj _ _ h)
  · rintro (h | h) <;> simp [h]

theorem _root_.Verif.PermSpec.Swap.mul_right {a b : Int} {u w : SPerm} (h : Swap a b u w) (v : SPerm) :
    Swap ((inverse v).call a) ((inverse v).call b) (mul u v) (mul w v) := by
  refine ⟨by simp [h.1], by simp [h.2.1], fun x h1 h2 => ?_⟩
  simp only [call_mul]
  refine h.2.2 _ (fun hc => h1 ?_) (fun hc => h2 ?_)
  · rw [← call_natAbs v]; simpa using hc
  · rw [← call_natAbs v]; simpa using hc

/-- Left multiplication by `s_j` is a swap of the values `lo j` and `j + 1`. -/
theorem swap_s_mul {u : SPerm} {a b : Int} {j : Nat} (ha : u.call a = lo j) (hb : u.call b = j + 1) : Swap a b u (mul (s j) u) := by
  refine ⟨by simp [ha, hb, sFun_lo], by simp [ha, hb, sFun_hi], fun x h1 h2 => ?_⟩
  rw [ne_eq, ← call_natAbs u, ha] at h1
  rw [ne_eq, ← call_natAbs u, hb] at h2
  simp only [call_mul, call_s]
  apply sFun_of_ne <;> omega

theorem eraseIdx_cons_succ' (j : Nat) (a : List Nat) (k : Nat) : (j :: a).eraseIdx (k + 1) = j :: a.eraseIdx k := rfl

/-- Strong exchange. -/
theorem exchange {a b : Int} (ha : a ≠ 0) (hb : b ≠ 0) (hab : a < b) (word : List Nat) : ∀ {w : SPerm}, Swap a b (fromWord word) w →
    (fromWord word).call b < (fromWord word).call a → ∃ k, k < word.length ∧ w = fromWord (word.eraseIdx k) := by
  induction word with
  | nil =>
    intro w h hd
    exfalso
    have : fromWord [] = identity := rfl
    rw [this, call_identity, call_identity] at hd
    omega
  | cons j word ih =>
    intro w h hd
    obtain ⟨u, hu⟩ : ∃ u, fromWord word = u := ⟨_, rfl⟩
    rw [fromWord_cons, hu] at h hd
    rw [hu] at ih
    rcases lt_trichotomy (u.call a) (u.call b) with hlt | heq | hgt
    · have hx : (u.call a = lo j ∧ u.call b = j + 1) ∨ (u.call a = -(j + 1) ∧ u.call b = -lo j) := by
        by_contra hc
        push Not at hc
        have := sFun_lt (i := j) hlt (call_ne_zero ha) (call_ne_zero hb) (fun h => hc.1 h.1 h.2) (fun h => hc.2 h.1 h.2)
        simp only [call_mul, call_s] at hd
        omega
      refine ⟨0, by simp, ?_⟩
      rw [List.eraseIdx_cons_zero, hu]
      have hs : Swap a b u (mul (s j) u) := by
        rcases hx with ⟨h1, h2⟩ | ⟨h1, h2⟩
        · exact swap_s_mul h1 h2
        · have := swap_s_mul (u := u) (a := -b) (b := -a) (j := j) (by rw [(call_odd u).neg, h2, neg_neg])
            (by rw [(call_odd u).neg, h1, neg_neg])
          refine ⟨?_, ?_, fun x h1 h2 => this.2.2 x (by omega) (by omega)⟩
          · have h3 := this.2.1
            rw [(call_odd _).neg, (call_odd _).neg] at h3
            omega
          · have h3 := this.1
            rw [(call_odd _).neg, (call_odd _).neg] at h3
            omega
      exact h.unique hs.symm
    · exact absurd ((call_odd u).inj _ _ heq) (by omega)
    · have h' := h.mul_left (s j)
      rw [s_mul_s_mul] at h'
      obtain ⟨k, hk, hk'⟩ := ih h' hgt
      refine ⟨k + 1, by simpa using hk, ?_⟩
      rw [List.eraseIdx_cons_succ, fromWord_cons, ← hk', s_mul_s_mul]

theorem swap_lt {a b : Int} {u w : SPerm} (ha : a ≠ 0) (hb : b ≠ 0) (hab : a < b) (h : Swap a b u w) (hu : u.call a < u.call b) :
    len u < len w := by
  obtain ⟨hw, hl⟩ := getReducedWord_reduced w
  obtain ⟨k, hk, he⟩ := exchange (w := u) ha hb hab (getReducedWord w) (by rw [hw]; exact h.symm) (by rw [hw, h.1, h.2.1]; exact hu)
  have := len_fromWord_le ((getReducedWord w).eraseIdx k)
  rw [← he, List.length_eraseIdx_of_lt hk] at this
  omega

theorem _root_.Verif.PermSpec.BruhatStep.len_lt {u w : SPerm} (h : BruhatStep u w) : len u < len w := by
  obtain ⟨a, b, ha, hb, hab, hu, hs⟩ := h
  exact swap_lt ha hb hab hs hu

/-- Two permutations that differ by a reflection. -/
def Adj (u w : SPerm) : Prop := ∃ a b : Int, a ≠ 0 ∧ b ≠ 0 ∧ a < b ∧ Swap a b u w

theorem adj_of {a b : Int} {u w : SPerm} (ha : a ≠ 0) (hb : b ≠ 0) (hab : a ≠ b) (h : Swap a b u w) : Adj u w := by
  rcases lt_or_gt_of_ne hab with h' | h'
  · exact ⟨a, b, ha, hb, h', h⟩
  · exact ⟨b, a, hb, ha, h', h.flip⟩

theorem _root_.Verif.PermSpec.BruhatStep.adj {u w : SPerm} (h : BruhatStep u w) : Adj u w := by
  obtain ⟨a, b, ha, hb, hab, hu, hs⟩ := h
  exact ⟨a, b, ha, hb, hab, hs⟩

theorem Adj.step {u w : SPerm} (h : Adj u w) (hl : len u ≤ len w) : BruhatStep u w := by
  obtain ⟨a, b, ha, hb, hab, hs⟩ := h
  rcases lt_trichotomy (u.call a) (u.call b) with h | h | h
  · exact ⟨a, b, ha, hb, hab, h, hs⟩
  · exact absurd ((call_odd u).inj _ _ h) (by omega)
  · have := swap_lt ha hb hab hs.symm (by rw [hs.1, hs.2.1]; exact h)
    omega

theorem Adj.mul_right {u w : SPerm} (h : Adj u w) (v : SPerm) : Adj (mul u v) (mul w v) := by
  obtain ⟨a, b, ha, hb, hab, hs⟩ := h
  refine adj_of (call_ne_zero ha) (call_ne_zero hb) (fun hc => ?_) (hs.mul_right v)
  have := (call_odd _).inj _ _ hc
  omega

theorem adj_erase (word : List Nat) {k : Nat} (hk : k < word.length) : Adj (fromWord (word.eraseIdx k)) (fromWord word) := by
  rw [List.eraseIdx_eq_take_drop_succ]
  conv => rhs; rw [← List.take_append_drop k word, ← List.cons_getElem_drop_succ (h := hk)]
  rw [fromWord_append, fromWord_append, fromWord_cons]
  obtain ⟨p, hp⟩ : ∃ p, fromWord (word.take k) = p := ⟨_, rfl⟩
  obtain ⟨q, hq⟩ : ∃ q, fromWord (word.drop (k + 1)) = q := ⟨_, rfl⟩
  obtain ⟨j, hj⟩ : ∃ j, word[k] = j := ⟨_, rfl⟩
  rw [hp, hq, hj]
  have h0 : lo j ≠ 0 := by unfold lo; split <;> omega
  refine adj_of (a := (inverse q).call (lo j)) (b := (inverse q).call (j + 1)) (call_ne_zero h0) (call_ne_zero (by omega)) (fun hc => ?_)
    ((swap_s_mul (by simp) (by simp)).mul_left p)
  exact lo_ne j ((call_odd _).inj _ _ hc)

theorem _root_.Verif.PermSpec.BruhatStep.exchange {u w : SPerm} (h : BruhatStep u w) {word : List Nat} (hw : fromWord word = w) :
    ∃ k, k < word.length ∧ u = fromWord (word.eraseIdx k) := by
  obtain ⟨a, b, ha, hb, hab, hu, hs⟩ := h
  subst hw
  exact Verif.Perm.exchange ha hb hab word hs.symm (by rw [hs.1, hs.2.1]; exact hu)

/-! ### parity -/

theorem len_fromWord_mod (word : List Nat) : len (fromWord word) % 2 = word.length % 2 := by
  induction word using List.reverseRecOn with
  | nil => simp [len_identity]
  | append_singleton a i ih =>
    rw [fromWord_concat, List.length_append, List.length_singleton]
    by_cases h : Desc (fromWord a).call i
    · have := len_mul_s_of_desc h; omega
    · have := len_mul_s_of_not h; omega

theorem len_mul_mod (u v : SPerm) : len (mul u v) % 2 = (len u + len v) % 2 := by
  obtain ⟨a, ha, ha'⟩ := exists_reduced u
  obtain ⟨b, hb, hb'⟩ := exists_reduced v
  rw [← ha', ← hb', ← ha, ← hb, ← fromWord_append, len_fromWord_mod, List.length_append]

theorem _root_.Verif.PermSpec.BruhatStep.mod {u w : SPerm} (h : BruhatStep u w) : (len u + 1) % 2 = len w % 2 := by
  obtain ⟨hw, hl⟩ := getReducedWord_reduced w
  obtain ⟨k, hk, he⟩ := h.exchange hw
  have := len_fromWord_mod ((getReducedWord w).eraseIdx k)
  rw [← he, List.length_eraseIdx_of_lt hk] at this
  omega

/-! ### lifting -/

theorem step_mul_s {w : SPerm} {i : Nat} (h : ¬ Desc w.call i) : BruhatStep w (mul w (s i)) := by
  have h0 : lo i ≠ 0 := by unfold lo; split <;> omega
  refine Adj.step (adj_of (a := lo i) (b := i + 1) h0 (by omega) (lo_ne i) ?_) (by rw [len_mul_s_of_not h]; omega)
  refine ⟨by simp [sFun_lo], by simp [sFun_hi], fun x h1 h2 => ?_⟩
  rw [call_mul, call_s, sFun_of_ne] <;> omega

theorem act_step {x y : SPerm} (h : BruhatStep x y) (i : Nat) : BruhatLE (act x i) (act y i) := by
  by_cases hx : Desc x.call i
  · rw [act_of_desc hx]
    by_cases hy : Desc y.call i
    · rw [act_of_desc hy]; exact .single h
    · rw [act_of_not hy]; exact (Relation.ReflTransGen.single h).tail (step_mul_s hy)
  · rw [act_of_not hx]
    have hlx := len_mul_s_of_not hx
    have ha := h.adj.mul_right (s i)
    have hl := h.len_lt
    by_cases hy : Desc y.call i
    · rw [act_of_desc hy]
      have hly := len_mul_s_of_desc hy
      have hm := h.mod
      by_cases h1 : len y = len x + 1
      · obtain ⟨hw, hwl⟩ := getReducedWord_reduced (mul y (s i))
        have hw' : fromWord (getReducedWord (mul y (s i)) ++ [i]) = y := by rw [fromWord_concat, hw, mul_s_s]
        obtain ⟨k, hk, he⟩ := h.exchange hw'
        rw [List.length_append, List.length_singleton] at hk
        by_cases hkl : k = (getReducedWord (mul y (s i))).length
        · rw [hkl, List.eraseIdx_append_of_length_le (by omega), Nat.sub_self, List.eraseIdx_cons_zero, List.append_nil, hw] at he
          rw [he, mul_s_s]; exact .refl
        · exfalso
          rw [List.eraseIdx_append_of_lt_length (by omega), fromWord_concat] at he
          have := len_fromWord_le ((getReducedWord (mul y (s i))).eraseIdx k)
          rw [List.length_eraseIdx_of_lt (by omega)] at this
          have h2 : mul x (s i) = fromWord ((getReducedWord (mul y (s i))).eraseIdx k) := by rw [he, mul_s_s]
          rw [← h2] at this
          omega
      · refine (Relation.ReflTransGen.single (ha.step (by omega))).tail ?_
        have := step_mul_s (w := mul y (s i)) (i := i) (by rw [desc_mul_s]; simpa using hy)
        rwa [mul_s_s] at this
    · rw [act_of_not hy]
      have hly := len_mul_s_of_not hy
      exact .single (ha.step (by omega))

theorem act_le {x y : SPerm} (h : BruhatLE x y) (i : Nat) : BruhatLE (act x i) (act y i) := by
  induction h with
  | refl => exact .refl
  | tail _ h ih => exact ih.trans (act_step h i)

/-- Below every reflection step there is one of length one that lies above. -/
theorem chain : ∀ (n : Nat) {u w : SPerm}, len w = n → BruhatStep u w → ∃ v, BruhatLE u v ∧ BruhatStep v w ∧ len v + 1 = len w := by
  intro n
  induction n with
  | zero => intro u w hn h; have := h.len_lt; omega
  | succ n ih =>
    intro u w hn h
    have hl := h.len_lt
    have hm := h.mod
    by_cases h1 : len u + 1 = len w
    · exact ⟨u, .refl, h, h1⟩
    obtain ⟨i, hi⟩ : ∃ i, Desc w.call i := by
      by_contra hc
      push Not at hc
      have := eq_identity_of_no_desc hc
      rw [this, len_identity] at hn
      omega
    have hlw := len_mul_s_of_desc hi
    have hsw : BruhatStep (mul w (s i)) w := by
      have := step_mul_s (w := mul w (s i)) (i := i) (by rw [desc_mul_s]; simpa using hi)
      rwa [mul_s_s] at this
    have ha := h.adj.mul_right (s i)
    by_cases hu : Desc u.call i
    · have hlu := len_mul_s_of_desc hu
      have hst := ha.step (by omega)
      obtain ⟨v, hv1, hv2, hv3⟩ := ih (by omega) hst
      have hmono := act_le hv1 i
      rw [act_of_not (u := mul u (s i)) (by rw [desc_mul_s]; simpa using hu), mul_s_s] at hmono
      by_cases hv : Desc v.call i
      · rw [act_of_desc hv] at hmono
        exact ⟨mul w (s i), hmono.tail hv2, hsw, by omega⟩
      · rw [act_of_not hv] at hmono
        have hlv := len_mul_s_of_not hv
        have hav := hv2.adj.mul_right (s i)
        rw [mul_s_s] at hav
        exact ⟨mul v (s i), hmono, hav.step (by omega), by omega⟩
    · have hlu := len_mul_s_of_not hu
      exact ⟨mul w (s i), (Relation.ReflTransGen.single (step_mul_s hu)).tail (ha.step (by omega)), hsw, by omega⟩

theorem _root_.Verif.PermSpec.BruhatLE.len_le {u w : SPerm} (h : BruhatLE u w) : len u ≤ len w ∧ (len u = len w → u = w) := by
  induction h with
  | refl => exact ⟨le_rfl, fun _ => rfl⟩
  | tail _ h ih => have := h.len_lt; exact ⟨by omega, fun hc => by omega⟩

theorem bruhatCovers_iff {v w : SPerm} : BruhatCovers v w ↔ BruhatStep v w ∧ len v + 1 = len w := by
  constructor
  · rintro ⟨h1, h2, h3⟩
    rcases Relation.ReflTransGen.cases_tail h1 with h | ⟨x, hx, hs⟩
    · exact absurd h.symm h2
    · obtain ⟨z, hz1, hz2, hz3⟩ := chain _ rfl hs
      rcases h3 z (Relation.ReflTransGen.trans hx hz1) (.single hz2) with rfl | rfl
      · exact ⟨hz2, hz3⟩
      · omega
  · rintro ⟨h1, h2⟩
    refine ⟨.single h1, fun hc => by rw [hc] at h2; omega, fun x hx hx' => ?_⟩
    have a := BruhatLE.len_le hx
    have b := BruhatLE.len_le hx'
    by_cases hc : len v = len x
    · exact Or.inl (a.2 hc).symm
    · exact Or.inr (b.2 (by omega))

/-! ### deletions of a reduced word are distinct -/

theorem mul_left_cancel' {u v w : SPerm} (h : mul u v = mul u w) : v = w := by
  have := congrArg (mul (inverse u)) h
  rwa [← mul_assoc', ← mul_assoc', inverse_mul, one_mul', one_mul'] at this

theorem mul_right_cancel' {u v w : SPerm} (h : mul v u = mul w u) : v = w := by
  have := congrArg (fun x => mul x (inverse u)) h
  simpa only [mul_assoc', mul_inverse, mul_one'] using this

theorem erase_inj {w : SPerm} {word : List Nat} (h : Reduced w word) {i j : Nat} (hij : i < j) (hj : j < word.length) :
    fromWord (word.eraseIdx i) ≠ fromWord (word.eraseIdx j) := by
  obtain ⟨p, hp⟩ : ∃ p, p = word.take i := ⟨_, rfl⟩
  obtain ⟨q, hq⟩ : ∃ q, q = (word.drop (i + 1)).take (j - i - 1) := ⟨_, rfl⟩
  obtain ⟨r, hr⟩ : ∃ r, r = word.drop (j + 1) := ⟨_, rfl⟩
  obtain ⟨x, hx⟩ : ∃ x, x = word[i] := ⟨_, rfl⟩
  obtain ⟨y, hy⟩ : ∃ y, y = word[j] := ⟨_, rfl⟩
  have h1 : word.drop (i + 1) = q ++ y :: r := by
    conv => lhs; rw [← List.take_append_drop (j - i - 1) (word.drop (i + 1)), List.drop_drop,
      show i + 1 + (j - i - 1) = j by omega, ← List.cons_getElem_drop_succ (h := hj), ← hy, ← hr, ← hq]
  have h2 : word = p ++ x :: (q ++ y :: r) := by
    rw [← h1, hx, List.cons_getElem_drop_succ, hp, List.take_append_drop]
  have hpl : p.length = i := by rw [hp, List.length_take]; omega
  have hql : q.length = j - i - 1 := by rw [hq, List.length_take, List.length_drop]; omega
  clear hp hq hr hx hy h1
  intro hc
  have e1 : word.eraseIdx i = p ++ (q ++ y :: r) := by
    rw [h2, List.eraseIdx_append_of_length_le (by omega), hpl, Nat.sub_self, List.eraseIdx_cons_zero]
  have e2 : word.eraseIdx j = p ++ (x :: (q ++ r)) := by
    rw [h2, List.eraseIdx_append_of_length_le (by omega), hpl, show j - i = (j - i - 1) + 1 by omega, List.eraseIdx_cons_succ,
      List.eraseIdx_append_of_length_le (by omega), hql, Nat.sub_self, List.eraseIdx_cons_zero]
  rw [e1, e2, fromWord_append, fromWord_append, fromWord_append, fromWord_cons, fromWord_cons, fromWord_append] at hc
  have hc' := mul_left_cancel' hc
  have : fromWord word = fromWord (p ++ (q ++ r)) := by
    rw [h2, fromWord_append, fromWord_append, fromWord_append, fromWord_cons, fromWord_append, fromWord_cons, hc', s_mul_s_mul]
  have hle := len_fromWord_le (p ++ (q ++ r))
  rw [← this, h.1] at hle
  have hl := h.2
  rw [h2] at hl
  simp at hl hle
  omega

end Verif.Perm
