import Verif.Lemmas.BruhatRank
import Verif.Lemmas.TransitionsRaise
import Verif.Lemmas.Fpf
import Mathlib.Algebra.BigOperators.Group.Finset.Basic
import Mathlib.Algebra.BigOperators.Ring.Finset
import Mathlib.Data.ZMod.Basic

/-! # The Bruhat order on fixed-point-free involutions -/

namespace Verif.Perm
open Verif.PermSpec
attribute [-simp] List.getD_eq_getElem?_getD
attribute [local irreducible] mul s inverse identity len mod act SPerm.call sFun invStep

theorem rk_parity {N : Nat} {w : SPerm} (h : Fpf N w) {k : Nat} (hk : k ≤ N) : rk w k k % 2 = k % 2 := by
  have h1 : ∀ i, rk w i k + ∑ a ∈ Finset.range i, (if w.call (a + 1 : Nat) ≤ k then 1 else 0) = i := by
    intro i
    induction i with
    | zero => rfl
    | succ i ih =>
      rw [rk_succ, Finset.sum_range_succ]
      split <;> split <;> omega
  have h2 : ∑ a ∈ Finset.range k, (if w.call (a + 1 : Nat) ≤ k then (1 : ZMod 2) else 0) = 0 := by
    have hval : ∀ a < k, w.call (a + 1 : Nat) ≤ k → (((w.call (a + 1 : Nat)).toNat - 1 + 1 : Nat) : Int) = w.call (a + 1 : Nat) := by
      intro a ha hc
      have := h.pos (a + 1 : Nat) (by omega)
      omega
    refine Finset.sum_involution (fun a _ => if w.call (a + 1 : Nat) ≤ k then (w.call (a + 1 : Nat)).toNat - 1 else a) ?_ ?_ ?_ ?_
    · intro a ha
      rw [Finset.mem_range] at ha
      split
      · rename_i hc
        rw [hval a ha hc, h.inv, if_pos (by omega)]; decide
      · rename_i hc
        decide
    · intro a ha hne
      rw [Finset.mem_range] at ha
      split
      · rename_i hc
        intro he
        have := hval a ha hc
        rw [he] at this
        exact h.ne _ (by omega) (by omega) this.symm
      · rename_i hc
        rw [if_neg hc] at hne
        exact absurd rfl hne
    · intro a ha
      rw [Finset.mem_range] at ha
      rw [Finset.mem_range]
      split
      · rename_i hc
        have := h.pos (a + 1 : Nat) (by omega)
        omega
      · exact ha
    · intro a ha
      rw [Finset.mem_range] at ha
      by_cases hc : w.call (a + 1 : Nat) ≤ k
      · simp only [if_pos hc]
        rw [hval a ha hc, h.inv, if_pos (by omega)]
        omega
      · simp only [if_neg hc]
  have h3 := h1 k
  have h4 : ((∑ a ∈ Finset.range k, (if w.call (a + 1 : Nat) ≤ k then 1 else 0) : Nat) : ZMod 2) = 0 := by
    rw [Nat.cast_sum, ← h2]
    refine Finset.sum_congr rfl (fun a _ => ?_)
    split <;> rfl
  rw [ZMod.natCast_eq_zero_iff] at h4
  omega

theorem rk_column {w : SPerm} (hw : Invol w) {k : Nat} (hk : 1 ≤ k) (i : Nat) (hpos : ∀ a : Int, 0 < a → 0 < w.call a) :
    rk w i (k - 1) = rk w i k + if w.call k ≤ i then 1 else 0 := by
  induction i with
  | zero =>
    have := hpos k (by omega)
    rw [if_neg (by omega)]; rfl
  | succ i ih =>
    rw [rk_succ, rk_succ, ih]
    by_cases h1 : w.call k = (i + 1 : Nat)
    · have h2 : w.call (i + 1 : Nat) = k := by rw [← h1, hw]
      rw [h1, h2]
      (repeat' split) <;> omega
    · have h2 : w.call (i + 1 : Nat) ≠ k := fun h => h1 (by rw [← h, hw])
      (repeat' split) <;> omega

theorem rk_s_mul {w : SPerm} (hw : Invol w) {k : Nat} (hk : 1 ≤ k) (hpos : ∀ a : Int, 0 < a → 0 < w.call a) (i : Nat) :
    (∀ j, j ≠ k → rk (mul (s k) w) i j = rk w i j) ∧ rk (mul (s k) w) i k = rk w i (k + 1) + if w.call k ≤ i then 1 else 0 := by
  obtain ⟨g1, g2, g3⟩ := sFun_nat hk
  have hv : ∀ a : Nat, 1 ≤ a → ∃ b : Nat, w.call a = b ∧ 1 ≤ b := fun a ha =>
    ⟨(w.call a).toNat, by have := hpos a (by omega); omega, by have := hpos a (by omega); omega⟩
  induction i with
  | zero =>
    have := hpos k (by omega)
    exact ⟨fun _ _ => rfl, by rw [if_neg (by omega)]; rfl⟩
  | succ i ih =>
    obtain ⟨b, hb, hb1⟩ := hv (i + 1) (by omega)
    have hbk : b = k ↔ w.call k = (i + 1 : Nat) := by
      constructor
      · rintro rfl; rw [← hb, hw]
      · intro h; have := hb; rw [← h, hw] at this; omega
    refine ⟨fun j hj => ?_, ?_⟩
    · rw [rk_succ, rk_succ, ih.1 j hj, call_mul, call_s, hb]
      by_cases h1 : b = k
      · rw [h1, g1]; (repeat' split) <;> omega
      by_cases h2 : b = k + 1
      · rw [h2, g2]; (repeat' split) <;> omega
      rw [g3 b h1 h2]
    · rw [rk_succ, rk_succ, ih.2, call_mul, call_s, hb]
      by_cases h1 : b = k
      · rw [h1, g1, hbk.1 h1]; (repeat' split) <;> omega
      have h1' := fun h => h1 (hbk.2 h)
      by_cases h2 : b = k + 1
      · rw [h2, g2]; (repeat' split) <;> omega
      rw [g3 b h1 h2]
      (repeat' split) <;> omega

/-- A descent of `z` that is no cycle of `z`, but a cycle of `y`, can be removed. -/
theorem fpf_lower_le {N : Nat} {y z : SPerm} (hy : Fpf N y) (hz : Fpf N z) (h : BruhatLE y z) {k : Nat} (hd : Desc z.call k)
    (hzk : z.call k ≠ (k : Int) + 1) (hyk : y.call k = (k : Int) + 1) : BruhatLE y (mul (mul (s k) z) (s k)) := by
  obtain ⟨hk, hkN⟩ := hz.desc_lt hd
  have hpos' : ∀ a : Int, 0 < a → 0 < (mul (mul (s k) z) (s k)).call a := by
    intro a ha
    rw [call_mul, call_mul, call_s, call_s]
    exact (sFun_pos hk).2 (hz.pos _ ((sFun_pos hk).2 ha))
  rw [bruhatLE_iff_dom hy.pos hz.pos] at h
  rw [bruhatLE_iff_dom hy.pos hpos']
  rw [desc_iff_lt hk] at hd
  have hyk' : y.call k = (k + 1 : Nat) := by rw [hyk]; omega
  have hyk1 : y.call (k + 1 : Nat) = k := by rw [← hyk', hy.inv]
  obtain ⟨g1, g2, g3⟩ := sFun_nat hk
  intro i j
  obtain ⟨r1, r2, r3⟩ := rk_mul_s (w := mul (s k) z) hk j
  by_cases hj : j = k
  · subst hj
    by_cases hi : i = j
    · subst hi
      rw [r2, (rk_s_mul hz.inv hk hz.pos (i - 1)).2, call_mul, call_s]
      have c1 := rk_column hz.inv (k := i + 1) (by omega) (i - 1) hz.pos
      have c2 := rk_column hy.inv (k := i + 1) (by omega) (i - 1) hy.pos
      have p1 := rk_pred y hk i
      have p2 := rk_pred z hk i
      have q1 := rk_parity hy (k := i) (by omega)
      have q2 := rk_parity hz (k := i) (by omega)
      have d1 := h i i
      have d2 := h (i - 1) (i + 1)
      have d3 := h (i - 1) i
      rw [Nat.add_sub_cancel] at c1 c2
      rw [hyk1, if_neg (by omega)] at c2
      rw [hyk', if_pos (by omega)] at p1
      have hz1 : z.call (i + 1 : Nat) ≠ i := fun he => hzk (by rw [← he, hz.inv]; omega)
      have hz2 := hz.ne i (by omega) (by omega)
      have hz3 := hz.ne (i + 1 : Nat) (by omega) (by omega)
      have hz0 := hz.pos (i + 1 : Nat) (by omega)
      have h4 : sFun i (z.call (i + 1 : Nat)) = z.call (i + 1 : Nat) := by
        have := g3 (z.call (i + 1 : Nat)).toNat (by omega) (by omega)
        rwa [Int.toNat_of_nonneg (by omega)] at this
      rw [h4]
      split_ifs at c1 p2 ⊢ <;> omega
    · have h1 : rk (mul (mul (s j) z) (s j)) i j = rk (mul (s j) z) i j := by
        rcases Nat.lt_or_gt_of_ne hi with h1 | h1
        · exact r1 i h1
        · exact r3 i h1
      rw [h1, (rk_s_mul hz.inv hk hz.pos i).2]
      have c1 := rk_column hz.inv (k := j + 1) (by omega) i hz.pos
      have c2 := rk_column hy.inv (k := j + 1) (by omega) i hy.pos
      have c3 := rk_column hz.inv hk i hz.pos
      have c4 := rk_column hy.inv hk i hy.pos
      rw [Nat.add_sub_cancel] at c1 c2
      rw [hyk1] at c2
      rw [hyk'] at c4
      have d1 := h i (j + 1)
      have d2 := h i (j - 1)
      split_ifs at c1 c2 c3 c4 ⊢ <;> omega
  · by_cases hi : i = k
    · subst hi
      rw [r2, (rk_s_mul hz.inv hk hz.pos (i - 1)).1 j hj, call_mul, call_s]
      have p1 := rk_pred y hk j
      have p2 := rk_pred z hk j
      have p3 := rk_succ y i j
      have p4 := rk_succ z i j
      have d1 := h (i - 1) j
      have d2 := h (i + 1) j
      rw [hyk'] at p1
      rw [hyk1] at p3
      have h4 : ((j : Int) < sFun i (z.call (i + 1 : Nat))) ↔ (j : Int) < z.call (i + 1 : Nat) := by
        have hz0 := hz.pos (i + 1 : Nat) (by omega)
        by_cases h1 : z.call (i + 1 : Nat) = i
        · rw [h1, g1]; omega
        by_cases h2 : z.call (i + 1 : Nat) = (i + 1 : Nat)
        · rw [h2, g2]; omega
        have := g3 (z.call (i + 1 : Nat)).toNat (by omega) (by omega)
        rw [Int.toNat_of_nonneg (by omega)] at this
        rw [this]
      rw [if_congr h4 rfl rfl]
      split_ifs at p1 p2 p3 p4 ⊢ <;> omega
    · have h1 : rk (mul (mul (s k) z) (s k)) i j = rk (mul (s k) z) i j := by
        rcases Nat.lt_or_gt_of_ne hi with h1 | h1
        · exact r1 i h1
        · exact r3 i h1
      rw [h1, (rk_s_mul hz.inv hk hz.pos i).1 j hj]
      exact h i j

theorem invStep_conj {w : SPerm} {i : Nat} (h : mul (s i) w ≠ mul w (s i)) : invStep w i = mul (mul (s i) w) (s i) := by
  with_unfolding_all rw [invStep]
  rw [if_neg h]

theorem conj_def (w : SPerm) (i : Nat) : conj w i = mul (mul (s i) w) (s i) := rfl

/-- Removing a descent that is no cycle. -/
theorem fpf_down {N : Nat} {z : SPerm} (hz : Fpf N z) {k : Nat} (hd : Desc z.call k) (hzk : z.call k ≠ (k : Int) + 1) :
    invStep z k = mul (mul (s k) z) (s k) ∧ Fpf N (invStep z k) := by
  have h1 := invStep_conj (fun h => hzk ((hz.comm_iff_of_desc hd).1 h))
  obtain ⟨h2, h3⟩ := hz.desc_lt hd
  exact ⟨h1, by rw [h1]; exact hz.conj h2 h3⟩

theorem fpf_up {N : Nat} {z : SPerm} (hz : Fpf N z) {k : Nat} (hk : 1 ≤ k) (hkN : k + 1 ≤ N) (hd : ¬ Desc z.call k) :
    Fpf N (invStep z k) := by
  obtain ⟨-, r2⟩ := raise_call hz.pos hk ((not_desc_iff hk).1 hd)
  rw [r2 (fun h => hz.ne k (by omega) (by omega) h.1), conjT, ← s_eq hk]
  exact hz.conj hk hkN

/-- The next level of an interval is not empty. -/
theorem fpf_chain {N : Nat} {x z : SPerm} (hx : Fpf N x) (hz : Fpf N z) (h : BruhatLE x z) (hne : x ≠ z) :
    ∃ u, Fpf N u ∧ BruhatLE x u ∧ BruhatLE u z ∧ involutionLength u = involutionLength x + 1 := by
  induction hl : involutionLength z using Nat.strong_induction_on generalizing x z with
  | _ n ih =>
    subst hl
    have hm := ilen_mono hx.inv hz.inv h
    by_cases hs : ∀ i, Desc z.call i → z.call i = (i : Int) + 1
    · exfalso
      have h1 := hz.eq_start hs
      have hlz := len_fpfStart (n := N) (by have := hz.even.2; omega)
      obtain ⟨a, -, hlx⟩ := hx.len
      have h2 := h.len_le
      rw [h1] at h2 hne
      exact hne (h2.2 (by omega))
    · push Not at hs
      obtain ⟨i, hi, hic⟩ := hs
      obtain ⟨hi1, hiN⟩ := hz.desc_lt hi
      obtain ⟨hzc, hz'⟩ := fpf_down hz hi hic
      have hlz := ilen_lower hz.inv hi
      have hzz := lower_self_le hz.inv hi
      have hrec : BruhatLE x (invStep z i) → ∃ u, Fpf N u ∧ BruhatLE x u ∧ BruhatLE u z ∧ involutionLength u = involutionLength x + 1 := by
        intro h1
        by_cases he : x = invStep z i
        · subst he
          exact ⟨z, hz, h, .refl, by omega⟩
        · obtain ⟨u, h2, h3, h4, h5⟩ := ih _ (by omega) hx hz' h1 he rfl
          exact ⟨u, h2, h3, h4.trans hzz, h5⟩
      by_cases hd : Desc x.call i
      · by_cases hxc : x.call i = (i : Int) + 1
        · exact hrec (by rw [hzc]; exact fpf_lower_le hx hz h hi hic hxc)
        obtain ⟨-, hx'⟩ := fpf_down hx hd hxc
        have h1 := lower_le hx.inv hz.inv h i
        rw [if_pos ((mem_rightDescents _ i).2 hd), if_pos ((mem_rightDescents _ i).2 hi)] at h1
        have hnd := not_desc_invStep hx.inv hd
        have hne' : invStep x i ≠ invStep z i := by
          intro hc
          apply hne
          rw [← invStep_invStep x i, hc, invStep_invStep]
        obtain ⟨u, h2, h3, h4, h5⟩ := ih _ (by omega) hx' hz' h1 hne' rfl
        have hlx := ilen_lower hx.inv hd
        by_cases hu : Desc u.call i
        · have h6 := (raise_le_of_desc hx'.inv h2.inv h3 hnd hu).2
          rw [invStep_invStep] at h6
          exact hrec (h6.trans h4)
        · have h6 := raise_le hx'.inv h2.inv h3 hnd hu
          have h7 := raise_le h2.inv hz'.inv h4 hu (not_desc_invStep hz.inv hi)
          rw [invStep_invStep] at h6 h7
          refine ⟨_, fpf_up h2 hi1 hiN hu, h6, h7, ?_⟩
          rw [ilen_raise h2.inv hu]
          omega
      · exact hrec (raise_le_of_desc hx.inv hz.inv h hd hi).1

theorem fpf_conjT {N : Nat} {y : SPerm} (hy : Fpf N y) {p q : Nat} (hp : 1 ≤ p) (hpq : p < q) (hq : q ≤ N) : Fpf N (conjT y p q) := by
  have ho := call_odd (conjT y p q)
  have hc : ∀ x : Int, 0 < x → (x ≤ N → 0 < tFun p q x ∧ tFun p q x ≤ N) ∧ ((N : Int) < x → tFun p q x = x) := by
    intro x hx
    by_cases h1 : x = p
    · rw [h1, tFun_left]; exact ⟨fun _ => by omega, fun _ => by omega⟩
    by_cases h2 : x = q
    · rw [h2, tFun_right]; exact ⟨fun _ => by omega, fun _ => by omega⟩
    rw [tFun_of hx h1 h2]; exact ⟨fun h => ⟨hx, h⟩, fun _ => rfl⟩
  have hr : ∀ x : Int, 0 < x → x ≤ N → 0 < (conjT y p q).call x ∧ (conjT y p q).call x ≤ N := by
    intro x h1 h2
    rw [conjT_call hp (by omega)]
    obtain ⟨h3, h4⟩ := (hc x h1).1 h2
    obtain ⟨h5, h6⟩ := hy.le h3 h4
    exact (hc _ h5).1 h6
  have hout : ∀ x : Int, (N : Int) < x → (conjT y p q).call x = x := by
    intro x h1
    rw [conjT_call hp (by omega), (hc x (by omega)).2 h1, hy.odd.out x (by omega), (hc x (by omega)).2 h1]
  refine ⟨conjT_invol hy.inv hp (by omega), ⟨ho.neg, ho.inj, fun x hx => ?_, fun x hx => ?_⟩, fun x hx => ?_, fun x h1 h2 he => ?_⟩
  · rcases lt_trichotomy x 0 with h | h | h
    · have h1 := hr (-x) (by omega) (by omega)
      rw [ho.neg] at h1
      omega
    · rw [h, ho.zero]; simp
    · have h1 := hr x h (by omega)
      omega
  · rcases lt_or_gt_of_ne (show x ≠ 0 by rintro rfl; simp at hx) with h | h
    · have h1 := hout (-x) (by omega)
      rw [ho.neg] at h1
      omega
    · exact hout x (by omega)
  · by_cases h : x ≤ N
    · exact (hr x hx h).1
    · rw [hout x (by omega)]; exact hx
  · rw [conjT_call hp (by omega)] at he
    obtain ⟨h3, h4⟩ := (hc x h1).1 h2
    apply hy.ne _ h3 h4
    have := congrArg (tFun p q) he
    rwa [tFun_tFun hp (by omega)] at this

/-- Conjugation by a transposition goes up, down, or nowhere. -/
theorem fpf_conjT_le {N : Nat} {y : SPerm} (hy : Fpf N y) {p q : Nat} (hp : 1 ≤ p) (hpq : p < q) (hq : q ≤ N)
    (hl : involutionLength (conjT y p q) = involutionLength y + 1) : BruhatLE y (conjT y p q) := by
  have hpos := hy.pos
  have hz := fpf_conjT hy hp hpq hq
  have np := hy.ne p (by omega) (by omega)
  have nq := hy.ne q (by omega) (by omega)
  have back : conjT (conjT y p q) p q = y := by
    refine ext_call (fun x => ?_)
    rw [conjT_call hp (by omega), conjT_call hp (by omega), tFun_tFun hp (by omega), tFun_tFun hp (by omega)]
  have h0 : y.call p ≠ y.call q := fun h => by have := (call_odd y).inj _ _ h; omega
  by_cases hex : y.call p = q
  · exfalso
    have hex' : y.call q = p := by rw [← hex, hy.inv]
    have : conjT y p q = y := by
      refine (eq_conjT hp (by omega) ?_ ?_ (fun x hx h1 h2 => ?_)).symm
      · rw [hex', tFun_left, hex]
      · rw [hex, tFun_right, hex']
      · rw [tFun_of (hpos x hx) (fun h => h2 (by rw [← hex, ← h, hy.inv])) (fun h => h1 (by rw [← hex', ← h, hy.inv]))]
    rw [this] at hl
    omega
  have hex' : y.call q ≠ p := fun h => hex (by rw [← h, hy.inv])
  have t1 : tFun p q (y.call p) = y.call p := tFun_of (hpos p (by omega)) np hex
  have t2 : tFun p q (y.call q) = y.call q := tFun_of (hpos q (by omega)) hex' nq
  rcases lt_or_gt_of_ne h0 with h1 | h1
  · exact conjT_le hy.inv hp hpq h1 (by rw [t1, t2]; exact h1)
  · exfalso
    have z1 : (conjT y p q).call p = y.call q := by rw [conjT_call hp (by omega), tFun_left, t2]
    have z2 : (conjT y p q).call q = y.call p := by rw [conjT_call hp (by omega), tFun_right, t1]
    have h2 := conjT_le hz.inv hp hpq (by rw [z1, z2]; exact h1) (by rw [z1, z2, t1, t2]; exact h1)
    rw [back] at h2
    have := (ilen_mono hz.inv hy.inv h2).1
    omega

/-- The covering relations are conjugations. -/
theorem fpf_cov {N : Nat} {y z : SPerm} (hy : Fpf N y) (hz : Fpf N z) (h : Cov y z) : ∃ p q, 1 ≤ p ∧ p < q ∧ q ≤ N ∧ z = conjT y p q := by
  have hinj : ∀ {x p v : Int}, y.call p = v → x ≠ v → y.call x ≠ p := by
    intro x p v h1 h2 h3
    apply h2
    rw [← h1, ← h3, hy.inv]
  have hle : ∀ {w : SPerm} {p q : Nat}, Fpf N w → 1 ≤ p → p ≠ q → w.call p = q → p ≤ N ∧ q ≤ N := by
    intro w p q hw hp hpq he
    have h1 : p ≤ N := by
      by_contra hc
      have := hw.odd.out p (by omega)
      omega
    have := hw.le (a := p) (by omega) (by omega)
    omega
  cases h with
  | side a b c d ha hab hbc hcd ya yc ua ub uc ho =>
    exfalso
    have h1 := hle hz ha (by omega) ua
    rcases Nat.lt_or_ge a b with h2 | h2
    · exact hz.ne b (by omega) (by omega) (ub h2)
    · exact hy.ne a (by omega) (by omega) (by rw [ya]; omega)
  | cross a b c d ha hab hbc hcd ya yc ua ub ho =>
    have yb : y.call b = a := by rw [← ya, hy.inv]
    have yd : y.call d = c := by rw [← yc, hy.inv]
    have uc : z.call c = a := by rw [← ua, hz.inv]
    have ud : z.call d = b := by rw [← ub, hz.inv]
    refine ⟨b, c, by omega, hbc, (hle hz ha (by omega) ua).2, eq_conjT (by omega) (by omega) ?_ ?_ (fun x hx n2 n3 => ?_)⟩
    · rw [ub, yc, tFun_of (by omega) (by omega) (by omega)]
    · rw [uc, yb, tFun_of (by omega) (by omega) (by omega)]
    · by_cases n1 : x = a
      · rw [n1, ya, ua, tFun_left]
      by_cases n4 : x = d
      · rw [n4, yd, ud, tFun_right]
      rw [ho x hx n1 n2 n3 n4, tFun_of (hy.pos x hx) (hinj yb n1) (hinj yc n4)]
  | nest a b c d ha hab hbc hcd ya yb ua ub ho =>
    have yc : y.call c = a := by rw [← ya, hy.inv]
    have yd : y.call d = b := by rw [← yb, hy.inv]
    have uc : z.call c = b := by rw [← ub, hz.inv]
    have ud : z.call d = a := by rw [← ua, hz.inv]
    refine ⟨c, d, by omega, hcd, (hle hz ha (by omega) ua).2, eq_conjT (by omega) (by omega) ?_ ?_ (fun x hx n3 n4 => ?_)⟩
    · rw [uc, yd, tFun_of (by omega) (by omega) (by omega)]
    · rw [ud, yc, tFun_of (by omega) (by omega) (by omega)]
    · by_cases n1 : x = a
      · rw [n1, ya, ua, tFun_left]
      by_cases n2 : x = b
      · rw [n2, yb, ub, tFun_right]
      rw [ho x hx n1 n2 n3 n4, tFun_of (hy.pos x hx) (hinj yc n1) (hinj yd n2)]

end Verif.Perm
