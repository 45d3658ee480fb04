import Verif.Lemmas.TransitionsTau

/-! # Every covering relation of unsigned involutions comes from `tau` -/

namespace Verif.Perm
open Verif.PermSpec
attribute [-simp] List.getD_eq_getElem?_getD
attribute [local irreducible] mul s inverse identity len mod act SPerm.call sFun invStep

theorem cov_raise {x : SPerm} (hx : Invol x) (hpos : ∀ a : Int, 0 < a → 0 < x.call a) {k : Nat} (hk : 1 ≤ k)
    (hd : x.call k < x.call (k + 1 : Nat)) : Cov x (invStep x k) := by
  obtain ⟨r1, r2⟩ := raise_call hpos hk hd
  have hinj : ∀ {x' p v : Int}, x.call p = v → x' ≠ v → x.call x' ≠ p := by
    intro x' p v h1 h2 h3
    apply h2
    rw [← h1, ← h3, hx]
  obtain ⟨p, hp⟩ : ∃ p : Nat, x.call k = p := ⟨(x.call k).toNat, by have := hpos k (by omega); omega⟩
  obtain ⟨q, hq⟩ : ∃ q : Nat, x.call (k + 1 : Nat) = q := ⟨(x.call (k + 1 : Nat)).toNat, by have := hpos (k + 1 : Nat) (by omega); omega⟩
  have hp' : x.call p = k := by rw [← hp, hx]
  have hq' : x.call q = (k + 1 : Nat) := by rw [← hq, hx]
  have hp1 := hpos k (by omega)
  rw [hp] at hp1
  by_cases hf : x.call k = k ∧ x.call (k + 1 : Nat) = (k + 1 : Nat)
  · have r := r1 hf
    refine .side k k (k + 1) (k + 1) hk le_rfl (by omega) le_rfl hf.1 hf.2 ?_ (by omega) (by omega) (fun v h0 h1 _ h2 _ => ?_)
    · rw [r, tFun_left, hf.2]
    · rw [r, tFun_of h0 h1 h2]
  · have r : ∀ v, (invStep x k).call v = tFun k (k + 1) (x.call (tFun k (k + 1) v)) := by
      intro v
      rw [r2 hf, conjT_call hk (by omega)]
    have hoff : ∀ v : Int, 0 < v → v ≠ k → v ≠ (k + 1 : Nat) → v ≠ p → v ≠ q → (invStep x k).call v = x.call v := by
      intro v h0 h1 h2 h3 h4
      rw [r, tFun_of h0 h1 h2, tFun_of (hpos v h0) (hinj hp h3) (hinj hq h4)]
    have ek : (invStep x k).call k = tFun k (k + 1) q := by rw [r, tFun_left, hq]
    have ek1 : (invStep x k).call (k + 1 : Nat) = tFun k (k + 1) p := by rw [r, tFun_right, hp]
    rw [hp, hq] at hd hf
    rcases lt_trichotomy p k with h1 | h1 | h1
    · have ep : (invStep x k).call p = (k + 1 : Nat) := by rw [r, tFun_of (x := (p : Int)) (by omega) (by omega) (by omega), hp', tFun_left]
      rw [tFun_of (by omega) (by omega) (by omega)] at ek1
      rcases lt_trichotomy q (k + 1) with h2 | h2 | h2
      · have h3 : q ≠ k := by
          rintro rfl
          rw [hq'] at hp
          omega
        rw [tFun_of (by omega) (by omega) (by omega)] at ek
        refine .nest p q k (k + 1) (by omega) (by omega) (by omega) (by omega) hp' hq' ep ?_ (fun v h0 n1 n2 n3 n4 => hoff v h0 n3 n4 n1 n2)
        rw [r, tFun_of (x := (q : Int)) (by omega) (by omega) (by omega), hq', tFun_right]
      · subst h2
        rw [tFun_right] at ek
        exact .side p k (k + 1) (k + 1) (by omega) (by omega) (by omega) le_rfl hp' hq ep (fun _ => ek) (by omega)
          (fun v h0 n1 n2 n3 n4 => hoff v h0 n2 n3 n1 n4)
      · rw [tFun_of (by omega) (by omega) (by omega)] at ek
        exact .cross p k (k + 1) q (by omega) (by omega) (by omega) (by omega) hp' hq ep ek
          (fun v h0 n1 n2 n3 n4 => hoff v h0 n2 n3 n1 n4)
    · subst h1
      rw [tFun_left] at ek1
      have h2 : p + 1 < q := by
        have : q ≠ p + 1 := fun h => hf ⟨rfl, by rw [h]⟩
        omega
      rw [tFun_of (by omega) (by omega) (by omega)] at ek
      exact .side p p (p + 1) q (by omega) le_rfl (by omega) (by omega) hp hq ek (by omega) (fun _ => ek1)
        (fun v h0 n1 n2 n3 n4 => hoff v h0 n1 n3 n2 n4)
    · have h2 : p ≠ k + 1 := by
        rintro rfl
        rw [hq] at hp'
        omega
      rw [tFun_of (by omega) (by omega) (by omega)] at ek ek1
      exact .nest k (k + 1) p q (by omega) (by omega) (by omega) (by omega) hp hq ek ek1
        (fun v h0 n1 n2 n3 n4 => hoff v h0 n1 n2 n3 n4)

theorem not_desc_iff {x : SPerm} {k : Nat} (hk : 1 ≤ k) : ¬ Desc x.call k ↔ x.call k < x.call (k + 1 : Nat) := by
  have hlo : lo k = k := by unfold lo; rw [if_neg (by omega)]
  rw [Desc, hlo]
  have : x.call k ≠ x.call (k + 1 : Nat) := fun h => by
    have := (call_odd x).inj _ _ h
    omega
  push_cast at this ⊢
  omega

theorem raise_pos {x : SPerm} (hpos : ∀ a : Int, 0 < a → 0 < x.call a) {k : Nat} (hk : 1 ≤ k) :
    ∀ a : Int, 0 < a → 0 < (invStep x k).call a := by
  intro a ha
  with_unfolding_all rw [invStep]
  split
  · rw [call_mul, s_eq hk, call_reflectionT hk (by omega)]
    exact hpos _ (tFun_pos hk (by omega) ha)
  · rw [call_mul, call_mul, s_eq hk, call_reflectionT hk (by omega), call_reflectionT hk (by omega)]
    exact tFun_pos hk (by omega) (hpos _ (tFun_pos hk (by omega) ha))

/-- A covering relation whose two sides can be raised by `k`. -/
theorem Cov.raise {x u : SPerm} (hx : Invol x) (hu : Invol u) (px : ∀ a : Int, 0 < a → 0 < x.call a) (pu : ∀ a : Int, 0 < a → 0 < u.call a)
    {k : Nat} (hk : 1 ≤ k) (dx : x.call k < x.call (k + 1 : Nat)) (du : u.call k < u.call (k + 1 : Nat)) (h : Cov x u)
    (hl : involutionLength u = involutionLength x + 1) : Cov (invStep x k) (invStep u k) := by
  obtain ⟨x1, x2⟩ := raise_call px hk dx
  obtain ⟨u1, u2⟩ := raise_call pu hk du
  have hbetween : ¬ Cov (invStep x k) u := by
    intro hc
    have h1 := hc.le (invStep_involution hx k) hu (raise_pos px hk)
    have h2 := ilen_raise hx ((not_desc_iff hk).2 dx)
    have h3 := (ilen_mono (invStep_involution hx k) hu h1).2 (by omega)
    have h4 := (invStep_spec hx ((not_desc_iff hk).2 dx)).2.1
    rw [h3] at h4
    exact (not_desc_iff hk).2 du h4
  cases h with
  | side a b c d ha hab hbc hcd ya yc ua ub uc ho =>
    have yb : x.call b = a := by rw [← ya, hx]
    have yd : x.call d = c := by rw [← yc, hx]
    have ud : u.call d = a := by rw [← ua, hu]
    have ub' : a = b ∧ u.call b = d ∨ a < b ∧ u.call b = b := by
      rcases Nat.lt_or_ge a b with h | h
      · exact .inr ⟨h, ub h⟩
      · have : a = b := by omega
        exact .inl ⟨this, this ▸ ua⟩
    have uc' : c = d ∧ u.call c = a ∨ c < d ∧ u.call c = c := by
      rcases Nat.lt_or_ge c d with h | h
      · exact .inr ⟨h, uc h⟩
      · have : c = d := by omega
        exact .inl ⟨this, this.symm ▸ ud⟩
    by_cases hA : k = a ∨ k = b ∨ k = c ∨ k = d
    · by_cases hB : k + 1 = a ∨ k + 1 = b ∨ k + 1 = c ∨ k + 1 = d
      · by_cases hs : k = b ∧ k + 1 = c ∧ a < b ∧ c < d
        · obtain ⟨rfl, rfl, h3, h4⟩ := hs
          have fu := u1 ⟨ub h3, uc h4⟩
          have fx := x2 (by rw [yb]; omega)
          rw [fx]
          have gx : ∀ v, (conjT x k (k + 1)).call v = tFun k (k + 1) (x.call (tFun k (k + 1) v)) := conjT_call hk (by omega)
          refine .nest a k (k + 1) d ha h3 (by omega) h4 ?_ ?_ ?_ ?_ (fun v h0 n1 n2 n3 n4 => ?_)
          · rw [gx, tFun_of (x := (a : Int)) (by omega) (by omega) (by omega), ya, tFun_left]
          · rw [gx, tFun_left, yc, tFun_of (by omega) (by omega) (by omega)]
          · rw [fu, tFun_of (by omega) (by omega) (by omega), ua]
          · rw [fu, tFun_left, uc h4]
          · have g1 : x.call v ≠ k := fun h => n1 (by rw [← hx v, h, yb])
            have g2 : x.call v ≠ (k + 1 : Nat) := fun h => n4 (by rw [← hx v, h, yc])
            rw [fu, gx, tFun_of h0 n2 n3, tFun_of (px v h0) g1 g2, ho v h0 n1 n2 n3 n4]
        · exfalso
          rcases hA with h | h | h | h <;> rcases hB with h' | h' | h' | h' <;> rw [h', h] at dx du <;> omega
      · have hn : ¬ ((k = a ∨ k = b ∨ k = c ∨ k = d) ∧ (k + 1 = a ∨ k + 1 = b ∨ k + 1 = c ∨ k + 1 = d)) := fun h => hB h.2
        have e1 := ho (k + 1 : Nat) (by omega) (by omega) (by omega) (by omega) (by omega)
        by_cases fx : x.call k = k ∧ x.call (k + 1 : Nat) = (k + 1 : Nat)
        · -- the fixed point `k` is `c = d`
          have h3 : k = c ∧ c = d := by
            obtain ⟨fx1, fx2⟩ := fx
            rw [e1, fx2] at du
            rcases hA with h | h | h | h <;> rw [h] at du fx1 <;> omega
          obtain ⟨rfl, rfl⟩ := h3
          have gx := x1 fx
          have gu := u2 (by rw [ud]; omega)
          rw [gu]
          have gu' : ∀ v, (conjT u k (k + 1)).call v = tFun k (k + 1) (u.call (tFun k (k + 1) v)) := conjT_call hk (by omega)
          refine .side a b k (k + 1) ha hab hbc (by omega) ?_ ?_ ?_ (fun h => ?_) (fun _ => ?_) (fun v h0 n1 n2 n3 n4 => ?_)
          · rw [gx, tFun_of (by omega) (by omega) (by omega), ya]
          · rw [gx, tFun_left, fx.2]
          · rw [gu', tFun_of (x := (a : Int)) (by omega) (by omega) (by omega), ua, tFun_left]
          · rw [gu', tFun_of (p := k) (x := (b : Int)) (by omega) (by omega) (by omega), ub h, tFun_of (by omega) (by omega) (by omega)]
          · rw [gu', tFun_left, e1, fx.2, tFun_right]
          · have g1 : u.call v ≠ k := fun h => n1 (by rw [← hu v, h, ud])
            have g2 : u.call v ≠ (k + 1 : Nat) := fun h => n4 (by rw [← hu v, h, e1, fx.2])
            rw [gx, gu', tFun_of h0 n3 n4, tFun_of (pu v h0) g1 g2, ho v h0 n1 n2 n3 n3]
        · by_cases fu : u.call k = k ∧ u.call (k + 1 : Nat) = (k + 1 : Nat)
          · -- the point `k` is `b`, and `k + 1` is in between
            exfalso
            have h3 : k = b ∧ a < b := by
              obtain ⟨fu1, fu2⟩ := fu
              rw [← e1, fu2] at dx
              rcases hA with h | h | h | h <;> rw [h] at fu1 dx <;> omega
            obtain ⟨rfl, h4⟩ := h3
            apply hbetween
            rw [x2 fx]
            have gx : ∀ v, (conjT x k (k + 1)).call v = tFun k (k + 1) (x.call (tFun k (k + 1) v)) := conjT_call hk (by omega)
            have e2 : x.call (k + 1 : Nat) = (k + 1 : Nat) := by rw [← e1, fu.2]
            have g1 : ∀ v : Int, 0 < v → v ≠ k → v ≠ (k + 1 : Nat) → v ≠ a → (conjT x k (k + 1)).call v = x.call v := by
              intro v h0 n1 n2 n3
              rw [gx, tFun_of h0 n1 n2, tFun_of (px v h0) (fun h => n3 (by rw [← hx v, h, yb])) (fun h => n2 (by rw [← hx v, h, e2]))]
            refine .side a (k + 1) c d ha (by omega) (by omega) hcd ?_ ?_ ua (fun _ => fu.2) uc (fun v h0 n1 n2 n3 n4 => ?_)
            · rw [gx, tFun_of (x := (a : Int)) (by omega) (by omega) (by omega), ya, tFun_left]
            · rw [g1 _ (by omega) (by omega) (by omega) (by omega), yc]
            · by_cases n5 : v = k
              · rw [n5, gx, tFun_left, e2, tFun_right, fu.1]
              · rw [g1 v h0 n5 n2 n1, ho v h0 n1 n5 n3 n4]
          · rw [x2 fx, u2 fu]
            exact Cov.conj_side hk hx hu ha hab hbc hcd ya yc ua ub uc ho hn
    · have e1 := ho k (by omega) (by omega) (by omega) (by omega) (by omega)
      by_cases hB : k + 1 = a ∨ k + 1 = b ∨ k + 1 = c ∨ k + 1 = d
      · have hn : ¬ ((k = a ∨ k = b ∨ k = c ∨ k = d) ∧ (k + 1 = a ∨ k + 1 = b ∨ k + 1 = c ∨ k + 1 = d)) := fun h => hA h.1
        by_cases fx : x.call k = k ∧ x.call (k + 1 : Nat) = (k + 1 : Nat)
        · -- the fixed point `k + 1` is `a = b`
          have h3 : k + 1 = a ∧ a = b := by
            obtain ⟨fx1, fx2⟩ := fx
            rw [e1, fx1] at du
            rcases hB with h | h | h | h <;> rw [h] at du fx2 <;> omega
          obtain ⟨rfl, rfl⟩ := h3
          have gx := x1 fx
          have gu := u2 (by rw [ua]; omega)
          rw [gu]
          have gu' : ∀ v, (conjT u k (k + 1)).call v = tFun k (k + 1) (u.call (tFun k (k + 1) v)) := conjT_call hk (by omega)
          refine .side k (k + 1) c d hk (by omega) hbc hcd ?_ ?_ ?_ (fun _ => ?_) (fun h => ?_) (fun v h0 n1 n2 n3 n4 => ?_)
          · rw [gx, tFun_left, fx.2]
          · rw [gx, tFun_of (by omega) (by omega) (by omega), yc]
          · rw [gu', tFun_left, ua, tFun_of (by omega) (by omega) (by omega)]
          · rw [gu', tFun_right, e1, fx.1, tFun_left]
          · rw [gu', tFun_of (p := k) (x := (c : Int)) (by omega) (by omega) (by omega), uc h, tFun_of (by omega) (by omega) (by omega)]
          · have g1 : u.call v ≠ k := fun h => n1 (by rw [← hu v, h, e1, fx.1])
            have g2 : u.call v ≠ (k + 1 : Nat) := fun h => n4 (by rw [← hu v, h, ua])
            rw [gx, gu', tFun_of h0 n1 n2, tFun_of (pu v h0) g1 g2, ho v h0 n2 n2 n3 n4]
        · by_cases fu : u.call k = k ∧ u.call (k + 1 : Nat) = (k + 1 : Nat)
          · -- the point `k + 1` is `c`, and `k` is in between
            exfalso
            have h3 : k + 1 = c ∧ c < d := by
              obtain ⟨fu1, fu2⟩ := fu
              rw [← e1, fu1] at dx
              rcases hB with h | h | h | h <;> rw [h] at fu2 dx <;> omega
            obtain ⟨rfl, h4⟩ := h3
            apply hbetween
            rw [x2 fx]
            have gx : ∀ v, (conjT x k (k + 1)).call v = tFun k (k + 1) (x.call (tFun k (k + 1) v)) := conjT_call hk (by omega)
            have e2 : x.call k = k := by rw [← e1, fu.1]
            have g1 : ∀ v : Int, 0 < v → v ≠ k → v ≠ (k + 1 : Nat) → v ≠ d → (conjT x k (k + 1)).call v = x.call v := by
              intro v h0 n1 n2 n3
              rw [gx, tFun_of h0 n1 n2, tFun_of (px v h0) (fun h => n1 (by rw [← hx v, h, e2])) (fun h => n3 (by rw [← hx v, h, yc]))]
            refine .side a b k d ha hab (by omega) (by omega) ?_ ?_ ua ub (fun _ => fu.1) (fun v h0 n1 n2 n3 n4 => ?_)
            · rw [g1 _ (by omega) (by omega) (by omega) (by omega), ya]
            · rw [gx, tFun_left, yc, tFun_of (by omega) (by omega) (by omega)]
            · by_cases n5 : v = (k + 1 : Nat)
              · rw [n5, gx, tFun_right, e2, tFun_left, fu.2]
              · rw [g1 v h0 n3 n5 n4, ho v h0 n1 n2 n5 n4]
          · rw [x2 fx, u2 fu]
            exact Cov.conj_side hk hx hu ha hab hbc hcd ya yc ua ub uc ho hn
      · have e2 := ho (k + 1 : Nat) (by omega) (by omega) (by omega) (by omega) (by omega)
        by_cases fx : x.call k = k ∧ x.call (k + 1 : Nat) = (k + 1 : Nat)
        · obtain ⟨g1, g2⟩ := off_values hk ho hA hB (x1 fx) (u1 (by rw [e1, e2]; exact fx))
          refine .side a b c d ha hab hbc hcd ?_ ?_ ?_ (fun h => ?_) (fun h => ?_) g2
          · rw [(g1 a (by simp)).1, ya]
          · rw [(g1 c (by simp)).1, yc]
          · rw [(g1 a (by simp)).2, ua]
          · rw [(g1 b (by simp)).2, ub h]
          · rw [(g1 c (by simp)).2, uc h]
        · rw [x2 fx, u2 (by rw [e1, e2]; exact fx)]
          exact Cov.conj_side hk hx hu ha hab hbc hcd ya yc ua ub uc ho (fun h => hA h.1)
  | cross a b c d ha hab hbc hcd ya yc ua ub ho =>
    have yb : x.call b = a := by rw [← ya, hx]
    have yd : x.call d = c := by rw [← yc, hx]
    have ud : u.call d = b := by rw [← ub, hu]
    have uc : u.call c = a := by rw [← ua, hu]
    have hn : ¬ ((k = a ∨ k = b ∨ k = c ∨ k = d) ∧ (k + 1 = a ∨ k + 1 = b ∨ k + 1 = c ∨ k + 1 = d)) := by
      rintro ⟨hA, hB⟩
      rcases hA with h | h | h | h <;> rcases hB with h' | h' | h' | h' <;> rw [h', h] at dx du <;> omega
    have hmove : (k = a ∨ k = b ∨ k = c ∨ k = d) → ¬ x.call k = k ∧ ¬ u.call k = k := by
      intro h
      rcases h with h | h | h | h <;> rw [h] <;> omega
    have hmove' : (k + 1 = a ∨ k + 1 = b ∨ k + 1 = c ∨ k + 1 = d) → ¬ x.call (k + 1 : Nat) = (k + 1 : Nat) ∧ ¬ u.call (k + 1 : Nat) = (k + 1 : Nat) := by
      intro h
      rcases h with h | h | h | h <;> rw [h] <;> omega
    by_cases hA : k = a ∨ k = b ∨ k = c ∨ k = d
    · rw [x2 (fun h => (hmove hA).1 h.1), u2 (fun h => (hmove hA).2 h.1)]
      exact Cov.conj_cross hk ha hab hbc hcd ya yc ua ub ho hn
    by_cases hB : k + 1 = a ∨ k + 1 = b ∨ k + 1 = c ∨ k + 1 = d
    · rw [x2 (fun h => (hmove' hB).1 h.2), u2 (fun h => (hmove' hB).2 h.2)]
      exact Cov.conj_cross hk ha hab hbc hcd ya yc ua ub ho hn
    have e1 := ho k (by omega) (by omega) (by omega) (by omega) (by omega)
    have e2 := ho (k + 1 : Nat) (by omega) (by omega) (by omega) (by omega) (by omega)
    by_cases fx : x.call k = k ∧ x.call (k + 1 : Nat) = (k + 1 : Nat)
    · obtain ⟨g1, g2⟩ := off_values hk ho hA hB (x1 fx) (u1 (by rw [e1, e2]; exact fx))
      refine .cross a b c d ha hab hbc hcd ?_ ?_ ?_ ?_ g2
      · rw [(g1 a (by simp)).1, ya]
      · rw [(g1 c (by simp)).1, yc]
      · rw [(g1 a (by simp)).2, ua]
      · rw [(g1 b (by simp)).2, ub]
    · rw [x2 fx, u2 (by rw [e1, e2]; exact fx)]
      exact Cov.conj_cross hk ha hab hbc hcd ya yc ua ub ho hn
  | nest a b c d ha hab hbc hcd ya yb ua ub ho =>
    have yc : x.call c = a := by rw [← ya, hx]
    have yd : x.call d = b := by rw [← yb, hx]
    have ud : u.call d = a := by rw [← ua, hu]
    have uc : u.call c = b := by rw [← ub, hu]
    have hn : ¬ ((k = a ∨ k = b ∨ k = c ∨ k = d) ∧ (k + 1 = a ∨ k + 1 = b ∨ k + 1 = c ∨ k + 1 = d)) := by
      rintro ⟨hA, hB⟩
      rcases hA with h | h | h | h <;> rcases hB with h' | h' | h' | h' <;> rw [h', h] at dx du <;> omega
    have hmove : (k = a ∨ k = b ∨ k = c ∨ k = d) → ¬ x.call k = k ∧ ¬ u.call k = k := by
      intro h
      rcases h with h | h | h | h <;> rw [h] <;> omega
    have hmove' : (k + 1 = a ∨ k + 1 = b ∨ k + 1 = c ∨ k + 1 = d) → ¬ x.call (k + 1 : Nat) = (k + 1 : Nat) ∧ ¬ u.call (k + 1 : Nat) = (k + 1 : Nat) := by
      intro h
      rcases h with h | h | h | h <;> rw [h] <;> omega
    by_cases hA : k = a ∨ k = b ∨ k = c ∨ k = d
    · rw [x2 (fun h => (hmove hA).1 h.1), u2 (fun h => (hmove hA).2 h.1)]
      exact Cov.conj_nest hk ha hab hbc hcd ya yb ua ub ho hn
    by_cases hB : k + 1 = a ∨ k + 1 = b ∨ k + 1 = c ∨ k + 1 = d
    · rw [x2 (fun h => (hmove' hB).1 h.2), u2 (fun h => (hmove' hB).2 h.2)]
      exact Cov.conj_nest hk ha hab hbc hcd ya yb ua ub ho hn
    have e1 := ho k (by omega) (by omega) (by omega) (by omega) (by omega)
    have e2 := ho (k + 1 : Nat) (by omega) (by omega) (by omega) (by omega) (by omega)
    by_cases fx : x.call k = k ∧ x.call (k + 1 : Nat) = (k + 1 : Nat)
    · obtain ⟨g1, g2⟩ := off_values hk ho hA hB (x1 fx) (u1 (by rw [e1, e2]; exact fx))
      refine .nest a b c d ha hab hbc hcd ?_ ?_ ?_ ?_ g2
      · rw [(g1 a (by simp)).1, ya]
      · rw [(g1 b (by simp)).1, yb]
      · rw [(g1 a (by simp)).2, ua]
      · rw [(g1 b (by simp)).2, ub]
    · rw [x2 fx, u2 (by rw [e1, e2]; exact fx)]
      exact Cov.conj_nest hk ha hab hbc hcd ya yb ua ub ho hn

/-- The covering relations are the three kinds. -/
theorem cov_of_covers {x z : SPerm} (hx : Invol x) (hz : Invol z) (px : ∀ a : Int, 0 < a → 0 < x.call a) (pz : ∀ a : Int, 0 < a → 0 < z.call a)
    (h : BruhatLE x z) (hl : involutionLength z = involutionLength x + 1) : Cov x z := by
  induction hn : involutionLength z generalizing x z with
  | zero => omega
  | succ n ih =>
    obtain ⟨k, hd⟩ := exists_desc (z := z) (by omega)
    have hk : 1 ≤ k := by
      by_contra hc
      obtain rfl : k = 0 := by omega
      rw [Desc, show lo 0 = -1 from rfl, (call_odd z).neg 1] at hd
      have := pz 1 (by omega)
      simp only [Nat.cast_zero, zero_add] at hd
      omega
    have hz' := invStep_involution hz k
    have hlz := ilen_lower hz hd
    have hzd := not_desc_invStep hz hd
    by_cases hdx : Desc x.call k
    · have hx' := invStep_involution hx k
      have hxd := not_desc_invStep hx hdx
      have hlx := ilen_lower hx hdx
      have h1 := lower_le hx hz h k
      rw [if_pos ((mem_rightDescents _ k).2 hdx), if_pos ((mem_rightDescents _ k).2 hd)] at h1
      have h2 := ih hx' hz' (raise_pos px hk) (raise_pos pz hk) h1 (by omega) (by omega)
      have h3 := h2.raise hx' hz' (raise_pos px hk) (raise_pos pz hk) hk ((not_desc_iff hk).1 hxd) ((not_desc_iff hk).1 hzd) (by omega)
      rwa [invStep_invStep, invStep_invStep] at h3
    · have h1 := (raise_le_of_desc hx hz h hdx hd).1
      have h2 := (ilen_mono hx hz' h1).2 (by omega)
      have h3 := cov_raise hx px hk ((not_desc_iff hk).1 hdx)
      rwa [h2, invStep_invStep, ← h2] at h3

end Verif.Perm
