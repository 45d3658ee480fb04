import Verif.Lemmas.InsertionRun

/-! The bumping path of a Hecke insertion. -/

namespace Verif.Insertion

open Tab

/-- The value `a` may be put into row `i + 1` after position `k`, the rows above being already final. -/
def Fits (f F : Nat → Nat → Int) (i k : Nat) (a : Int) : Prop := (k = 0 ∨ f (i + 1) k < a) ∧ (i = 0 ∨ F i (k + 1) < a)

/-- Insertion into `f` with row lengths `lam` from row `r + 1` on: the values `A r, A (r + 1), ..., A R` enter rows `r + 1,
..., R + 1` after `K r, ..., K R` entries, giving `F`. -/
structure Trace (lam : Nat → Nat) (f F : Nat → Nat → Int) (A : Nat → Int) (K : Nat → Nat) (r R : Nat) : Prop where
  le : r ≤ R
  cnt : ∀ i, r ≤ i → i ≤ R → Cnt lam f (i + 1) (A i) (K i)
  lt : ∀ i, r ≤ i → i < R → K i + 1 ≤ lam (i + 1)
  bump : ∀ i, r ≤ i → i < R → A (i + 1) = f (i + 1) (K i + 1)
  last : K R = lam (R + 1)
  fit : ∀ i j, r ≤ i → i ≤ R → (j = K i + 1 ∧ Fits f F i (K i) (A i)) → F (i + 1) j = A i
  same : ∀ i j, r ≤ i → i ≤ R → ¬ (j = K i + 1 ∧ Fits f F i (K i) (A i)) → F (i + 1) j = f (i + 1) j
  below : ∀ i j, R + 2 ≤ i → F i j = f i j
  above : ∀ i j, i ≤ r → F i j = f i j

variable {lam : Nat → Nat}

theorem nextF_ne {f : Nat → Nat → Int} {r k : Nat} {a : Int} {i j : Nat} (h : i ≠ r + 1) : nextF f r k a i j = f i j := by
  unfold nextF
  split
  · rw [updF, if_neg (by omega)]
  · rfl

theorem trace_exists (d : Nat) : ∀ {T : Tab} {f : Nat → Nat → Int} {r : Nat} {a : Int}, Inc T lam f → Ready lam f r a →
    lam (r + d + 1) = 0 → ∃ Tc fc R c A K, r ≤ R ∧ R ≤ r + d ∧ Inc Tc lam fc ∧ Ready lam fc R c ∧
      Cnt lam fc (R + 1) c (lam (R + 1)) ∧
      (∃ pre, ∀ fuel, path (fuel + (R - r)) (st T lam r a) = (path fuel (st Tc lam R c)).map (pre ++ ·)) ∧
      (∀ g, rewind (g + (R - r)) (st Tc lam R c) = rewind g (st T lam r a)) ∧
      A r = a ∧ A R = c ∧ Trace lam f (nextF fc R (lam (R + 1)) c) A K r R ∧
      (Insertable fc R (lam (R + 1)) c ↔ Fits f (nextF fc R (lam (R + 1)) c) R (K R) (A R)) := by
  have base : ∀ {T : Tab} {f : Nat → Nat → Int} {r : Nat} {a : Int}, Inc T lam f → Ready lam f r a →
      Cnt lam f (r + 1) a (lam (r + 1)) → ∃ A K, A r = a ∧
      Trace lam f (nextF f r (lam (r + 1)) a) A K r r ∧
      (Insertable f r (lam (r + 1)) a ↔ Fits f (nextF f r (lam (r + 1)) a) r (K r) (A r)) := by
    intro T f r a h hr hk
    have hfit : Insertable f r (lam (r + 1)) a ↔ Fits f (nextF f r (lam (r + 1)) a) r (lam (r + 1)) a := by
      unfold Insertable Fits
      rw [nextF_ne (by omega)]
    refine ⟨fun _ => a, fun _ => lam (r + 1), rfl, ?_, hfit⟩
    constructor
    · exact le_refl _
    · intro i h1 h2
      have : i = r := by omega
      subst this; exact hk
    · intro i h1 h2; omega
    · intro i h1 h2; omega
    · rfl
    · intro i j h1 h2 h3
      have : i = r := by omega
      subst this
      rw [← hfit] at h3
      rw [nextF, if_pos h3.2, updF, if_pos ⟨rfl, h3.1⟩]
    · intro i j h1 h2 h3
      have : i = r := by omega
      subst this
      rw [← hfit] at h3
      unfold nextF
      split
      · rw [updF, if_neg (by tauto)]
      · rfl
    · intro i j h1; exact nextF_ne (by omega)
    · intro i j h1; exact nextF_ne (by omega)
  induction d with
  | zero =>
    intro T f r a h hr hd
    obtain ⟨k, hk⟩ := exists_cnt lam f (r + 1) a
    have hk0 : k = lam (r + 1) := by have := hk.1; simp only [Nat.add_zero] at hd; omega
    subst hk0
    obtain ⟨A, K, b1, b2, b3⟩ := base h hr hk
    exact ⟨T, f, r, a, A, K, le_refl _, le_refl _, h, hr, hk, ⟨[], by intro fuel; simp⟩, by intro g; simp, b1, b1, b2, b3⟩
  | succ d ih =>
    intro T f r a h hr hd
    obtain ⟨k, hk⟩ := exists_cnt lam f (r + 1) a
    by_cases hkl : k = lam (r + 1)
    · subst hkl
      obtain ⟨A, K, b1, b2, b3⟩ := base h hr hk
      exact ⟨T, f, r, a, A, K, le_refl _, by omega, h, hr, hk, ⟨[], by intro fuel; simp⟩, by intro g; simp, b1, b1, b2, b3⟩
    · have hkl' : k + 1 ≤ lam (r + 1) := by have := hk.1; omega
      have hinc := nextInc h hr hk hkl'
      have hready := nextReady h hr hk hkl'
      obtain ⟨Tc, fc, R, c, A, K, h1, h2, h3, h4, h5, ⟨pre, h6⟩, h7, h8, h9, h10, h11⟩ :=
        ih hinc hready (by rw [← hd]; congr 1; omega)
      have hcnt_congr : ∀ i a k, i ≠ r + 1 → (Cnt lam (nextF f r k a) i = Cnt lam f i) := by
        intro i a k hi
        funext b m
        unfold Cnt
        simp only [nextF_ne hi]
      have hfits : ∀ F i k' a', r + 1 ≤ i → (Fits (nextF f r k a) F i k' a' ↔ Fits f F i k' a') := by
        intro F i k' a' hi
        unfold Fits
        rw [nextF_ne (by omega)]
      obtain ⟨F, hF⟩ : ∃ F, nextF fc R (lam (R + 1)) c = F := ⟨_, rfl⟩
      rw [hF] at h10 h11
      have hFr : ∀ j, F (r + 1) j = nextF f r k a (r + 1) j := fun j => h10.above (r + 1) j (le_refl _)
      have hF0 : ∀ i j, i ≤ r → F i j = f i j := fun i j hi => by
        rw [h10.above i j (by omega), nextF_ne (by omega)]
      have hins : Insertable f r k a ↔ Fits f F r k a := by
        unfold Insertable Fits
        rw [hF0 r _ (le_refl _)]
      refine ⟨Tc, fc, R, c, fun i => if i = r then a else A i, fun i => if i = r then k else K i,
        by omega, by omega, h3, h4, h5, ?_, ?_, by simp, by simp only; rw [if_neg (by omega), h9], ?_, ?_⟩
      · refine ⟨(st (nextT T f r k a) lam (r + 1) (f (r + 1) (k + 1)), (r + 1, k + 1)) :: pre, ?_⟩
        intro fuel
        rw [show fuel + (R - r) = (fuel + (R - (r + 1))) + 1 by omega, path, next_st h hr, rowTransition_st h r a hk,
          if_neg hkl, transitionR23_eq h hr hk hkl']
        simp only [Option.map_some]
        rw [h6 fuel, Option.map_map]
        rfl
      · intro g
        rw [show g + (R - r) = (g + 1) + (R - (r + 1)) by omega, h7 (g + 1), rewind, isInitial_st]
        simp only [Nat.add_eq_zero_iff, one_ne_zero, and_false, decide_false, Bool.false_eq_true, if_false]
        rw [previous_st hinc hready, inverseRow_eq h hr hk hkl']
        rfl
      · rw [hF]
        constructor
        · omega
        · intro i hi1 hi2
          by_cases hi : i = r
          · subst hi; simpa using hk
          · simp only [if_neg hi]
            have := h10.cnt i (by omega) hi2
            rwa [hcnt_congr (i + 1) a k (by omega)] at this
        · intro i hi1 hi2
          by_cases hi : i = r
          · subst hi; simpa using hkl'
          · simp only [if_neg hi]; exact h10.lt i (by omega) hi2
        · intro i hi1 hi2
          by_cases hi : i = r
          · subst hi; simpa using h8
          · simp only [if_neg hi, if_neg (show i + 1 ≠ r by omega)]
            rw [h10.bump i (by omega) hi2, nextF_ne (by omega)]
        · rw [if_neg (by omega)]; exact h10.last
        · intro i j hi1 hi2 hj
          by_cases hi : i = r
          · subst hi
            simp only [if_true] at hj ⊢
            rw [hFr, nextF, if_pos (hins.2 hj.2), updF, if_pos ⟨rfl, hj.1⟩]
          · simp only [if_neg hi] at hj ⊢
            rw [← hfits F i _ _ (by omega)] at hj
            exact h10.fit i j (by omega) hi2 hj
        · intro i j hi1 hi2 hj
          by_cases hi : i = r
          · subst hi
            simp only [if_true] at hj
            rw [← hins] at hj
            rw [hFr]
            unfold nextF
            split
            · rw [updF, if_neg (by tauto)]
            · rfl
          · simp only [if_neg hi] at hj
            rw [← hfits F i _ _ (by omega)] at hj
            rw [h10.same i j (by omega) hi2 hj, nextF_ne (by omega)]
        · intro i j hi
          rw [h10.below i j hi, nextF_ne (by omega)]
        · exact hF0
      · rw [hF, h11]
        simp only
        rw [if_neg (by omega), if_neg (by omega)]
        exact hfits F R _ _ (by omega)

end Verif.Insertion
