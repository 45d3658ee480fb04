import Verif.Lemmas.LayerGen
import Verif.Lemmas.Weights

/-! Generating functions built letter by letter, and when they are symmetric. -/

attribute [-simp] List.getD_eq_getElem?_getD

namespace Verif.Tableaux

open Tab Verif.Part Symm

variable {A : Type*} [CommRing A]

/-- If the generating functions come from steps, and two consecutive steps commute, then neighbouring variables may be
exchanged. -/
theorem swap_of_transfer {σ : Type*} [DecidableEq σ] (ok : σ → Prop) (B : σ → Finset σ) (st : σ → σ → A → A)
    (G : Nat → σ → (Nat → A) → A) (hB : ∀ mu, ok mu → ∀ nu ∈ B mu, ok nu)
    (hG : ∀ k mu, ok mu → ∀ y, G (k + 1) mu y = ∑ nu ∈ B mu, st mu nu (y k) * G k nu y)
    (hG0 : ∀ k mu y y', (∀ i < k, y i = y' i) → G k mu y = G k mu y')
    (U : σ → Finset σ)
    (hU : ∀ mu, ok mu → ∀ nu ∈ B mu, B nu ⊆ U mu)
    (hcomm : ∀ mu, ok mu → ∀ rho, ∀ x y : A, ∑ nu ∈ B mu, (if rho ∈ B nu then st mu nu x * st nu rho y else 0) =
      ∑ nu ∈ B mu, (if rho ∈ B nu then st mu nu y * st nu rho x else 0))
    (j n : Nat) (hj : j + 2 ≤ n) : ∀ mu, ok mu → ∀ y, G n mu y = G n mu (y ∘ Equiv.swap j (j + 1)) := by
  classical
  induction n with
  | zero => omega
  | succ n ih =>
    intro mu hmu y
    by_cases hjn : j + 2 ≤ n
    · rw [hG n mu hmu, hG n mu hmu]
      refine Finset.sum_congr rfl (fun nu hnu => ?_)
      rw [ih hjn nu (hB mu hmu nu hnu) y]
      congr 2
      rw [Function.comp_apply, Equiv.swap_apply_of_ne_of_ne (by omega) (by omega)]
    · obtain rfl : n = j + 1 := by omega
      have key : ∀ y : Nat → A, G (j + 1 + 1) mu y = ∑ rho ∈ U mu,
          (∑ nu ∈ B mu, (if rho ∈ B nu then st mu nu (y (j + 1)) * st nu rho (y j) else 0)) * G j rho y := by
        intro y
        rw [hG (j + 1) mu hmu]
        have h1 : ∀ nu ∈ B mu, st mu nu (y (j + 1)) * G (j + 1) nu y = ∑ rho ∈ U mu,
            (if rho ∈ B nu then st mu nu (y (j + 1)) * st nu rho (y j) else 0) * G j rho y := by
          intro nu hnu
          rw [hG j nu (hB mu hmu nu hnu), Finset.mul_sum]
          rw [← Finset.sum_subset (hU mu hmu nu hnu)]
          · refine Finset.sum_congr rfl (fun rho hrho => ?_)
            rw [if_pos hrho]
            ring
          · intro rho _ hrho
            rw [if_neg hrho, zero_mul]
        rw [Finset.sum_congr rfl h1, Finset.sum_comm]
        refine Finset.sum_congr rfl (fun rho _ => ?_)
        rw [Finset.sum_mul]
      rw [key, key]
      refine Finset.sum_congr rfl (fun rho _ => ?_)
      rw [hcomm mu hmu rho]
      congr 1
      · refine Finset.sum_congr rfl (fun nu _ => ?_)
        rw [Function.comp_apply, Function.comp_apply, Equiv.swap_apply_left, Equiv.swap_apply_right]
      · apply hG0
        intro i hi
        rw [Function.comp_apply, Equiv.swap_apply_of_ne_of_ne (by omega) (by omega)]

variable {R : Rules} {lam : List Nat} {moves : Nat → List Nat → List (List Nat × List (Nat × Nat))}

/-- The weight of a tableau: `om` of the boxes with the letter `i + 1`. -/
def tabWeight (R : Rules) (om : Nat → Finset (Nat × Nat) → Nat) (T : Tab) (i : Nat) : Nat :=
  om (i + 1) (boxesWith T (R.val (i + 1)))

/-- The generating function, by the last letter. -/
theorem WG_succ (hinj : Function.Injective R.val) (hlam : IsShape R.sh lam)
    (hmv : ∀ k mu, IsShape R.sh mu → ListsMoves R lam (k + 1) mu (moves (k + 1) mu))
    (om : Nat → Finset (Nat × Nat) → Nat) (k : Nat) {mu : List Nat} (hm : IsShape R.sh mu) (y : Nat → A) :
    WG (genTabs R lam moves (k + 1) mu) (k + 1) (tabWeight R om) y =
      ∑ m ∈ (moves (k + 1) mu).toFinset, y k ^ om (k + 1) m.2.toFinset *
        WG (genTabs R lam moves k m.1) k (tabWeight R om) y := by
  rw [WG, sum_genTabs hinj hlam hmv k hm]
  refine Finset.sum_congr rfl (fun m hmm => ?_)
  rw [List.mem_toFinset] at hmm
  obtain ⟨hnd, hmove⟩ := (hmv k mu hm).sound m hmm
  rw [WG, Finset.mul_sum]
  refine Finset.sum_congr rfl (fun T hT => ?_)
  have hT := (mem_genTabs hinj hlam hmv k hmove.shape).1 hT
  rw [Finset.prod_range_succ, mul_comm]
  congr 1
  · rw [tabWeight, boxesWith_addAll hinj hnd hT, if_pos rfl]
  · refine Finset.prod_congr rfl (fun i hi => ?_)
    rw [tabWeight, boxesWith_addAll hinj hnd hT, if_neg (by have := Finset.mem_range.1 hi; omega), tabWeight]

/-- The number of tableaux of a given weight, by the last letter. -/
theorem wCount_succ (hinj : Function.Injective R.val) (hlam : IsShape R.sh lam)
    (hmv : ∀ k mu, IsShape R.sh mu → ListsMoves R lam (k + 1) mu (moves (k + 1) mu))
    (om : Nat → Finset (Nat × Nat) → Nat) (k : Nat) {mu : List Nat} (hm : IsShape R.sh mu) (alpha : Nat → Nat) :
    wCount (genTabs R lam moves (k + 1) mu) (k + 1) (tabWeight R om) alpha =
      ∑ m ∈ (moves (k + 1) mu).toFinset, if om (k + 1) m.2.toFinset = alpha k then
        wCount (genTabs R lam moves k m.1) k (tabWeight R om) alpha else 0 := by
  rw [wCount, Finset.card_filter, sum_genTabs hinj hlam hmv k hm]
  push_cast
  refine Finset.sum_congr rfl (fun m hmm => ?_)
  rw [List.mem_toFinset] at hmm
  obtain ⟨hnd, hmove⟩ := (hmv k mu hm).sound m hmm
  rw [wCount, Finset.card_filter]
  push_cast
  by_cases h : om (k + 1) m.2.toFinset = alpha k
  · rw [if_pos h]
    refine Finset.sum_congr rfl (fun T hT => ?_)
    have hT := (mem_genTabs hinj hlam hmv k hmove.shape).1 hT
    have hiff : (∀ i < k + 1, tabWeight R om (addAll m.2 (R.val (k + 1)) T) i = alpha i) ↔
        ∀ i < k, tabWeight R om T i = alpha i := by
      constructor
      · intro h' i hi
        have := h' i (by omega)
        rwa [tabWeight, boxesWith_addAll hinj hnd hT, if_neg (by omega)] at this
      · intro h' i hi
        rw [tabWeight, boxesWith_addAll hinj hnd hT]
        by_cases hik : i = k
        · subst hik
          rw [if_pos rfl, h]
        · rw [if_neg (by omega)]
          exact h' i (by omega)
    simp only [hiff]
  · rw [if_neg h]
    refine Finset.sum_eq_zero (fun T hT => ?_)
    have hT := (mem_genTabs hinj hlam hmv k hmove.shape).1 hT
    rw [if_neg]
    intro h'
    have := h' k (by omega)
    rw [tabWeight, boxesWith_addAll hinj hnd hT, if_pos rfl] at this
    exact h this

end Verif.Tableaux
