import Verif.Model.PolyCall
import Verif.Lemmas.PolySubst
import Mathlib.Algebra.MvPolynomial.Eval

/-! # C127: calling a polynomial substitutes for several variables at once -/

namespace Verif

open Dict
open AddMonoidAlgebra (single)

namespace Poly

/-- What `x_j` is replaced by: the value of the dict `x` at `j`, or `x_j` itself. -/
noncomputable def replacement (x : Dict Int Poly) (j : ℤ) : Laurent :=
  match x.get? j with
  | some q => q.den
  | none => Laurent.xpow j 1

/-- The image of `x_j ^ e`. -/
noncomputable def evalFactor (x : Dict Int Poly) (j e : ℤ) : Laurent :=
  match x.get? j with
  | some q => q.den ^ e.toNat
  | none => Laurent.xpow j e

noncomputable def evalMono (x : Dict Int Poly) (w : ℤ →₀ ℤ) : Laurent := w.prod (evalFactor x)

noncomputable def evalLin (x : Dict Int Poly) (z : Laurent) : Laurent := z.coeff.sum (fun w c => c • evalMono x w)

theorem call_xpow_zero (j : ℤ) : Laurent.xpow j 0 = 1 := by
  rw [Laurent.xpow, Finsupp.single_zero]; rfl

theorem call_xpow_add (j a b : ℤ) : Laurent.xpow j (a + b) = Laurent.xpow j a * Laurent.xpow j b := by
  rw [Laurent.xpow, Laurent.xpow, Laurent.xpow, AddMonoidAlgebra.single_mul_single, Finsupp.single_add, one_mul]

theorem call_xpow_nat (j : ℤ) (k : ℕ) : Laurent.xpow j k = Laurent.xpow j 1 ^ k := by
  induction k with
  | zero => rw [Nat.cast_zero, call_xpow_zero, pow_zero]
  | succ k ih => rw [Nat.cast_succ, call_xpow_add, ih, pow_succ]

theorem evalFactor_zero (x : Dict Int Poly) (j : ℤ) : evalFactor x j 0 = 1 := by
  rw [evalFactor]
  split
  · simp
  · exact call_xpow_zero j

theorem prod_xpow (v : ℤ →₀ ℤ) : v.prod (fun j e => Laurent.xpow j e) = single v 1 := by
  induction v using Finsupp.induction_linear with
  | zero => rw [Finsupp.prod_zero_index]; rfl
  | add f g hf hg =>
    rw [Finsupp.prod_add_index' call_xpow_zero call_xpow_add, hf, hg, AddMonoidAlgebra.single_mul_single, one_mul]
  | single a b => rw [Finsupp.prod_single_index (call_xpow_zero a)]; rfl

theorem evalMono_add (x : Dict Int Poly) (v : ℤ →₀ ℤ) (hv : ∀ j ∈ x.keys, v j = 0) (s : ℤ →₀ ℕ) :
    evalMono x (v + s.mapRange (fun k : ℕ => (k : ℤ)) Nat.cast_zero) =
      single v 1 * s.prod (fun j k => replacement x j ^ k) := by
  classical
  have h1 : (v + s.mapRange (fun k : ℕ => (k : ℤ)) Nat.cast_zero).support ⊆ v.support ∪ s.support := by
    refine Finsupp.support_add.trans (Finset.union_subset_union_right Finsupp.support_mapRange)
  rw [evalMono, Finsupp.prod_of_support_subset _ h1 _ (fun j _ => evalFactor_zero x j), ← prod_xpow v,
    Finsupp.prod_of_support_subset v (Finset.subset_union_left (s₂ := s.support)) _ (fun j _ => call_xpow_zero j),
    Finsupp.prod_of_support_subset s (Finset.subset_union_right (s₁ := v.support)) _ (fun j _ => pow_zero _),
    ← Finset.prod_mul_distrib]
  refine Finset.prod_congr rfl (fun j _ => ?_)
  rw [Finsupp.add_apply, Finsupp.mapRange_apply, evalFactor, replacement]
  cases hx : x.get? j with
  | some q =>
    dsimp only
    rw [hv j (Dict.mem_keys.2 ⟨q, hx⟩), zero_add, Int.toNat_natCast, call_xpow_zero, one_mul]
  | none =>
    dsimp only
    rw [call_xpow_add, call_xpow_nat]

theorem monomial_xpow (s : ℤ →₀ ℕ) : s.prod (fun j k => Laurent.xpow j 1 ^ k) =
    single (s.mapRange (fun k : ℕ => (k : ℤ)) Nat.cast_zero) 1 := by
  induction s using Finsupp.induction_linear with
  | zero => simp; rfl
  | add f g hf hg =>
    rw [Finsupp.prod_add_index' (fun _ => pow_zero _) (fun _ _ _ => pow_add _ _ _), hf, hg,
      AddMonoidAlgebra.single_mul_single, one_mul, Finsupp.mapRange_add (fun a b => Nat.cast_add a b)]
  | single a b =>
    rw [Finsupp.prod_single_index (h := fun j k => Laurent.xpow j 1 ^ k) (pow_zero _), Finsupp.mapRange_single,
      ← call_xpow_nat]
    rfl

theorem evalLin_add (x : Dict Int Poly) (z w : Laurent) : evalLin x (z + w) = evalLin x z + evalLin x w := by
  rw [evalLin, AddMonoidAlgebra.coeff_add, Finsupp.sum_add_index' (by simp) (by intros; rw [add_smul])]
  rfl

theorem evalLin_single (x : Dict Int Poly) (v : ℤ →₀ ℤ) (c : ℤ) : evalLin x (single v c) = c • evalMono x v := by
  rw [evalLin, AddMonoidAlgebra.coeff_single, Finsupp.sum_single_index (by simp)]

theorem monomial_image (v : ℤ →₀ ℤ) (s : ℤ →₀ ℕ) (a : ℤ) :
    single v 1 * MvPolynomial.aeval (fun j => Laurent.xpow j 1) (MvPolynomial.monomial s a) =
      single (v + s.mapRange (fun k : ℕ => (k : ℤ)) Nat.cast_zero) a := by
  rw [MvPolynomial.aeval_monomial, monomial_xpow, ← Algebra.smul_def, mul_smul_comm, AddMonoidAlgebra.single_mul_single,
    one_mul, AddMonoidAlgebra.smul_single, smul_eq_mul, mul_one]

theorem evalLin_aeval (x : Dict Int Poly) (v : ℤ →₀ ℤ) (hv : ∀ j ∈ x.keys, v j = 0) (P : MvPolynomial ℤ ℤ) :
    evalLin x (single v 1 * MvPolynomial.aeval (fun j => Laurent.xpow j 1) P) =
      single v 1 * MvPolynomial.aeval (replacement x) P := by
  induction P using MvPolynomial.induction_on' with
  | monomial s a =>
    rw [monomial_image, evalLin_single, evalMono_add x v hv, MvPolynomial.aeval_monomial, ← Algebra.smul_def, mul_smul_comm]
  | add p q hp hq => rw [map_add, mul_add, evalLin_add, hp, hq, map_add, mul_add]

theorem exponents_nonneg (v : ℤ →₀ ℤ) (P : MvPolynomial ℤ ℤ) (w : ℤ →₀ ℤ)
    (hw : (single v 1 * MvPolynomial.aeval (fun j => Laurent.xpow j 1) P : Laurent).coeff w ≠ 0) (j : ℤ) : v j ≤ w j := by
  induction P using MvPolynomial.induction_on' with
  | monomial s a =>
    rw [monomial_image, AddMonoidAlgebra.coeff_single, Finsupp.single_apply] at hw
    split at hw
    · rename_i h
      rw [← h, Finsupp.add_apply, Finsupp.mapRange_apply]
      omega
    · exact absurd rfl hw
  | add p q hp hq =>
    by_contra hc
    rw [map_add, mul_add, AddMonoidAlgebra.coeff_add, Finsupp.add_apply, not_not.1 (mt hp hc), not_not.1 (mt hq hc)] at hw
    exact hw rfl

theorem pow_monomial (j e : ℤ) : ∃ r, pow (monomial j 1) e = some r ∧ r.den = Laurent.xpow j e := by
  rw [pow]
  by_cases h0 : e = 0
  · rw [if_pos h0, h0]
    exact ⟨_, rfl, by rw [den_monomial_zero, call_xpow_zero]⟩
  · rw [if_neg h0]
    by_cases hn : e < 0
    · rw [if_pos hn]
      have : (monomial j 1).items = [(Mono.var j 1, 1)] := rfl
      rw [this]
      refine ⟨_, rfl, ?_⟩
      rw [den_single, Mono.expo_scale, Mono.expo_var, Laurent.xpow, Finsupp.smul_single, smul_eq_mul, mul_one]
    · rw [if_neg hn]
      refine ⟨_, rfl, ?_⟩
      rw [den_powNat, den_monomial, ← call_xpow_nat, Int.toNat_of_nonneg (by omega)]

theorem foldlM_callFactor (x : Dict Int Poly) (l : List (ℤ × ℤ)) : ∀ init : Poly,
    (∀ p ∈ l, p.1 ∈ x.keys → 0 ≤ p.2) → ∃ r, l.foldlM (callFactor x) init = some r ∧
      r.den = init.den * (l.map (fun p => evalFactor x p.1 p.2)).prod := by
  induction l with
  | nil => intro init _; exact ⟨init, rfl, by simp⟩
  | cons a l ih =>
    intro init h
    have ha : ∃ q, pow (x.getD a.1 (monomial a.1 1)) a.2 = some q ∧ q.den = evalFactor x a.1 a.2 := by
      rw [Dict.getD, evalFactor]
      cases hx : x.get? a.1 with
      | none => exact pow_monomial a.1 a.2
      | some q =>
        have h0 := h a List.mem_cons_self (Dict.mem_keys.2 ⟨q, hx⟩)
        dsimp only [Option.getD_some]
        rw [pow]
        by_cases hz : a.2 = 0
        · rw [if_pos hz, hz]; exact ⟨_, rfl, by simp⟩
        · rw [if_neg hz, if_neg (by omega)]
          exact ⟨_, rfl, den_powNat _ _⟩
    obtain ⟨q, hq, hqd⟩ := ha
    obtain ⟨r, hr, hd⟩ := ih (mul init q) (fun p hp => h p (List.mem_cons_of_mem _ hp))
    refine ⟨r, ?_, ?_⟩
    · rw [List.foldlM_cons, callFactor, hq]; exact hr
    · rw [hd, List.map_cons, List.prod_cons, den_mul, hqd, mul_assoc]

theorem prod_evalMono (x : Dict Int Poly) (l : List (ℤ × ℤ)) (hn : (l.map Prod.fst).Nodup) :
    (l.map (fun p => evalFactor x p.1 p.2)).prod = evalMono x (l.map (fun p => Finsupp.single p.1 p.2)).sum := by
  classical
  induction l with
  | nil => simp [evalMono]
  | cons a l ih =>
    rw [List.map_cons, List.nodup_cons] at hn
    have h0 : (l.map (fun p => (Finsupp.single p.1 p.2 : ℤ →₀ ℤ))).sum a.1 = 0 := by
      have hn1 := hn.1
      clear ih hn
      induction l with
      | nil => simp
      | cons b l ih2 =>
        simp only [List.map_cons, List.mem_cons, not_or] at hn1
        rw [List.map_cons, List.sum_cons, Finsupp.add_apply, ih2 hn1.2, Finsupp.single_apply,
          if_neg (fun h => hn1.1 h.symm), add_zero]
    rw [List.map_cons, List.prod_cons, ih hn.2, List.map_cons, List.sum_cons, evalMono, evalMono,
      Finsupp.prod_add_index_of_disjoint, Finsupp.prod_single_index (evalFactor_zero x a.1)]
    rw [Finset.disjoint_left]
    intro j hj hj'
    have := Finsupp.support_single_subset hj
    rw [Finset.mem_singleton] at this
    subst this
    exact Finsupp.mem_support_iff.1 hj' h0

theorem call_some (p : Poly) (x : Dict Int Poly) (h : ∀ m ∈ p.keys, ∀ j ∈ x.keys, 0 ≤ m.get j) :
    ∃ r, call p x = some r ∧ r.den = evalLin x p.den := by
  have hs : evalLin x p.den = (p.keys.map (fun k => coeff p k • evalMono x k.expo)).sum := by
    rw [den_eq_keys]
    induction p.keys with
    | nil => simp [evalLin]
    | cons a l ih => rw [List.map_cons, List.sum_cons, evalLin_add, ih, evalLin_single]; simp
  have key : ∀ (l : List Mono) (init : Poly), (∀ m ∈ l, ∀ j ∈ x.keys, 0 ≤ m.get j) →
      ∃ r, l.foldlM (fun ans ind => (ind.items.foldlM (callFactor x) (mulInt one (p.coeff ind))).map
        (fun t => add ans t)) init = some r ∧
        r.den = init.den + (l.map (fun k => coeff p k • evalMono x k.expo)).sum := by
    intro l
    induction l with
    | nil => intro init _; exact ⟨init, rfl, by simp⟩
    | cons a l ih =>
      intro init h
      obtain ⟨t, ht, htd⟩ := foldlM_callFactor x a.items (mulInt one (p.coeff a)) (by
        rintro ⟨j, k⟩ hp hj
        have h1 : a.get j = k := (Mono.mem_items.1 hp).1
        rw [← h1]
        exact h a List.mem_cons_self j hj)
      obtain ⟨r, hr, hd⟩ := ih (add init t) (fun m hm => h m (List.mem_cons_of_mem _ hm))
      refine ⟨r, ?_, ?_⟩
      · rw [List.foldlM_cons, ht]; exact hr
      · rw [hd, den_add, htd, prod_evalMono x _ a.keys_nodup, den_mulInt, den_one, smul_mul_assoc, one_mul, List.map_cons,
          List.sum_cons, add_assoc]
        rfl
  obtain ⟨r, hr, hd⟩ := key p.keys Dict.empty h
  exact ⟨r, hr, by rw [hd, den_empty, zero_add, hs]⟩

end Poly

open Poly

/-- C127: let `p` be a polynomial `P` in the variables, up to a Laurent monomial in variables that are not keys of `x`.
Then `p(x)` returns the value of `P` where every variable `x_j` with `j` a key of `x` is replaced by the value of `x` at
`j`, all at once, times the monomial.  In particular a value of `x` that contains another key of `x` is not
substituted again. -/
theorem C127_call (p : Poly) (hz : NoZero p) (x : Dict Int Poly) (v : ℤ →₀ ℤ) (hv : ∀ j ∈ x.keys, v j = 0)
    (P : MvPolynomial ℤ ℤ) (hp : p.den = single v 1 * MvPolynomial.aeval (fun j => Laurent.xpow j 1) P) :
    ∃ r, call p x = some r ∧ r.den = single v 1 * MvPolynomial.aeval
      (fun j => match x.get? j with | some q => q.den | none => Laurent.xpow j 1) P := by
  have hk : ∀ m ∈ p.keys, ∀ j ∈ x.keys, 0 ≤ m.get j := by
    intro m hm j hj
    obtain ⟨c, hc⟩ := Dict.mem_keys.1 hm
    have : v j ≤ m.expo j := by
      apply exponents_nonneg v P
      rw [← hp, den_coeff, coeff, Dict.getD, hc]
      exact hz m c hc
    rw [Mono.expo_apply, hv j hj] at this
    exact this
  obtain ⟨r, hr, hd⟩ := call_some p x hk
  refine ⟨r, hr, ?_⟩
  rw [hd, hp, evalLin_aeval x v hv]
  rfl

/-- Exchanging `x_1` and `x_2` in `x_1^2 x_3^-1 + 5 x_2`. -/
example : (call (add (mul (powNat (Poly.x 1) 2) (monomial 3 (-1))) (mulInt (Poly.x 2) 5))
    ((Dict.empty.set 1 (Poly.x 2)).set 2 (Poly.x 1))).map
      (fun r => Poly.eq r (add (mul (powNat (Poly.x 2) 2) (monomial 3 (-1))) (mulInt (Poly.x 1) 5))) = some true := by
  decide +kernel

/-- C127: the polynomial `x_1 ^ 2 + 5 x_2` meets the hypothesis with `P = X_1 ^ 2 + 5 X_2`. -/
example : (add (powNat (Poly.x 1) 2) (mulInt (Poly.x 2) 5)).den = single 0 1 *
    MvPolynomial.aeval (fun j => Laurent.xpow j 1) (MvPolynomial.X 1 ^ 2 + 5 • MvPolynomial.X 2 : MvPolynomial ℤ ℤ) := by
  rw [den_add, den_powNat, den_mulInt, Poly.x, Poly.x, den_monomial, den_monomial, ← AddMonoidAlgebra.one_def, one_mul]
  simp

/-- C127: a negative power of a polynomial with two terms raises. -/
example : call (monomial 1 (-1)) (Dict.empty.set 1 (add (Poly.x 1) (Poly.x 2))) = none := by decide +kernel

end Verif
