import Verif.Lemmas.PolySubst

/-!
# Properties C01-C10: Laurent polynomials (polynomials.py)
-/

namespace Verif

open Poly
open AddMonoidAlgebra (single)

/-- A sample polynomial `3 x_1 x_2^-1 - x_0`, used in the examples. -/
def samplePoly : Poly := sub (mulInt (mul (monomial 1 1) (monomial 2 (-1))) 3) (x 0)

/-- `x_2^2 + x_0 - 2`. -/
def samplePoly2 : Poly := subInt (add (powNat (x 2) 2) (x 0)) 2

/-! ## Adequacy of the denotation

`Poly.den` is pinned down by these two facts: monomials are the same as exponent vectors, and the coefficient of
`den p` at a monomial is what `p[m]` returns. -/

/-- Monomials correspond to exponent vectors one to one, the exponent of `t` being what `m.get(t, 0)` returns. -/
theorem C02_expo_bijective : Function.Bijective Mono.expo ∧ ∀ (m : Mono) (t : ℤ), m.expo t = m.get t :=
  ⟨⟨fun _ _ h => Mono.expo_inj.1 h, Mono.expo_surj⟩, Mono.expo_apply⟩

/-- The coefficient of `den p` at a monomial is `p[m]`. -/
theorem C02_den_coeff (p : Poly) (m : Mono) : p.den.coeff m.expo = p.coeff m := den_coeff p m

/-! ## C01 -/

/-- C01: coefficients of `p + q`, `p - q`, `-p`, and of the sums and differences with an int. -/
theorem C01_add_coeff (p q : Poly) (c : ℤ) (m : Mono) :
    (add p q).coeff m = p.coeff m + q.coeff m ∧
    (sub p q).coeff m = p.coeff m - q.coeff m ∧
    (neg p).coeff m = - p.coeff m ∧
    (addInt p c).coeff m = p.coeff m + (if m = Mono.one then c else 0) ∧
    (subInt p c).coeff m = p.coeff m - (if m = Mono.one then c else 0) ∧
    (rsubInt p c).coeff m = (if m = Mono.one then c else 0) - p.coeff m := by
  refine ⟨coeff_add .., coeff_sub .., coeff_neg .., coeff_addInt .., ?_, ?_⟩
  · rw [subInt, coeff_addInt]; split <;> ring
  · rw [rsubInt, coeff_neg, subInt, coeff_addInt]; split <;> ring

/-- C01: no zero coefficient is stored in a sum when the left operand stores none; each monomial occurs once. -/
theorem C01_add_canonical (p q : Poly) (c : ℤ) (hp : NoZero p) :
    NoZero (add p q) ∧ NoZero (sub p q) ∧ NoZero (addInt p c) ∧ NoZero (neg q) ∧ (add p q).keys.Nodup :=
  ⟨noZero_add hp, noZero_add hp, noZero_add hp, noZero_mul _ _, (add p q).nodup⟩

example : NoZero samplePoly := (C01_add_canonical _ _ 0 (noZero_mul _ _)).2.1
example : (add samplePoly samplePoly2).coeff (Mono.var 0 1) = 0 := by decide
example : (add samplePoly samplePoly2).keys.length = 3 := by decide

/-! ## C02 -/

/-- C02: `p * q` is the product in the ring of Laurent polynomials; `p * c` for an int `c` is the multiple. -/
theorem C02_mul_den (p q : Poly) (c : ℤ) :
    (mul p q).den = p.den * q.den ∧ (mulInt p c).den = c • p.den := ⟨den_mul .., den_mulInt ..⟩

/-- C02: ring laws, as python's `==` sees them. -/
theorem C02_ring_laws (p q r : Poly) :
    eq (mul p q) (mul q p) = true ∧
    eq (mul (mul p q) r) (mul p (mul q r)) = true ∧
    eq (mul p (add q r)) (add (mul p q) (mul p r)) = true ∧
    eq (mul (add q r) p) (add (mul q p) (mul r p)) = true ∧
    eq (mul p one) p = true := by
  simp only [eq_iff, den_mul, den_add, den_one]
  refine ⟨by ring, by ring, by ring, by ring, by ring⟩

/-- C02: the result of `*` stores no zero coefficient, and its monomials are normalised, whatever the operands. -/
theorem C02_mul_canonical (p q : Poly) :
    NoZero (mul p q) ∧ ∀ m ∈ (mul p q).keys, ∀ te ∈ m.items, te.2 ≠ 0 :=
  ⟨noZero_mul p q, fun m _ => m.nonzero⟩

-- (x + 1)(x - 1) = x^2 - 1: the coefficient of x cancels during the loop
example : (mul (addInt (x 1) 1) (subInt (x 1) 1)).keys = [Mono.var 1 2, Mono.one] := by decide
-- x_1 * x_1^-1 = 1
example : mul (x 1) (monomial 1 (-1)) = monomial 0 0 := by decide

/-! ## C03 -/

/-- C03: `==` compares coefficients; `==` with an int compares with the constant polynomial. -/
theorem C03_eq_iff (p q : Poly) (c : ℤ) :
    (eq p q = true ↔ ∀ m, p.coeff m = q.coeff m) ∧
    (eqInt p c = true ↔ ∀ m, p.coeff m = if m = Mono.one then c else 0) := by
  refine ⟨by rw [eq_iff, den_eq_iff], ?_⟩
  rw [eqInt, beq_iff_eq, nnz_eq_zero]
  simp only [(C01_add_coeff p p c _).2.2.2.2.1, sub_eq_zero]

/-- C03: a polynomial is falsy iff all coefficients vanish; `is_zero` and `nnz` agree with that. -/
theorem C03_toBool_iff (p : Poly) :
    (Poly.toBool p = false ↔ ∀ m, p.coeff m = 0) ∧ (isZero p = true ↔ ∀ m, p.coeff m = 0) := by
  simp [Poly.toBool, isZero, nnz_eq_zero]

/-- C03: `nnz` counts the monomials with nonzero coefficient. -/
theorem C03_nnz_card (p : Poly) : ∃ s : Finset Mono, s.card = nnz p ∧ ∀ m, m ∈ s ↔ p.coeff m ≠ 0 := by
  have hn : (p.keys.filter (fun i => decide (coeff p i ≠ 0))).Nodup := List.Nodup.filter _ p.nodup
  refine ⟨(p.keys.filter (fun i => decide (coeff p i ≠ 0))).toFinset, ?_, ?_⟩
  · rw [List.toFinset_card_of_nodup hn, nnz_eq]
  intro m
  simp only [List.mem_toFinset, List.mem_filter, decide_eq_true_eq, and_iff_right_iff_imp]
  intro h
  by_contra hc
  exact h (Dict.getD_of_notMem hc)

-- terms created in a different order
example : (add (x 1) (x 2)).items ≠ (add (x 2) (x 1)).items ∧ eq (add (x 1) (x 2)) (add (x 2) (x 1)) = true := by
  decide

/-! ## C04 -/

/-- C04 (non-negative exponents): `p ** n` is the `n`-fold product. -/
theorem C04_pow_nonneg (p : Poly) (n : ℕ) : ∃ r, pow p n = some r ∧ r.den = p.den ^ n := by
  unfold pow
  by_cases h : n = 0
  · subst h; exact ⟨monomial 0 0, by simp, by simp⟩
  · refine ⟨powNat p n, ?_, den_powNat p n⟩
    have h1 : ¬ ((n : ℤ) < 0) := by omega
    have h2 : ¬ ((n : ℤ) = 0) := by omega
    rw [if_neg h2, if_neg h1]; simp

/-- C04 (negative exponents, part): for a monomial with coefficient `1`, or `-1` and odd `n`, `p ** (-n)` is the
inverse of `p ** n`.  Missing: coefficient `-1` and even `n`, where the code is wrong (`C04_pow_negative_violated`). -/
theorem C04_pow_negative_partial (p : Poly) (n : ℕ) (hn : 0 < n) (ind : Mono) (c : ℤ)
    (hp : p.items = [(ind, c)]) (hc : c = 1 ∨ (c = -1 ∧ Odd n)) :
    ∃ r, pow p (-n) = some r ∧ r.den * p.den ^ n = 1 := by
  have hne : ¬ (-(n : ℤ) = 0) := by omega
  have hlt : (-(n : ℤ) < 0) := by omega
  have habs : ¬ (c.natAbs > 1) := by rcases hc with rfl | ⟨rfl, _⟩ <;> decide
  refine ⟨Dict.empty.set (ind.scale (-n)) c, ?_, ?_⟩
  · rw [pow, if_neg hne, if_pos hlt, hp]; simp [habs]
  · have hd : p.den = single ind.expo c := by rw [Poly.den, hp]; simp
    rw [hd, den_single, AddMonoidAlgebra.single_pow, AddMonoidAlgebra.single_mul_single, Mono.expo_scale,
      AddMonoidAlgebra.one_def]
    have h1 : (-(n : ℤ)) • ind.expo + n • ind.expo = 0 := by simp
    have h2 : c * c ^ n = 1 := by
      rcases hc with rfl | ⟨rfl, ho⟩
      · simp
      · rw [ho.neg_one_pow]; norm_num
    rw [h1, h2]

/-- C04: for `n < 0` the result is None exactly when `p` has not exactly one term, or a term whose coefficient has
absolute value at least 2. -/
theorem C04_pow_none_iff (p : Poly) (n : ℤ) :
    pow p n = none ↔ n < 0 ∧ ∀ ind c, p.items = [(ind, c)] → 1 < c.natAbs := by
  unfold pow
  by_cases h0 : n = 0
  · subst h0; simp
  · rw [if_neg h0]
    by_cases hneg : n < 0
    · rw [if_pos hneg]
      rcases hi : p.items with _ | ⟨⟨a, b⟩, _ | ⟨t, l⟩⟩
      · simp [hneg]
      · simp only [List.cons.injEq, Prod.mk.injEq, and_true, hneg, true_and]
        by_cases hb : b.natAbs > 1
        · rw [if_pos hb]
          refine iff_of_true rfl ?_
          rintro _ _ ⟨rfl, rfl⟩; exact hb
        · rw [if_neg hb]
          refine iff_of_false (by simp) ?_
          intro h; exact hb (h a b ⟨rfl, rfl⟩)
      · simp [hneg]
    · rw [if_neg hneg]; simp [hneg]

/-- C04 finding: `(-x_1) ** -2` evaluates to `-x_1^-2`, which is not the inverse of `(-x_1) ** 2`. -/
theorem C04_pow_negative_violated :
    ∃ r, pow (neg (x 1)) (-2) = some r ∧ r = neg (monomial 1 (-2)) ∧ r.den * (neg (x 1)).den ^ 2 ≠ 1 := by
  refine ⟨neg (monomial 1 (-2)), by decide, rfl, ?_⟩
  intro h
  have h2 : (mul (neg (monomial 1 (-2))) (powNat (neg (x 1)) 2)).den = one.den := by
    rw [den_mul, den_powNat, h, den_one]
  rw [← eq_iff] at h2
  revert h2
  decide

example : pow (mul (x 1) (monomial 3 (-2))) (-3) = some (mul (monomial 1 (-3)) (monomial 3 6)) := by decide
example : (neg (x 2)).items = [(Mono.var 2 1, -1)] := by decide
example : pow samplePoly (-1) = none := by decide

/-! ## C05 -/

/-- C05: if `x_i` occurs in the terms of `p` with non-negative exponents only, `p.substitute(i, e)` returns the
polynomial obtained by replacing `x_i` by `e`; otherwise the call raises. -/
theorem C05_substitute (p : Poly) (i : ℤ) (e : Poly) :
    ((∀ m ∈ p.keys, 0 ≤ m.get i) → ∃ r, substitute p i e = some r ∧ r.den = Laurent.subst i e.den p.den) ∧
    ((∃ m ∈ p.keys, m.get i < 0) → substitute p i e = none) :=
  ⟨substitute_some p i e, substitute_none p i e⟩

/-- C05: substituting is compatible with `+`. -/
theorem C05_substitute_add (p q : Poly) (i : ℤ) (e a b : Poly)
    (ha : substitute p i e = some a) (hb : substitute q i e = some b) :
    ∃ r, substitute (add p q) i e = some r ∧ r.den = a.den + b.den := by
  have hp : ∀ m ∈ p.keys, 0 ≤ m.get i := by
    by_contra hc; push Not at hc; rw [substitute_none p i e hc] at ha; cases ha
  have hq : ∀ m ∈ q.keys, 0 ≤ m.get i := by
    by_contra hc; push Not at hc; rw [substitute_none q i e hc] at hb; cases hb
  obtain ⟨r, hr, hd⟩ := substitute_some (add p q) i e
    (fun m hm => (keys_add hm).elim (hp m) (hq m))
  obtain ⟨a', ha', had⟩ := substitute_some p i e hp
  obtain ⟨b', hb', hbd⟩ := substitute_some q i e hq
  rw [ha] at ha'; cases ha'
  rw [hb] at hb'; cases hb'
  exact ⟨r, hr, by rw [hd, den_add, Laurent.subst_add, had, hbd]⟩

/-- C05: substituting is compatible with `*`. -/
theorem C05_substitute_mul (p q : Poly) (i : ℤ) (e a b : Poly)
    (ha : substitute p i e = some a) (hb : substitute q i e = some b) :
    ∃ r, substitute (mul p q) i e = some r ∧ r.den = a.den * b.den := by
  have hp : ∀ m ∈ p.keys, 0 ≤ m.get i := by
    by_contra hc; push Not at hc; rw [substitute_none p i e hc] at ha; cases ha
  have hq : ∀ m ∈ q.keys, 0 ≤ m.get i := by
    by_contra hc; push Not at hc; rw [substitute_none q i e hc] at hb; cases hb
  obtain ⟨r, hr, hd⟩ := substitute_some (mul p q) i e (fun m hm => by
    obtain ⟨u, hu, v, hv, rfl⟩ := keys_mul hm
    rw [Mono.get_mul]
    exact add_nonneg (hp u hu) (hq v hv))
  obtain ⟨a', ha', had⟩ := substitute_some p i e hp
  obtain ⟨b', hb', hbd⟩ := substitute_some q i e hq
  rw [ha] at ha'; cases ha'
  rw [hb] at hb'; cases hb'
  refine ⟨r, hr, ?_⟩
  rw [hd, den_mul, had, hbd, den_eq_sum_subst p, den_eq_sum_subst q, den_eq_keys p, den_eq_keys q,
    ← List.sum_map_mul_right, ← List.sum_map_mul_right]
  have hsum : ∀ l : List Laurent, Laurent.subst i e.den l.sum = (l.map (Laurent.subst i e.den)).sum := by
    intro l
    induction l with
    | nil => simp [Laurent.subst_zero]
    | cons a l ih => rw [List.sum_cons, Laurent.subst_add, ih, List.map_cons, List.sum_cons]
  rw [hsum, List.map_map]
  congr 1
  apply List.map_congr_left
  intro u hu
  rw [Function.comp, ← List.sum_map_mul_left, hsum, List.map_map, ← List.sum_map_mul_left]
  congr 1
  apply List.map_congr_left
  intro v hv
  rw [Function.comp, AddMonoidAlgebra.single_mul_single, Laurent.subst_single,
    Laurent.substMono_add i e.den (by rw [Mono.expo_apply]; exact hp u hu)
      (by rw [Mono.expo_apply]; exact hq v hv)]
  rw [smul_mul_smul_comm]

/-- C05: the substitution sends `x_i` to `e`, fixes every other variable (with any exponent), and fixes constants. -/
theorem C05_substitute_generators (i j k c : ℤ) (e : Poly) :
    (∃ r, substitute (x i) i e = some r ∧ r.den = e.den) ∧
    (i ≠ j → ∃ r, substitute (monomial j k) i e = some r ∧ r.den = (monomial j k).den) ∧
    (∃ r, substitute (const c) i e = some r ∧ r.den = (const c).den) := by
  have hk : ∀ (m : Mono) (c : ℤ), (Dict.empty.set m c : Poly).keys = [m] := fun m c => rfl
  refine ⟨?_, ?_, ?_⟩
  · obtain ⟨r, hr, hd⟩ := substitute_some (x i) i e (by
      rw [x, monomial, if_neg (by decide), hk]; simp)
    refine ⟨r, hr, ?_⟩
    rw [hd, x, den_monomial, Laurent.xpow, Laurent.subst_single, Laurent.substMono]
    simp only [one_smul, Finsupp.erase_single, Finsupp.single_eq_same]
    simp [← AddMonoidAlgebra.one_def]
  · intro hij
    obtain ⟨r, hr, hd⟩ := substitute_some (monomial j k) i e (by
      rw [monomial]; split
      · rw [hk]; simp
      · rw [hk]; simp [hij])
    refine ⟨r, hr, ?_⟩
    rw [hd, den_monomial, Laurent.xpow, Laurent.subst_single, Laurent.substMono, Finsupp.erase_single_ne hij,
      Finsupp.single_eq_of_ne hij]
    simp
  · obtain ⟨r, hr, hd⟩ := substitute_some (const c) i e (by rw [const, hk]; simp)
    refine ⟨r, hr, ?_⟩
    rw [hd, den_const, Laurent.subst_single, Laurent.substMono]
    simp [AddMonoidAlgebra.smul_single]

example : (substitute samplePoly 1 samplePoly2).isSome = true ∧ substitute samplePoly 2 samplePoly2 = none := by
  decide
example : (substitute (powNat (x 1) 2) 1 (addInt (x 2) 1)).map
    (fun r => eq r (addInt (add (powNat (x 2) 2) (mulInt (x 2) 2)) 1)) = some true := by decide

/-! ## C06 -/

/-- C06: the coefficients of `p.coefficient(i, k)`: at a monomial free of `x_i` the coefficient of `p` at that
monomial times `x_i ** k`, and zero at every monomial involving `x_i`. -/
theorem C06_coefficient_coeff (p : Poly) (i k : ℤ) (m : Mono) :
    (coefficient p i k).coeff m = if m.get i = 0 then p.coeff (m.mul (Mono.var i k)) else 0 :=
  coeff_coefficient p i k m

/-- C06: `x_i` occurs in no stored term of `p.coefficient(i, k)`. -/
theorem C06_coefficient_free (p : Poly) (i k : ℤ) : ∀ m ∈ (coefficient p i k).keys, m.get i = 0 := by
  intro m hm
  obtain ⟨v, hv⟩ := Dict.mem_keys.1 hm
  have h0 := noZero_coefficient p i k m v hv
  by_contra hc
  have := coeff_coefficient p i k m
  rw [if_neg hc, Poly.coeff, Dict.getD_of_get? hv] at this
  exact h0 this

/-- C06: `p` is the sum of `p.coefficient(i, k) * x_i ** k` over any finite set of `k` that contains all exponents
of `x_i` in `p`. -/
theorem C06_decomposition (p : Poly) (i : ℤ) (K : Finset ℤ) (hK : ∀ m ∈ p.keys, m.get i ∈ K) :
    p.den = ∑ k ∈ K, (mul (coefficient p i k) (monomial i k)).den := by
  have hco : ∀ k (m : Mono), (mul (coefficient p i k) (monomial i k)).coeff m =
      if m.get i = k then p.coeff m else 0 := by
    intro k m
    have hm : m = (m.mul (Mono.var i (-k))).mul (Mono.var i k) := by
      apply Mono.ext_get; intro t; by_cases h : t = i <;> simp [h]
    rw [← den_coeff, den_mul, den_monomial, Laurent.xpow]
    conv_lhs => rw [hm]
    rw [Mono.expo_mul (m.mul (Mono.var i (-k))), Mono.expo_var i k]
    have h2 := AddMonoidAlgebra.coeff_mul_single_apply (coefficient p i k).den 1 (Finsupp.single i k)
      ((m.mul (Mono.var i (-k))).expo + Finsupp.single i k)
    rw [h2]
    simp only [add_neg_cancel_right, mul_one]
    rw [den_coeff, coeff_coefficient, ← hm]
    simp only [Mono.get_mul, Mono.get_var, if_true]
    by_cases h : m.get i = k
    · rw [if_pos h, if_pos (by omega)]
    · rw [if_neg h, if_neg (by omega)]
  rw [eq_den_iff]
  intro m
  rw [AddMonoidAlgebra.coeff_sum, Finsupp.finsetSum_apply]
  simp only [den_coeff, hco]
  rw [Finset.sum_ite_eq]
  split
  · rfl
  · rename_i h
    have : m ∉ p.keys := fun hm => h (hK m hm)
    exact Dict.getD_of_notMem this

example : eq (coefficient samplePoly 2 (-1)) (mulInt (x 1) 3) = true ∧
    eq (coefficient samplePoly 2 0) (neg (x 0)) = true := by decide
example : ∀ m ∈ samplePoly.keys, m.get 2 ∈ ({-1, 0} : Finset ℤ) := by decide

/-! ## C07 -/

/-- C07: `p.truncate(d)` keeps exactly the terms of total degree at most `d`, the degree of a monomial being the sum of its
exponents. -/
theorem C07_truncate (p : Poly) (d : ℤ) (m : Mono) :
    (truncate p d).get? m = (if m.expo.sum (fun _ e => e) ≤ d then p.get? m else none) ∧
    (truncate p d).coeff m = (if m.expo.sum (fun _ e => e) ≤ d then p.coeff m else 0) := by
  have h : (truncate p d).get? m = (if m.expo.sum (fun _ e => e) ≤ d then p.get? m else none) := by
    rw [← m.degree_eq, truncate, Dict.get?_filter]
    cases p.get? m with
    | none => simp
    | some v => by_cases hd : m.degree ≤ d <;> simp [Option.filter, hd]
  refine ⟨h, ?_⟩
  unfold Poly.coeff Dict.getD
  rw [h]; split <;> rfl

/-- C07: `total_degree` is the largest degree of a stored term, `None` exactly without terms. -/
theorem C07_totalDegree (p : Poly) :
    (totalDegree p = none ↔ p.items = []) ∧
    (∀ d, totalDegree p = some d ↔
      (∃ m ∈ p.keys, m.expo.sum (fun _ e => e) = d) ∧ ∀ m ∈ p.keys, m.expo.sum (fun _ e => e) ≤ d) := by
  simp only [← Mono.degree_eq]
  refine ⟨by rw [totalDegree_none]; simp [Dict.keys], fun d => ⟨totalDegree_some p d, ?_⟩⟩
  rintro ⟨⟨m, hm, hd⟩, hle⟩
  cases ht : totalDegree p with
  | none => rw [(totalDegree_none p).1 ht] at hm; simp at hm
  | some d' =>
    obtain ⟨⟨m', hm', hd'⟩, hle'⟩ := totalDegree_some p d' ht
    have := hle m' hm'
    have := hle' m hm
    congr 1; omega

/-- C07: for polynomials without stored zeros the terms are the monomials with nonzero coefficient. -/
theorem C07_totalDegree_coeff (p : Poly) (hp : NoZero p) (d : ℤ) :
    totalDegree p = some d ↔ (∃ m, p.coeff m ≠ 0 ∧ m.expo.sum (fun _ e => e) = d) ∧
      ∀ m, p.coeff m ≠ 0 → m.expo.sum (fun _ e => e) ≤ d := by
  have hk : ∀ m, m ∈ p.keys ↔ p.coeff m ≠ 0 := by
    intro m
    constructor
    · intro h
      obtain ⟨v, hv⟩ := Dict.mem_keys.1 h
      rw [Poly.coeff, Dict.getD_of_get? hv]; exact hp m v hv
    · intro h; by_contra hc; exact h (Dict.getD_of_notMem hc)
  rw [(C07_totalDegree p).2 d]
  simp only [hk]

example : totalDegree samplePoly = some 1 ∧ totalDegree samplePoly2 = some 2 ∧
    eq (truncate samplePoly 0) (mulInt (mul (x 1) (monomial 2 (-1))) 3) = true := by decide

/-! ## C08 -/

/-- C08: for `o ≠ 0`, `p // o` and `p % o` are computed and `p == (p // o) * o + p % o`, the coefficients of `p % o`
lying in `[0, o)` for `o > 0` and in `(o, 0]` for `o < 0`. -/
theorem C08_floordiv_mod (p : Poly) (o : ℤ) (ho : o ≠ 0) :
    ∃ q r, floordiv p o = some q ∧ mod p o = some r ∧ eq p (add (mulInt q o) r) = true ∧
      (∀ m, 0 < o → 0 ≤ r.coeff m ∧ r.coeff m < o) ∧ (∀ m, o < 0 → o < r.coeff m ∧ r.coeff m ≤ 0) ∧
      NoZero q ∧ NoZero r := by
  have hf : ∀ (f : ℤ → ℤ), f 0 = 0 → ∀ m,
      Poly.coeff ((p.mapVal (fun _ v => f v)).filter (fun _ v => decide (v ≠ 0))) m = f (p.coeff m) := by
    intro f h0 m
    unfold Poly.coeff Dict.getD
    rw [Dict.get?_filter, Dict.get?_mapVal]
    cases p.get? m with
    | none => simp [h0]
    | some v => by_cases h : f v = 0 <;> simp [Option.filter, h]
  have hz : ∀ (f : ℤ → ℤ), NoZero ((p.mapVal (fun _ v => f v)).filter (fun _ v => decide (v ≠ 0))) := by
    intro f m c
    rw [Dict.get?_filter, Dict.get?_mapVal]
    cases p.get? m with
    | none => simp
    | some v =>
      by_cases h : f v = 0
      · simp [Option.filter, h]
      · simp only [Option.map_some, Option.filter, h, ne_eq, not_false_eq_true, decide_true, if_true,
          Option.some.injEq]
        rintro rfl; exact h
  refine ⟨_, _, if_neg (by simp [ho]), if_neg (by simp [ho]), ?_, ?_, ?_, hz _, hz _⟩
  · rw [eq_iff, den_eq_iff]
    intro m
    rw [Poly.coeff_add, coeff_mulInt, hf (fun v => v.fdiv o) (by simp), hf (fun v => v.fmod o) (by simp)]
    have := Int.mul_fdiv_add_fmod (p.coeff m) o
    rw [mul_comm]; exact this.symm
  · intro m hp
    rw [hf (fun v => v.fmod o) (by simp)]
    exact ⟨Int.fmod_nonneg_of_pos _ hp, Int.fmod_lt_of_pos _ hp⟩
  · intro m hp
    rw [hf (fun v => v.fmod o) (by simp)]
    have h1 : (p.coeff m).fmod o = -((-(p.coeff m)).fmod (-o)) := by rw [Int.neg_fmod_neg, neg_neg]
    have h2 := Int.fmod_nonneg_of_pos (-(p.coeff m)) (b := -o) (by omega)
    have h3 := Int.fmod_lt_of_pos (-(p.coeff m)) (b := -o) (by omega)
    omega

/-- C08: `p / o` returns the polynomial with `q * o == p` when `o` divides all coefficients, else raises. -/
theorem C08_truediv (p : Poly) (o : ℤ) (ho : o ≠ 0) :
    ((∀ m, o ∣ p.coeff m) → ∃ q, truediv p o = some q ∧ eq (mulInt q o) p = true) ∧
    ((∃ m, ¬ o ∣ p.coeff m) → truediv p o = none) := by
  have hall : (p.values.all (fun v => v.fmod o == 0)) = true ↔ ∀ m, o ∣ p.coeff m := by
    rw [List.all_eq_true]
    constructor
    · intro h m
      cases hm : p.get? m with
      | none => unfold Poly.coeff Dict.getD; rw [hm]; simp
      | some v =>
        unfold Poly.coeff; rw [Dict.getD_of_get? hm]
        have := h v (List.mem_map.2 ⟨(m, v), Dict.get?_eq_some.1 hm, rfl⟩)
        rw [beq_iff_eq] at this
        exact Int.dvd_of_fmod_eq_zero this
    · intro h v hv
      obtain ⟨⟨m, v⟩, hmv, rfl⟩ := List.mem_map.1 hv
      have := h m
      rw [Poly.coeff, Dict.getD_of_mem hmv] at this
      rw [beq_iff_eq]
      exact Int.fmod_eq_zero_of_dvd this
  constructor
  · intro h
    refine ⟨_, by rw [truediv, if_neg (by simp [ho]), if_pos (hall.2 h)], ?_⟩
    rw [eq_iff, den_eq_iff]
    intro m
    rw [coeff_mulInt]
    have : Poly.coeff (p.mapVal (fun _ v => v.fdiv o)) m = (p.coeff m).fdiv o := by
      unfold Poly.coeff Dict.getD
      rw [Dict.get?_mapVal]
      cases p.get? m <;> simp
    rw [this]
    exact Int.fdiv_mul_cancel (h m)
  · rintro ⟨m, hm⟩
    rw [truediv, if_neg (by simp [ho]), if_neg]
    rw [hall]; exact fun h => hm (h m)

example : (floordiv (mulInt (x 1) 7) (-2)).map (fun q => q.coeff (Mono.var 1 1)) = some (-4) ∧
    (mod (mulInt (x 1) 7) (-2)).map (fun q => q.coeff (Mono.var 1 1)) = some (-1) ∧
    truediv (mulInt (x 1) 7) 2 = none ∧ truediv (mulInt (x 1) 6) (-2) = some (mulInt (x 1) (-3)) := by decide

/-! ## C09 -/

/-- C09 (part): what `<` computes, when the right operand stores no zeros, is the reflexive coefficientwise order.
Missing: irreflexivity, which fails (`C09_irreflexive_violated`). -/
theorem C09_lt_partial (p q : Poly) (hq : NoZero q) : lt p q = true ↔ ∀ m, p.coeff m ≤ q.coeff m := by
  rw [lt, List.all_eq_true]
  constructor
  · intro h m
    cases hm : (sub q p).get? m with
    | none =>
      have : (sub q p).coeff m = 0 := by unfold Poly.coeff Dict.getD; rw [hm]; rfl
      rw [coeff_sub] at this; omega
    | some v =>
      have h1 := h v (List.mem_map.2 ⟨(m, v), Dict.get?_eq_some.1 hm, rfl⟩)
      rw [decide_eq_true_eq] at h1
      have : (sub q p).coeff m = v := by unfold Poly.coeff; rw [Dict.getD_of_get? hm]
      rw [coeff_sub] at this; omega
  · intro h v hv
    obtain ⟨⟨m, v⟩, hmv, rfl⟩ := List.mem_map.1 hv
    have h1 : (sub q p).coeff m = v := Dict.getD_of_mem hmv
    have h2 := noZero_add (q := neg p) hq m v (Dict.get?_eq_some.2 hmv)
    rw [coeff_sub] at h1
    have := h m
    rw [decide_eq_true_eq]
    simp only
    omega

/-- C09 (part): transitivity, and for unequal polynomials asymmetry. -/
theorem C09_trans_partial (p q r : Poly) (hp : NoZero p) (hq : NoZero q) (hr : NoZero r) :
    (lt p q = true → lt q r = true → lt p r = true) ∧
    (eq p q = false → lt p q = true → lt q p = false) := by
  rw [C09_lt_partial p q hq, C09_lt_partial q r hr, C09_lt_partial p r hr]
  refine ⟨fun h1 h2 m => (h1 m).trans (h2 m), ?_⟩
  intro hne h1
  rw [Bool.eq_false_iff, ne_eq, C09_lt_partial q p hp]
  intro h2
  rw [Bool.eq_false_iff, ne_eq, (C03_eq_iff p q 0).1] at hne
  exact hne (fun m => le_antisymm (h1 m) (h2 m))

/-- C09: `p > q` is `q < p`. -/
theorem C09_gt_eq (p q : Poly) (c : ℤ) : gt p q = lt q p ∧ (gtInt p c = lt (mulInt one c) p) := ⟨rfl, rfl⟩

/-- C09 finding: `p < p` is True for every `p` without stored zeros, so `<` is not a strict order. -/
theorem C09_irreflexive_violated (p : Poly) (hp : NoZero p) : lt p p = true ∧ gt p p = true :=
  ⟨(C09_lt_partial p p hp).2 (fun _ => le_rfl), (C09_lt_partial p p hp).2 (fun _ => le_rfl)⟩

example : lt (x 1) (add (x 1) (x 2)) = true ∧ lt (add (x 1) (x 2)) (x 1) = false := by decide
example : lt samplePoly samplePoly = true := by decide

/-! ## C10 -/

/-- C10: `^` is the formal group law `p + q + beta p q`: commutative, associative, unit `0`, and
`1 + beta (p ^ q) = (1 + beta p)(1 + beta q)`. -/
theorem C10_xor (p q r : Poly) :
    (xor p q).den = p.den + q.den + Laurent.xpow 0 1 * p.den * q.den ∧
    eq (xor p q) (xor q p) = true ∧
    eq (xor (xor p q) r) (xor p (xor q r)) = true ∧
    eq (xor p zero) p = true ∧ eq (xor zero p) p = true ∧
    eq (addInt (mul beta (xor p q)) 1) (mul (addInt (mul beta p) 1) (addInt (mul beta q) 1)) = true := by
  simp only [eq_iff, Poly.xor, beta, x, den_add, den_mul, den_zero, den_addInt, den_monomial, Int.cast_one]
  refine ⟨trivial, by ring, by ring, by ring, by ring, by ring⟩

example : eq (xor (x 1) (x 2)) (add (add (x 1) (x 2)) (mul beta (mul (x 1) (x 2)))) = true := by decide

end Verif
