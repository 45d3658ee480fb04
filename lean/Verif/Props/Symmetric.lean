import Verif.Lemmas.SymGen
import Verif.Props.Vector

/-! # C28-C31: symmetric polynomials -/

namespace Verif.Symm

open Verif.Part Partition Tableaux

/-! ## C28

`IsSym n f` says that `f` is a `SymmetricPolynomial` in `n` variables as the constructor makes them; `C28_closed` shows
that all the operations stay inside. -/

open Classical in
/-- C28: the coefficients of `SymmetricMonomial(n, mu).polynomial()`. -/
theorem C28_monomial (n : Nat) {mu : List Nat} (hm : IsPartition mu) (e : ℤ →₀ ℤ) :
    (monoPoly Poly.x n mu).den.coeff e = if HasExponents n mu e then 1 else 0 := coeff_monoPoly n hm e

/-- C28: `SymmetricMonomial * SymmetricMonomial`, for both kinds of variables. -/
theorem C28_monomial_mul (v : Int → Poly) {n : Nat} {a b : List Nat} (ha : IsPartition a) (hb : IsPartition b) :
    polynomial v n (monoMul n a b) = PolyVal.mk (monoPoly v n a) * PolyVal.mk (monoPoly v n b) :=
  polynomial_monoMul v ha hb

/-- C28: products of symmetric polynomials. -/
theorem C28_mul (v : Int → Poly) {n : Nat} {f g : SymPoly} (hf : IsSym n f) (hg : IsSym n g) :
    polynomial v n (mul f g) = polynomial v n f * polynomial v n g := polynomial_mul v hf hg

theorem C28_add (v : Int → Poly) {n : Nat} {f g : SymPoly} (hf : IsSym n f) (hg : IsSym n g) :
    polynomial v n (Vec.add f g) = polynomial v n f + polynomial v n g := polynomial_add v hf hg

theorem C28_smul (v : Int → Poly) {n : Nat} {f : SymPoly} (hf : IsSym n f) (c : PolyVal) :
    polynomial v n (Vec.smul f c) = polynomial v n f * c := polynomial_smul v hf c

/-- C28: `SymmetricMonomial.symmetric_polynomial`. -/
theorem C28_ofMono (v : Int → Poly) {n : Nat} {mu : List Nat} (h : IsPartition mu) (hl : mu.length ≤ n) (c : PolyVal) :
    polynomial v n (ofMono n mu c) = PolyVal.mk (monoPoly v n mu) * c := polynomial_ofMono v h hl c

/-- C28: the operations yield symmetric polynomials in `n` variables. -/
theorem C28_closed {n : Nat} {f g : SymPoly} (hf : IsSym n f) (hg : IsSym n g) (c : PolyVal) {a b : List Nat}
    (ha : IsPartition a) (hb : IsPartition b) (hl : a.length ≤ n) :
    IsSym n (mul f g) ∧ IsSym n (Vec.add f g) ∧ IsSym n (Vec.smul f c) ∧ IsSym n (monoMul n a b) ∧
      IsSym n (ofMono n a c) :=
  ⟨isSym_mul hf hg, isSym_add hf hg, isSym_smul hf c, isSym_monoMul ha hb, isSym_ofMono ha hl c⟩

/-- C28: the constructor calls in the product never raise: every key of the product has at most `n` parts. -/
theorem C28_no_assertion {n : Nat} {a b : List Nat} (ha : IsPartition a) (hb : IsPartition b) :
    ∀ g ∈ (multiply n a b).keys, mkMono n g = some g := by
  intro g hg
  have := multiplyAt_keys ha hb g hg
  rw [mkMono, if_pos (this.2.trans (by omega)), sortTrim_self this.1]

/-- C28: a cache filled by earlier calls does not change the product, and the cache stays correct. -/
theorem C28_cache (C : MulCache) (hC : ∀ mu nu k d, C.get? (mu, nu, k) = some d → d = multiplyAt k mu nu) (n : Nat)
    (mu nu : List Nat) :
    (multiplyCached C n mu nu).1 = multiply n mu nu ∧
      ∀ mu' nu' k d, (multiplyCached C n mu nu).2.get? (mu', nu', k) = some d → d = multiplyAt k mu' nu' := by
  unfold multiplyCached
  simp only
  split
  · rename_i d h
    exact ⟨hC _ _ _ _ h, hC⟩
  · refine ⟨rfl, fun mu' nu' k d h => ?_⟩
    simp only [Dict.get?_set, Prod.mk.injEq] at h
    split at h
    · rename_i he
      obtain ⟨rfl, rfl, rfl⟩ := he
      exact (Option.some.inj h).symm
    · exact hC _ _ _ _ h

/-- C28: `polynomial()` determines a symmetric polynomial (up to `==`) whose coefficients do not involve
`x_1, ..., x_n`. -/
theorem C28_injective {n : Nat} {f g : SymPoly} (hf : IsSym n f) (hg : IsSym n g) (hf0 : Vec.NoZero f)
    (hcf : ∀ mu, FreeOf n (f.get mu).den) (hcg : ∀ mu, FreeOf n (g.get mu).den)
    (h : polynomial Poly.x n f = polynomial Poly.x n g) : Vec.eq f g = true := by
  have h1 : phi (xden Poly.x) n (f.den - g.den) = 0 := by
    have h2 := congrArg PolyVal.den h
    rw [den_polynomial Poly.x n (fun k hk => (hf.keys k hk).1),
      den_polynomial Poly.x n (fun k hk => (hg.keys k hk).1)] at h2
    have h3 : f.den - g.den = f.den + (-1 : PolyVal) • g.den := by rw [neg_one_smul, sub_eq_add_neg]
    rw [h3, phi_add, phi_smul, h2]
    simp
  have h2 := phi_injective n (f.den - g.den) (fun a ha => by
      by_cases hfa : f.den a = 0
      · apply den_support hg a
        intro hga
        apply ha
        rw [Finsupp.sub_apply, hfa, hga, sub_zero]
      · exact den_support hf a hfa)
    (fun a => by
      rw [Finsupp.sub_apply, Vec.den_apply, Vec.den_apply, PolyVal.den_sub]
      intro e he i hi
      rw [AddMonoidAlgebra.coeff_sub, Finsupp.sub_apply] at he
      by_cases hfe : (f.get a).den.coeff e = 0
      · apply hcg a e _ i hi
        intro hge
        exact he (by rw [hfe, hge, sub_zero])
      · exact hcf a e hfe i hi) h1
  rw [Vec.eq, beq_iff_eq, Vec.len_zero_iff (Vec.noZero_sub hf0)]
  intro k
  rw [Vec.get_sub]
  have := DFunLike.congr_fun h2 k
  rwa [Finsupp.sub_apply, Vec.den_apply, Vec.den_apply, Finsupp.zero_apply] at this

/-- C28 finding: without the condition on the coefficients injectivity fails: `m[1]` in one variable and
`x_1 * m[]` are different and have the same `polynomial()`. -/
theorem C28_injective_needs_free :
    IsSym 1 (ofMono 1 [1]) ∧ IsSym 1 (ofMono 1 [] (PolyVal.mk (Poly.x 1))) ∧
      polynomial Poly.x 1 (ofMono 1 [1]) = polynomial Poly.x 1 (ofMono 1 [] (PolyVal.mk (Poly.x 1))) ∧
      Vec.eq (ofMono 1 [1]) (ofMono 1 [] (PolyVal.mk (Poly.x 1))) = false := by
  refine ⟨isSym_ofMono ⟨by decide, by decide⟩ (by decide) _, isSym_ofMono ⟨by decide, by decide⟩ (by decide) _, ?_, ?_⟩
  · have h1 : IsPartition [1] := ⟨by decide, by decide⟩
    have h0 : IsPartition [] := ⟨by decide, by decide⟩
    rw [polynomial_ofMono Poly.x h1 (by decide), polynomial_ofMono Poly.x h0 (by decide)]
    apply PolyVal.den_injective
    rw [PolyVal.den_mul, PolyVal.den_mul, PolyVal.den_mk, PolyVal.den_mk, PolyVal.den_mk, den_monoPoly Poly.x 1 h1,
      den_monoPoly Poly.x 1 h0]
    have e1 : destandardize 1 [1] = [[1]] := by decide
    have e0 : destandardize 1 [] = [[0]] := by decide
    simp [msum, e1, e0, xm]
  · decide +kernel

/-- `m[1] * m[1] = m[2] + 2 m[1, 1]` in two variables. -/
example : IsPartition [1] ∧ (multiply 2 [1] [1]).items = [([1, 1], 2), ([2], 1)] ∨
    (multiply 2 [1] [1]).items = [([2], 1), ([1, 1], 2)] := by
  refine Or.inl ⟨⟨by decide, by decide⟩, by decide +kernel⟩

example : HasExponents 3 [2, 1] (Finsupp.single 1 1 + Finsupp.single 3 2) := by
  rw [hasExponents_iff 3 ⟨by decide, by decide⟩]
  refine ⟨[1, 0, 2], by decide, ?_⟩
  simp [expoV]

example : FreeOf 2 (Poly.beta).den := by
  intro e he i _
  have h : Poly.beta.den = Laurent.xpow 0 1 := Poly.den_monomial 0 1
  rw [h, Laurent.xpow, AddMonoidAlgebra.coeff_single, Finsupp.single_apply] at he
  split at he
  · rename_i h; subst h
    rw [Finsupp.single_apply, if_neg (by omega)]
  · exact absurd rfl he

/-! ## C29 -/

theorem xm_wt_x (n : Nat) (T : Tab) : xm (xden Poly.x) 1 (wt n T) =
    ∏ i ∈ Finset.range n, Laurent.xpow ((i : ℤ) + 1) ((T.items.flatMap Prod.snd).count ((i : Int) + 1) : Nat) := by
  rw [xm_wt]
  refine Finset.prod_congr rfl (fun i _ => ?_)
  rw [den_x, AddMonoidAlgebra.single_pow, Laurent.xpow]
  congr 1
  · simp [Tab.entries]
  · simp

/-- C29: `schur` does not raise, and it is the generating function of the semistandard tableaux (C24 says which
those are). -/
theorem C29_schur (n : Nat) {mu nu : List Nat} (hm : IsPartition mu) (hn : IsPartition nu) :
    ∃ f, schur n mu nu = some f ∧ IsSym n f ∧ (polynomial Poly.x n f).den =
      ∑ T ∈ semistandard false nu n mu, ∏ i ∈ Finset.range n,
        Laurent.xpow ((i : ℤ) + 1) ((T.items.flatMap Prod.snd).count ((i : Int) + 1) : Nat) := by
  obtain ⟨f, h1, h2, _, _, h5⟩ := vectorize_tableaux Poly.x false n hm hn none none
  refine ⟨f, h1, h2, ?_⟩
  rw [h5, Finset.filter_true_of_mem (fun T _ b hb => by simp at hb)]
  refine Finset.sum_congr rfl (fun T _ => ?_)
  rw [signFactor, PolyVal.den_one, one_mul, xm_wt_x]

/-- C29 (symmetry): the number of tableaux with given content does not change when the content is permuted; for
semistandard (`sv = false`) and set-valued (`sv = true`) tableaux. -/
theorem C29_symmetric (sv : Bool) {n : Nat} {mu nu : List Nat} (hm : IsPartition mu) (hn : IsPartition nu)
    {alpha alpha' : List Nat} (h : alpha.Perm alpha') (hlen : alpha.length = n) :
    ((semistandard sv nu n mu).filter (fun T => ∀ i < n,
        (T.items.flatMap Prod.snd).count ((i : Int) + 1) = alpha.getD i 0)).card =
    ((semistandard sv nu n mu).filter (fun T => ∀ i < n,
        (T.items.flatMap Prod.snd).count ((i : Int) + 1) = alpha'.getD i 0)).card := by
  have := tabCount_perm (sv := sv) hn hm h [] (by simpa using hlen)
  simp only [List.nil_append, tabCount] at this
  exact_mod_cast this

example : IsPartition [2, 1] ∧ IsPartition [1] ∧ (schur 2 [2, 1] [1]).isSome := by
  refine ⟨⟨by decide, by decide⟩, ⟨by decide, by decide⟩, by decide +kernel⟩

/-! ## C30 -/

/-- C30: `stable_grothendieck` (without degree bound) does not raise, and it is the generating function of the
set-valued tableaux; a tableau with `|T|` entries in `b` boxes has the factor `beta^(|T| - b)`. -/
theorem C30_stable_grothendieck (n : Nat) {mu nu : List Nat} (hm : IsPartition mu) (hn : IsPartition nu) :
    ∃ f, stableGrothendieck n mu nu none = some f ∧ IsSym n f ∧ (polynomial Poly.x n f).den =
      ∑ T ∈ semistandard true nu n mu,
        Laurent.xpow 0 (((T.items.flatMap Prod.snd).length : ℤ) - T.items.length) * ∏ i ∈ Finset.range n,
          Laurent.xpow ((i : ℤ) + 1) ((T.items.flatMap Prod.snd).count ((i : Int) + 1) : Nat) := by
  obtain ⟨f, h1, h2, _, _, h5⟩ := stableGrothendieck_spec Poly.x n hm hn none
  refine ⟨f, h1, h2, ?_⟩
  rw [h5, Finset.filter_true_of_mem (fun T _ b hb => by simp at hb)]
  exact Finset.sum_congr rfl (fun T _ => by rw [xm_wt_x]; rfl)

/-- C30: the number of boxes is `|mu| - |nu|`. -/
theorem C30_boxes (sv : Bool) (n : Nat) {mu nu : List Nat} (hm : IsPartition mu) (hn : IsPartition nu) :
    ∀ T ∈ semistandard sv nu n mu, (T.items.length : Int) = (mu.sum : Int) - nu.sum := by
  intro T hT
  have := (mem_semistandard hn n hm T).1 hT
  exact boxes_length this.2 this.1

example : IsPartition [2] ∧ IsPartition [] ∧ (stableGrothendieck 2 [2] [] none).isSome ∧
    (stableGrothendieck 2 [2] [] (some 2)).isSome := by
  refine ⟨⟨by decide, by decide⟩, ⟨by decide, by decide⟩, by decide +kernel, by decide +kernel⟩

/-! ## C31 -/

theorem get_truncate (n : Nat) (f : SymPoly) (d : Int) (k : List Nat) :
    (truncate n f d).get k = if (k.sum : Int) ≤ d then f.get k else 0 := by
  rw [truncate, mkSym, Vec.get_mk', getD_filter]
  simp only [decide_eq_true_eq]
  rfl

theorem isSym_truncate {n : Nat} {f : SymPoly} (hf : IsSym n f) (d : Int) : IsSym n (truncate n f d) := by
  refine isSym_mkSym (fun k hk => hf.keys k ?_)
  simp only [Dict.keys, Dict.filter, List.mem_map, List.mem_filter] at hk ⊢
  obtain ⟨p, ⟨hp, _⟩, rfl⟩ := hk
  exact ⟨p, hp, rfl⟩

theorem vec_eq_of_get {f g : SymPoly} (hf : Vec.NoZero f) (h : ∀ k, f.get k = g.get k) : Vec.eq f g = true := by
  rw [Vec.eq, beq_iff_eq, Vec.len_zero_iff (Vec.noZero_sub hf)]
  intro k
  rw [Vec.get_sub, h k, sub_self]

/-- C31: with `degree_bound=d` the result is (`==`) the truncation of the result without a bound. -/
theorem C31_degree_bound (n : Nat) {mu nu : List Nat} (hm : IsPartition mu) (hn : IsPartition nu) (d : Int) :
    ∃ f g, stableGrothendieck n mu nu none = some f ∧ stableGrothendieck n mu nu (some d) = some g ∧
      Vec.eq g (truncate n f d) = true := by
  obtain ⟨f, h1, -, -, -, -⟩ := stableGrothendieck_spec Poly.x n hm hn none
  obtain ⟨g, h1', -, h3', -, -⟩ := stableGrothendieck_spec Poly.x n hm hn (some d)
  refine ⟨f, g, h1, h1', ?_⟩
  obtain ⟨f0, e1, -, -, e4, -⟩ := vectorize_tableaux Poly.x true n hm hn (some (PolyVal.mk Poly.beta)) none
  obtain ⟨g0, e1', -, -, e4', -⟩ := vectorize_tableaux Poly.x true n hm hn (some (PolyVal.mk Poly.beta)) (some d)
  obtain ⟨r, hr, -⟩ := pow_beta ((nu.sum : Int) - mu.sum)
  rw [stableGrothendieck, e1, hr] at h1
  rw [stableGrothendieck, e1', hr] at h1'
  have h1 := Option.some.inj h1
  have h1' := Option.some.inj h1'
  refine vec_eq_of_get h3' (fun k => ?_)
  rw [get_truncate, ← h1, ← h1', Vec.get_smul, Vec.get_smul, e4, e4',
    if_pos (show within none k.sum from fun b hb => by simp at hb)]
  by_cases hk : (k.sum : Int) ≤ d
  · rw [if_pos (show within (some d) k.sum from fun b hb => by cases hb; exact hk), if_pos hk]
  · rw [if_neg (fun h : within (some d) k.sum => hk (h d rfl)), if_neg hk, zero_mul]

/-- C31: truncation at `d` keeps exactly the terms of degree at most `d` in `x_1, ..., x_n`. -/
theorem C31_truncate {n : Nat} {f : SymPoly} (hf : IsSym n f) (hc : ∀ mu, FreeOf n (f.get mu).den) (d : Int)
    (e : ℤ →₀ ℤ) :
    (polynomial Poly.x n (truncate n f d)).den.coeff e =
      if xDegree n e ≤ d then (polynomial Poly.x n f).den.coeff e else 0 := by
  classical
  rw [den_polynomial Poly.x n (fun k hk => (hf.keys k hk).1),
    den_polynomial Poly.x n (fun k hk => ((isSym_truncate hf d).keys k hk).1)]
  have hsub : (truncate n f d).den.support ⊆ f.den.support := by
    intro k hk
    rw [Finsupp.mem_support_iff, Vec.den_apply, get_truncate] at hk
    rw [Finsupp.mem_support_iff, Vec.den_apply]
    intro h
    apply hk
    rw [h]; simp
  rw [phi, phi, Finsupp.sum, Finsupp.sum, AddMonoidAlgebra.coeff_sum, AddMonoidAlgebra.coeff_sum,
    Finsupp.finsetSum_apply, Finsupp.finsetSum_apply, Finset.sum_subset hsub]
  · have hterm : ∀ k ∈ f.den.support, (msum (xden Poly.x) n k * ((truncate n f d).den k).den).coeff e =
        if xDegree n e ≤ d then (msum (xden Poly.x) n k * (f.den k).den).coeff e else 0 := by
      intro k hk
      have hkp := (den_support hf k (Finsupp.mem_support_iff.1 hk)).1
      rw [Vec.den_apply, Vec.den_apply, get_truncate]
      by_cases h0 : (msum (xden Poly.x) n k * (f.get k).den).coeff e = 0
      · split <;> simp [h0]
      · rw [← coeff_msum_degree n hkp (hc k) h0]
        split <;> simp
    rw [Finset.sum_congr rfl hterm]
    split <;> simp
  · intro k _ hk
    rw [Finsupp.notMem_support_iff.1 hk]; simp

/-- C31: the coefficients of `stable_grothendieck` only involve beta, so `C31_truncate` and `C28_injective` apply. -/
theorem C31_coefficients (n : Nat) {mu nu : List Nat} (hm : IsPartition mu) (hn : IsPartition nu) (bound : Option Int)
    {f : SymPoly} (hf : stableGrothendieck n mu nu bound = some f) :
    IsSym n f ∧ Vec.NoZero f ∧ ∀ k, FreeOf n (f.get k).den := by
  obtain ⟨f', h1, h2, h3, ⟨b, hb, h4⟩, -⟩ := stableGrothendieck_spec Poly.x n hm hn bound
  rw [h1] at hf
  obtain rfl := Option.some.inj hf
  refine ⟨h2, h3, fun k e he i _ => ?_⟩
  rw [h4] at he
  split at he
  · rw [PolyVal.den_mul, PolyVal.den_mul, hb, signFactor_beta, PolyVal.den_intCast, ← zsmul_eq_mul, Laurent.xpow,
      Laurent.xpow, smul_mul_assoc, AddMonoidAlgebra.single_mul_single, AddMonoidAlgebra.coeff_smul,
      AddMonoidAlgebra.coeff_single, Finsupp.smul_apply, Finsupp.single_apply] at he
    split at he
    · rename_i h
      rw [← h, ← Finsupp.single_add, Finsupp.single_apply, if_neg (by omega)]
    · simp at he
  · simp at he

/-- C31: truncating twice is truncating at the smaller bound. -/
theorem C31_truncate_twice (n : Nat) (f : SymPoly) (d d' : Int) :
    Vec.eq (truncate n (truncate n f d) d') (truncate n f (min d d')) = true := by
  refine vec_eq_of_get (Vec.noZero_mk' _ _) (fun k => ?_)
  rw [get_truncate, get_truncate, get_truncate]
  by_cases h1 : (k.sum : Int) ≤ d <;> by_cases h2 : (k.sum : Int) ≤ d'
  · rw [if_pos h2, if_pos h1, if_pos (by omega)]
  · rw [if_neg h2, if_neg (by omega)]
  · rw [if_pos h2, if_neg h1, if_neg (by omega)]
  · rw [if_neg h2, if_neg (by omega)]

end Verif.Symm
