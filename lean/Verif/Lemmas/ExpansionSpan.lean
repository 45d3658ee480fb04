import Verif.Lemmas.ExpansionBases

/-! `_expansion` on the span of a triangular family whose leading coefficients are nonzero integers. -/

attribute [-simp] List.getD_eq_getElem?_getD

namespace Verif

namespace PolyVal

theorem den_intCast_ne {c : ℤ} (hc : c ≠ 0) {a : PolyVal} (ha : a ≠ 0) : (c : PolyVal) * a ≠ 0 := by
  intro h
  have h1 : (c : Laurent) * a.den = 0 := by rw [← den_intCast, ← den_mul, h, den_zero]
  apply ha
  apply den_injective
  rw [den_zero]
  rw [← zsmul_eq_mul] at h1
  ext e
  have h2 := congrArg (fun z : Laurent => z.coeff e) h1
  simp only [AddMonoidAlgebra.coeff_smul, Finsupp.smul_apply, AddMonoidAlgebra.coeff_zero, Finsupp.coe_zero,
    Pi.zero_apply, smul_eq_mul, mul_eq_zero] at h2
  exact h2.resolve_left hc

theorem coeff_intCast_mul (c : ℤ) (a : PolyVal) (e : ℤ →₀ ℤ) : ((c : PolyVal) * a).den.coeff e = c * a.den.coeff e := by
  rw [den_mul, den_intCast, ← zsmul_eq_mul, AddMonoidAlgebra.coeff_smul, Finsupp.smul_apply, smul_eq_mul]

theorem coeff_mk_intCast (c : ℤ) {p : Poly} (h : (c : PolyVal) = mk p) (m : Mono) :
    Poly.coeff p m = if m.expo = 0 then c else 0 := by
  have h1 : p.den = (c : Laurent) := by
    have := congrArg den h
    rw [den_intCast, den_mk] at this
    exact this.symm
  rw [← Poly.den_coeff, h1, show (c : Laurent) = AddMonoidAlgebra.single 0 c by
    rw [← zsmul_one, AddMonoidAlgebra.one_def, AddMonoidAlgebra.smul_single]; simp, AddMonoidAlgebra.coeff_single,
    Finsupp.single_apply]
  by_cases hm : m.expo = 0
  · rw [if_pos hm, if_pos hm.symm]
  · rw [if_neg hm, if_neg (fun h => hm h.symm)]

theorem mod_intCast (c d : ℤ) (hd : d ≠ 0) : (((c * d : ℤ)) : PolyVal).mod d = some 0 := by
  obtain ⟨p, hp⟩ : ∃ p, ((c * d : ℤ) : PolyVal) = mk p := by
    obtain ⟨p, hp⟩ := Quotient.exists_rep ((c * d : ℤ) : PolyVal)
    exact ⟨p, hp.symm⟩
  rw [hp]
  show (Poly.mod (Poly.clean p) d).map mk = some 0
  rw [Poly.mod, if_neg (by simp [hd]), Option.map_some]
  congr 1
  refine mk_eq.2 (Poly.den_eq_iff.2 (fun m => ?_))
  rw [Poly.coeff_mapVal_filter _ (fun v => v.fmod d) (by simp), Poly.coeff_clean, coeff_mk_intCast _ hp]
  rw [← Poly.den_coeff, Poly.den_zero]
  split
  · simp
  · simp

theorem floordiv_intCast (c d : ℤ) (hd : d ≠ 0) : (((c * d : ℤ)) : PolyVal).floordiv d = some (c : PolyVal) := by
  obtain ⟨p, hp⟩ : ∃ p, ((c * d : ℤ) : PolyVal) = mk p := by
    obtain ⟨p, hp⟩ := Quotient.exists_rep ((c * d : ℤ) : PolyVal)
    exact ⟨p, hp.symm⟩
  obtain ⟨q, hq⟩ : ∃ p, (c : PolyVal) = mk p := by
    obtain ⟨p, hp⟩ := Quotient.exists_rep (c : PolyVal)
    exact ⟨p, hp.symm⟩
  rw [hp, hq]
  show (Poly.floordiv (Poly.clean p) d).map mk = some (mk q)
  rw [Poly.floordiv, if_neg (by simp [hd]), Option.map_some]
  congr 1
  refine mk_eq.2 (Poly.den_eq_iff.2 (fun m => ?_))
  rw [Poly.coeff_mapVal_filter _ (fun v => v.fdiv d) (by simp), Poly.coeff_clean, coeff_mk_intCast _ hp, coeff_mk_intCast _ hq]
  split
  · exact Int.mul_fdiv_cancel _ hd
  · simp

theorem constantTerm_intCast (c : ℤ) : (c : PolyVal).constantTerm = c := by
  obtain ⟨p, hp⟩ : ∃ p, (c : PolyVal) = mk p := by
    obtain ⟨p, hp⟩ := Quotient.exists_rep (c : PolyVal)
    exact ⟨p, hp.symm⟩
  rw [hp]
  show Poly.constantTerm p = c
  rw [Poly.constantTerm, coeff_mk_intCast _ hp, if_pos Mono.expo_one]

theorem isInteger_intCast (c : ℤ) : (c : PolyVal).isInteger = true := by
  rw [isInteger, constantTerm_intCast]
  simp

end PolyVal

namespace Symm

open Verif.Part Partition

/-- A family of symmetric polynomials, for the indices in `A`, with leading term `lead mu` at `mu`. -/
structure TriangularOn (n : Nat) (A : List Nat → Prop) (lead : List Nat → ℤ) (function : List Nat → Option SymPoly)
    (before : List Nat → List Nat → Prop) : Prop where
  trans : ∀ {a b c}, before a b → before b c → before a c
  irrefl : ∀ a, ¬ before a a
  family : ∀ mu, A mu → lead mu ≠ 0 ∧ ∃ g, function mu = some g ∧ IsSym n g ∧ g.get mu = (lead mu : PolyVal) ∧
    (∀ k, BetaOnly (g.get k).den) ∧ ∀ k, g.get k ≠ 0 → k ≠ mu → before mu k

variable {n : Nat} {A : List Nat → Prop} {lead : List Nat → ℤ} {function : List Nat → Option SymPoly}
  {bef : List Nat → List Nat → Prop}

theorem TriangularOn.fden_apply (ht : TriangularOn n A lead function bef) {mu : List Nat} (h : A mu) :
    fden function mu mu = (lead mu : PolyVal) ∧ ∀ k, fden function mu k ≠ 0 → k ≠ mu → bef mu k := by
  obtain ⟨_, g, e1, _, e3, _, e5⟩ := ht.family mu h
  rw [fden, e1, Option.map_some, Option.getD_some]
  exact ⟨by rw [Vec.den_apply, e3], fun k hk => e5 k (by rwa [Vec.den_apply] at hk)⟩

/-- The coefficient of a minimal index. -/
theorem TriangularOn.combine_min (ht : TriangularOn n A lead function bef) {u : List Nat →₀ PolyVal}
    (hu : ∀ k, u k ≠ 0 → A k) {t : List Nat} (htu : u t ≠ 0) (hmin : ∀ k, u k ≠ 0 → ¬ bef k t) :
    combine function u t = (lead t : PolyVal) * u t := by
  rw [combine, Finsupp.sum, Finsupp.finsetSum_apply, Finset.sum_eq_single t]
  · rw [Finsupp.smul_apply, (ht.fden_apply (hu t htu)).1, smul_eq_mul, mul_comm]
  · intro mu hmu hne
    rw [Finsupp.mem_support_iff] at hmu
    rw [Finsupp.smul_apply]
    by_contra hc
    have h1 : fden function mu t ≠ 0 := right_ne_zero_of_mul hc
    exact hmin mu hmu ((ht.fden_apply (hu mu hmu)).2 t h1 (fun h => hne h.symm))
  · intro h
    rw [Finsupp.notMem_support_iff] at h
    exact absurd h htu

theorem TriangularOn.exists_min (ht : TriangularOn n A lead function bef) {u : List Nat →₀ PolyVal} (h0 : u ≠ 0) :
    ∃ t, u t ≠ 0 ∧ ∀ k, u k ≠ 0 → ¬ bef k t := by
  classical
  have key : ∀ s : Finset (List Nat), s.Nonempty → ∃ t ∈ s, ∀ k ∈ s, ¬ bef k t := by
    intro s hs
    induction s using Finset.strongInduction with
    | _ s ih =>
    obtain ⟨a, ha⟩ := hs
    by_cases h : (s.filter (fun k => bef k a)).Nonempty
    · obtain ⟨t, h1, h2⟩ := ih _ (by
        rw [Finset.ssubset_iff_of_subset (Finset.filter_subset _ _)]
        exact ⟨a, ha, fun h => ht.irrefl a (Finset.mem_filter.1 h).2⟩) h
      rw [Finset.mem_filter] at h1
      exact ⟨t, h1.1, fun k hk hb => h2 k (Finset.mem_filter.2 ⟨hk, ht.trans hb h1.2⟩) hb⟩
    · exact ⟨a, ha, fun k hk hb => h ⟨k, Finset.mem_filter.2 ⟨hk, hb⟩⟩⟩
  obtain ⟨t, h1, h2⟩ := key u.support (Finsupp.support_nonempty_iff.2 h0)
  exact ⟨t, Finsupp.mem_support_iff.1 h1, fun k hk => h2 k (Finsupp.mem_support_iff.2 hk)⟩

theorem TriangularOn.combine_ne_zero (ht : TriangularOn n A lead function bef) {u : List Nat →₀ PolyVal}
    (hu : ∀ k, u k ≠ 0 → A k) (h0 : u ≠ 0) : combine function u ≠ 0 := by
  obtain ⟨t, h1, h2⟩ := ht.exists_min h0
  intro h
  have := ht.combine_min hu h1 h2
  rw [h, Finsupp.zero_apply] at this
  exact PolyVal.den_intCast_ne (ht.family t (hu t h1)).1 h1 this.symm

/-- The number of terms of the coefficients. -/
noncomputable def termCount (u : List Nat →₀ PolyVal) : Nat := u.sum (fun _ c => c.den.coeff.support.card)

theorem termCount_sub {u : List Nat →₀ PolyVal} {t : List Nat} {d c : ℤ} (hc : c ≠ 0)
    (h : (u t).den.coeff (Finsupp.single 0 d) = c) {q : PolyVal} (hq : q.den = c * Laurent.xpow 0 d) :
    termCount (u - Finsupp.single t q) < termCount u := by
  classical
  have ht : t ∈ u.support := by
    rw [Finsupp.mem_support_iff]
    intro h0
    rw [h0, PolyVal.den_zero] at h
    exact hc h.symm
  have hz : ∀ i, i ∉ u.support → ((u - Finsupp.single t q) i).den.coeff.support.card = 0 := by
    intro i hi
    have : i ≠ t := fun h => hi (h ▸ ht)
    rw [Finsupp.sub_apply, Finsupp.single_apply, if_neg (fun h => this h.symm), Finsupp.notMem_support_iff.1 hi]
    simp
  have hsub : (u - Finsupp.single t q).support ⊆ u.support := by
    intro i hi
    by_contra hc
    have hit : i ≠ t := fun h => hc (h ▸ ht)
    rw [Finsupp.mem_support_iff, Finsupp.sub_apply, Finsupp.single_apply, if_neg (fun h => hit h.symm),
      Finsupp.notMem_support_iff.1 hc] at hi
    simp at hi
  rw [termCount, termCount, Finsupp.sum_of_support_subset _ hsub _ (by simp), Finsupp.sum]
  refine Finset.sum_lt_sum (fun i hi => ?_) ⟨t, ht, ?_⟩
  · by_cases hit : t = i
    · subst hit
      rw [Finsupp.sub_apply, Finsupp.single_eq_same, PolyVal.den_sub, hq]
      exact (card_sub_term _ d c hc h).le
    · rw [Finsupp.sub_apply, Finsupp.single_apply, if_neg hit, sub_zero]
  · rw [Finsupp.sub_apply, Finsupp.single_eq_same, PolyVal.den_sub, hq]
    exact card_sub_term _ d c hc h

/-- `_expansion` on the span of the family. -/
theorem span_expansion (ht : TriangularOn n A lead function bef) {getTerm : SymPoly → Option (List Nat)}
    (hg : FindsFirst n getTerm bef) (u : List Nat →₀ PolyVal) (hu : ∀ k, u k ≠ 0 → A k)
    (hub : ∀ k, BetaOnly (u k).den) (f : SymPoly) (hf : IsSym n f) (hz : Vec.NoZero f)
    (h : f.den = combine function u) :
    ∃ N ans, (∀ fuel ≥ N, expansion function getTerm fuel f = some ans) ∧ ans.den = u ∧ Vec.NoZero ans := by
  classical
  induction hm : termCount u using Nat.strong_induction_on generalizing u f with
  | _ m ih =>
  subst hm
  by_cases hlen : f.len = 0
  · refine ⟨1, Vec.mk' Dict.empty none, fun fuel hfuel => ?_, ?_, Vec.noZero_mk' _ _⟩
    · obtain ⟨fuel, rfl⟩ : ∃ k, fuel = k + 1 := ⟨fuel - 1, by omega⟩
      rw [expansion, if_pos hlen]
    · have h0 : u = 0 := by
        by_contra hne
        refine ht.combine_ne_zero hu hne ?_
        rw [← h]
        ext k
        rw [Vec.den_apply, Vec.get_of_len_zero hlen, Finsupp.zero_apply]
      rw [h0]
      simp [Vec.den, Vec.mk', Dict.filter, Dict.empty, FreeMod.ofTerms]
  have hne : u ≠ 0 := by
    intro h0
    apply hlen
    rw [Vec.len_zero_iff hz]
    intro k
    rw [← Vec.den_apply, h, h0]
    simp [combine]
  obtain ⟨t, ht1, ht2, ht3⟩ := hg f hf hz hlen
  -- the first term of `f` is the first index of `u`
  obtain ⟨t0, h01, h02⟩ := ht.exists_min hne
  have hft0 : f.get t0 = (lead t0 : PolyVal) * u t0 := by rw [← Vec.den_apply, h, ht.combine_min hu h01 h02]
  have htt : t = t0 := by
    by_contra hne
    have hb : bef t t0 := ht3 t0 (by
      rw [hft0]; exact PolyVal.den_intCast_ne (ht.family t0 (hu t0 h01)).1 h01) (fun h => hne h.symm)
    have h1 : combine function u t ≠ 0 := by rw [← h, Vec.den_apply]; exact ht2
    rw [combine, Finsupp.sum, Finsupp.finsetSum_apply] at h1
    obtain ⟨mu, hmu, h2⟩ := Finset.exists_ne_zero_of_sum_ne_zero h1
    rw [Finsupp.mem_support_iff] at hmu
    rw [Finsupp.smul_apply] at h2
    by_cases hmt : t = mu
    · subst hmt; exact h02 t hmu hb
    · exact h02 mu hmu (ht.trans ((ht.fden_apply (hu mu hmu)).2 t (right_ne_zero_of_mul h2) hmt) hb)
  subst htt
  obtain ⟨hlead, g, hg1, hg2, hg3, hg4, hg5⟩ := ht.family t (hu t h01)
  have hfb : BetaOnly (f.get t).den := by
    rw [hft0, PolyVal.den_mul, PolyVal.den_intCast]
    exact betaOnly_mul (betaOnly_int _) (hub t)
  obtain ⟨d, c', hd1, hc', hd2, hd3⟩ := PolyVal.top_term ht2 hfb
  obtain ⟨c, rfl⟩ : ∃ c, c' = c * lead t := by
    rw [hft0, PolyVal.coeff_intCast_mul] at hd3
    exact ⟨_, by rw [← hd3, mul_comm]⟩
  have hc : c ≠ 0 := left_ne_zero_of_mul hc'
  have huc : (u t).den.coeff (Finsupp.single 0 d) = c := by
    rw [hft0, PolyVal.coeff_intCast_mul, mul_comm] at hd3
    exact mul_right_cancel₀ hlead hd3
  obtain ⟨b, hb1, hb2⟩ := pow_beta d
  have hfd : fden function t = g.den := by rw [fden, hg1]; rfl
  obtain ⟨q, hq⟩ : ∃ q : PolyVal, (c : PolyVal) * PolyVal.mk b = q := ⟨_, rfl⟩
  have hqd : q.den = c * Laurent.xpow 0 d := by
    rw [← hq, PolyVal.den_mul, PolyVal.den_mk, hb2, PolyVal.den_intCast]
  have hqb : BetaOnly q.den := by rw [hqd]; exact betaOnly_mul (betaOnly_int c) (betaOnly_xpow d)
  obtain ⟨f', hf'⟩ : ∃ f', Vec.sub f (Vec.smul g q) = f' := ⟨_, rfl⟩
  have hget : ∀ k, f'.get k = f.get k - g.get k * q := by
    intro k; rw [← hf', Vec.get_sub, Vec.get_smul]
  have hsym' : IsSym n f' := by rw [← hf']; exact isSym_sub hf (isSym_smul hg2 q)
  have hz' : Vec.NoZero f' := by rw [← hf']; exact Vec.noZero_sub hz
  have hu' : ∀ k, (u - Finsupp.single t q) k ≠ 0 → A k := by
    intro k hk
    by_cases hkt : t = k
    · subst hkt; exact hu t h01
    · rw [Finsupp.sub_apply, Finsupp.single_apply, if_neg hkt, sub_zero] at hk
      exact hu k hk
  have hub' : ∀ k, BetaOnly ((u - Finsupp.single t q) k).den := by
    intro k
    rw [Finsupp.sub_apply, PolyVal.den_sub, Finsupp.single_apply]
    refine betaOnly_sub (hub k) ?_
    split
    · exact hqb
    · rw [PolyVal.den_zero]; exact betaOnly_zero
  have hden' : f'.den = combine function (u - Finsupp.single t q) := by
    have h1 := combine_add function (u - Finsupp.single t q) (Finsupp.single t q)
    rw [sub_add_cancel, combine_single, hfd] at h1
    ext k
    have h2 := congrArg (fun v : List Nat →₀ PolyVal => v k) (h.trans h1)
    simp only [Finsupp.add_apply, Finsupp.smul_apply, smul_eq_mul, Vec.den_apply] at h2
    rw [Vec.den_apply, hget, h2]
    ring
  obtain ⟨N, ans, h1, h2, h3⟩ := ih _ (termCount_sub hc huc hqd) (u - Finsupp.single t q) hu' hub' f' hsym' hz' hden' rfl
  obtain ⟨res, hres⟩ : ∃ r, Vec.add ans (Vec.mk' (Dict.empty.set t q) none) = r := ⟨_, rfl⟩
  have hrget : ∀ k, res.get k = ans.get k + if t = k then q else 0 := by
    intro k
    rw [← hres, Vec.get_add, Vec.get_mk', Dict.getD_set, Dict.getD_empty]
  have hrden : res.den = u := by
    ext k
    rw [Vec.den_apply, hrget, ← Vec.den_apply, h2, Finsupp.sub_apply, Finsupp.single_apply]
    ring
  have hrz : Vec.NoZero res := by rw [← hres]; exact Vec.noZero_add h3
  have hrc : recombines function f res = some true := by
    refine recombines_spec function hz hlen (fun mu hmu => ?_) (by rw [hrden, h])
    rw [Vec.mem_keys_iff hrz, ← Vec.den_apply, hrden] at hmu
    obtain ⟨_, g', e1, _⟩ := ht.family mu (hu mu hmu)
    exact ⟨g', e1⟩
  refine ⟨N + 1, res, fun fuel hfuel => ?_, hrden, hrz⟩
  obtain ⟨fuel, rfl⟩ : ∃ k, fuel = k + 1 := ⟨fuel - 1, by omega⟩
  rw [expansion, if_neg hlen, ht1, Option.bind_eq_bind, Option.bind_some, hg1, Option.bind_eq_bind, Option.bind_some,
    hd1, Option.bind_eq_bind, Option.bind_some, hg3, PolyVal.isInteger_intCast, PolyVal.constantTerm_intCast, hd2]
  simp only [if_true, PolyVal.mod_intCast _ _ hlead, PolyVal.floordiv_intCast _ _ hlead, hb1, Option.bind_eq_bind,
    Option.bind_some, hq, hf', h1 fuel (by omega), hres, hrc]

/-- The same for a polynomial that is a combination of the polynomials of the family. -/
theorem span_expansion_polynomial (ht : TriangularOn n A lead function bef) {getTerm : SymPoly → Option (List Nat)}
    (hg : FindsFirst n getTerm bef) (F : List Nat → Laurent)
    (hF : ∀ mu, A mu → phi (xden Poly.x) n (fden function mu) = F mu)
    (u : List Nat →₀ PolyVal) (hu : ∀ k, u k ≠ 0 → A k)
    (hub : ∀ k, BetaOnly (u k).den) (f : SymPoly) (hf : IsSym n f) (hz : Vec.NoZero f) (hb : ∀ k, BetaOnly (f.get k).den)
    (h : (polynomial Poly.x n f).den = ∑ mu ∈ u.support, (u mu).den * F mu) :
    ∃ N ans, (∀ fuel ≥ N, expansion function getTerm fuel f = some ans) ∧ ans.den = u ∧ Vec.NoZero ans := by
  refine span_expansion ht hg u hu hub f hf hz ?_
  have hsupp : ∀ k, combine function u k ≠ 0 → IsPartition k ∧ k.length ≤ n := by
    intro k hk
    rw [combine, Finsupp.sum, Finsupp.finsetSum_apply] at hk
    obtain ⟨mu, hmu, h⟩ := Finset.exists_ne_zero_of_sum_ne_zero hk
    obtain ⟨_, g, e1, e2, _, _, _⟩ := ht.family mu (hu mu (Finsupp.mem_support_iff.1 hmu))
    rw [Finsupp.smul_apply, smul_eq_mul, fden, e1, Option.map_some, Option.getD_some] at h
    exact den_support e2 k (right_ne_zero_of_mul h)
  have hbeta : ∀ k, BetaOnly (combine function u k).den := by
    intro k
    rw [combine, Finsupp.sum, Finsupp.finsetSum_apply, den_finsum]
    refine betaOnly_sum _ _ (fun mu hmu => ?_)
    obtain ⟨_, g, e1, _, _, e4, _⟩ := ht.family mu (hu mu (Finsupp.mem_support_iff.1 hmu))
    rw [Finsupp.smul_apply, smul_eq_mul, PolyVal.den_mul, fden, e1, Option.map_some, Option.getD_some, Vec.den_apply]
    exact betaOnly_mul (hub mu) (e4 k)
  rw [← sub_eq_zero]
  apply phi_injective n
  · intro a ha
    by_cases h1 : f.den a = 0
    · refine hsupp a (fun h2 => ha ?_)
      rw [Finsupp.sub_apply, h1, h2, sub_zero]
    · exact den_support hf a h1
  · intro a
    rw [Finsupp.sub_apply, PolyVal.den_sub, Vec.den_apply]
    exact freeOf_betaOnly (betaOnly_sub (hb a) (hbeta a))
  · have h3 : f.den - combine function u = f.den + (-1 : PolyVal) • combine function u := by
      rw [neg_one_smul, sub_eq_add_neg]
    rw [h3, phi_add, phi_smul, ← den_polynomial Poly.x n (fun k hk => (hf.keys k hk).1), h, phi_combine, Finsupp.sum]
    have h4 : ∑ mu ∈ u.support, (u mu).den * F mu =
        ∑ mu ∈ u.support, (u mu).den * phi (xden Poly.x) n (fden function mu) :=
      Finset.sum_congr rfl (fun mu hmu => by rw [hF mu (hu mu (Finsupp.mem_support_iff.1 hmu))])
    rw [h4]
    simp

/-- Whatever `_expansion` returns, recombines. -/
theorem span_expansion_sound (ht : TriangularOn n A lead function bef) {getTerm : SymPoly → Option (List Nat)}
    (hg : FindsFirst n getTerm bef) (hA : ∀ mu g, IsPartition mu → mu.length ≤ n → function mu = some g → A mu)
    (fuel : Nat) (f : SymPoly) (hf : IsSym n f) (hz : Vec.NoZero f) (hb : ∀ k, BetaOnly (f.get k).den)
    (ans : Vec (List Nat) PolyVal) (h : expansion function getTerm fuel f = some ans) :
    (∀ k, ans.den k ≠ 0 → A k) ∧ (∀ k, BetaOnly (ans.den k).den) ∧ f.den = combine function ans.den := by
  induction fuel generalizing f ans with
  | zero => simp [expansion] at h
  | succ fuel ih =>
  rw [expansion] at h
  by_cases hlen : f.len = 0
  · rw [if_pos hlen, Option.some_inj] at h
    have h0 : ans.den = 0 := by
      rw [← h]
      simp [Vec.den, Vec.mk', Dict.filter, Dict.empty, FreeMod.ofTerms]
    rw [h0]
    refine ⟨fun k hk => absurd rfl hk, fun k => ?_, ?_⟩
    · rw [Finsupp.zero_apply, PolyVal.den_zero]; exact betaOnly_zero
    · ext k
      rw [Vec.den_apply, Vec.get_of_len_zero hlen]
      simp [combine]
  obtain ⟨t, ht1, ht2, ht3⟩ := hg f hf hz hlen
  have htk : IsPartition t ∧ t.length ≤ n := den_support hf t (by rw [Vec.den_apply]; exact ht2)
  rw [if_neg hlen, ht1, Option.bind_eq_bind, Option.bind_some] at h
  cases hfun : function t with
  | none => rw [hfun] at h; simp at h
  | some g =>
  rw [hfun, Option.bind_eq_bind, Option.bind_some] at h
  have hAt := hA t g htk.1 htk.2 hfun
  obtain ⟨hlead, g', hg1, hg2, hg3, hg4, hg5⟩ := ht.family t hAt
  rw [hfun, Option.some_inj] at hg1
  subst hg1
  obtain ⟨d, c', hd1, hc', hd2, hd3⟩ := PolyVal.top_term ht2 (hb t)
  rw [hd1, Option.bind_eq_bind, Option.bind_some, hg3, PolyVal.isInteger_intCast, PolyVal.constantTerm_intCast, hd2] at h
  simp only [if_true] at h
  cases hmod : (c' : PolyVal).mod (lead t) with
  | none => rw [hmod] at h; simp at h
  | some r =>
  rw [hmod, Option.bind_eq_bind, Option.bind_some] at h
  by_cases hr : r = 0
  swap
  · rw [if_neg hr] at h; simp at h
  rw [if_pos hr] at h
  obtain ⟨q0, hq0⟩ : ∃ q0 : ℤ, (c' : PolyVal).floordiv (lead t) = some (q0 : PolyVal) := by
    obtain ⟨p, hp⟩ : ∃ p, (c' : PolyVal) = PolyVal.mk p := by
      obtain ⟨p, hp⟩ := Quotient.exists_rep (c' : PolyVal)
      exact ⟨p, hp.symm⟩
    refine ⟨c'.fdiv (lead t), ?_⟩
    obtain ⟨q, hq⟩ : ∃ p, ((c'.fdiv (lead t) : ℤ) : PolyVal) = PolyVal.mk p := by
      obtain ⟨p, hp⟩ := Quotient.exists_rep ((c'.fdiv (lead t) : ℤ) : PolyVal)
      exact ⟨p, hp.symm⟩
    rw [hp, hq]
    show (Poly.floordiv (Poly.clean p) (lead t)).map PolyVal.mk = some (PolyVal.mk q)
    rw [Poly.floordiv, if_neg (by simp [hlead]), Option.map_some]
    congr 1
    refine PolyVal.mk_eq.2 (Poly.den_eq_iff.2 (fun m => ?_))
    rw [Poly.coeff_mapVal_filter _ (fun v => v.fdiv (lead t)) (by simp), Poly.coeff_clean,
      PolyVal.coeff_mk_intCast _ hp, PolyVal.coeff_mk_intCast _ hq]
    split
    · rfl
    · simp
  obtain ⟨b, hb1, hb2⟩ := pow_beta d
  rw [hq0, Option.bind_eq_bind, Option.bind_some, hb1, Option.bind_eq_bind, Option.bind_some] at h
  obtain ⟨q, hq⟩ : ∃ q : PolyVal, (q0 : PolyVal) * PolyVal.mk b = q := ⟨_, rfl⟩
  rw [hq] at h
  have hqb : BetaOnly q.den := by
    rw [← hq, PolyVal.den_mul, PolyVal.den_mk, hb2, PolyVal.den_intCast]
    exact betaOnly_mul (betaOnly_int _) (betaOnly_xpow d)
  cases hrec : expansion function getTerm fuel (Vec.sub f (Vec.smul g q)) with
  | none => rw [hrec] at h; simp at h
  | some ans' =>
  rw [hrec, Option.bind_some] at h
  have hget : ∀ k, (Vec.sub f (Vec.smul g q)).get k = f.get k - g.get k * q := by
    intro k; rw [Vec.get_sub, Vec.get_smul]
  obtain ⟨h1, h2, h3⟩ := ih _ (isSym_sub hf (isSym_smul hg2 q)) (Vec.noZero_sub hz) (fun k => by
    rw [hget, PolyVal.den_sub, PolyVal.den_mul]
    exact betaOnly_sub (hb k) (betaOnly_mul (hg4 k) hqb)) ans' hrec
  have hans : ans = Vec.add ans' (Vec.mk' (Dict.empty.set t q) none) := by
    cases hrc : recombines function f (Vec.add ans' (Vec.mk' (Dict.empty.set t q) none)) with
    | none => rw [hrc] at h; simp at h
    | some ok =>
      rw [hrc, Option.bind_some] at h
      cases ok with
      | true => rw [if_pos rfl, Option.some_inj] at h; exact h.symm
      | false => simp at h
  have hden : ans.den = ans'.den + Finsupp.single t q := by
    ext k
    rw [hans, Vec.den_apply, Vec.get_add, Vec.get_mk', Dict.getD_set, Dict.getD_empty, Finsupp.add_apply, Vec.den_apply,
      Finsupp.single_apply]
  refine ⟨fun k hk => ?_, fun k => ?_, ?_⟩
  · by_cases hkt : t = k
    · subst hkt; exact hAt
    · rw [hden, Finsupp.add_apply, Finsupp.single_apply, if_neg hkt, add_zero] at hk
      exact h1 k hk
  · rw [hden, Finsupp.add_apply, Finsupp.single_apply, PolyVal.den_add]
    refine betaOnly_add (h2 k) ?_
    split
    · exact hqb
    · rw [PolyVal.den_zero]; exact betaOnly_zero
  · rw [hden, combine_add, combine_single, ← h3, fden, hfun, Option.map_some, Option.getD_some]
    ext k
    rw [Finsupp.add_apply, Finsupp.smul_apply, Vec.den_apply, Vec.den_apply, Vec.den_apply, hget, smul_eq_mul]
    ring_nf

end Symm
end Verif
