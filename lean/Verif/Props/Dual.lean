import Verif.Lemmas.DualFamily
import Verif.Props.Expansion

/-! # C49, C50: dual stable Grothendieck polynomials and expansions in them -/

namespace Verif.Symm

open Verif.Part Partition Tableaux

/-- The generating function of the reverse plane partitions of shape `mu/nu` with entries at most `n`: a letter gives a
factor `x_i` for every column that contains it, and every further box gives a factor `w`.  C47 says which tableaux
`semistandardRpp` lists and what `rppWeight` is. -/
noncomputable def rppSum (w : Laurent) (n : Nat) (mu nu : List Nat) : Laurent :=
  ∑ T ∈ semistandardRpp nu n mu,
    w ^ (T.items.length - (rppWeight n T).sum) * ∏ i ∈ Finset.range n,
      Laurent.xpow ((i : ℤ) + 1) ((rppWeight n T).getD i 0 : Nat)

theorem xm_rppWeight (n : Nat) {mu nu : List Nat} (hm : IsPartition mu) (hn : IsPartition nu) {T : Tab}
    (hT : T ∈ semistandardRpp nu n mu) : xm (xden Poly.x) 1 (rppWeight n T) = ∏ i ∈ Finset.range n,
      Laurent.xpow ((i : ℤ) + 1) ((rppWeight n T).getD i 0 : Nat) := by
  have hl := (C47_weight n hm hn hT).1
  rw [xm_eq_prod, hl]
  refine Finset.prod_congr rfl (fun i _ => ?_)
  rw [den_x, AddMonoidAlgebra.single_pow, Laurent.xpow]
  congr 1
  · simp [add_comm]
  · simp

/-- C49: `dual_stable_grothendieck(n, mu, nu)` raises no exception and is the generating function of reverse plane
partitions with `w = -β`. -/
theorem C49_dual_stable_grothendieck (n : Nat) {mu nu : List Nat} (hm : IsPartition mu) (hn : IsPartition nu) :
    ∃ f, dualStableGrothendieck n mu nu = some f ∧ IsSym n f ∧ Vec.NoZero f ∧
      (polynomial Poly.x n f).den = rppSum (-Laurent.xpow 0 1) n mu nu := by
  obtain ⟨f, h1, h2, h3, _, h5⟩ := dualStableGrothendieck_spec Poly.x n hm hn
  refine ⟨f, h1, h2, h3, ?_⟩
  rw [h5, rppSum]
  exact Finset.sum_congr rfl (fun T hT => by rw [xm_rppWeight n hm hn hT])

/-- C49: `mp_dual_stable_grothendieck(n, mu, nu)` is the same with `w = β`. -/
theorem C49_mp_dual_stable_grothendieck (n : Nat) {mu nu : List Nat} (hm : IsPartition mu) (hn : IsPartition nu) :
    ∃ f, mpDualStableGrothendieck n mu nu = some f ∧ IsSym n f ∧ Vec.NoZero f ∧
      (polynomial Poly.x n f).den = rppSum (Laurent.xpow 0 1) n mu nu := by
  obtain ⟨f, h1, h2, h3, h4⟩ := mpDual_spec n hm hn
  refine ⟨f, h1, h2, h3, ?_⟩
  rw [den_polynomial Poly.x n (fun k hk => (h2.keys k hk).1),
    phi_rpp hm hn (fun k => by rw [Vec.den_apply]; exact h4 k), rppSum, PolyVal.den_mk, den_beta]
  exact Finset.sum_congr rfl (fun T hT => by rw [xm_rppWeight n hm hn hT])

example : ((dualStableGrothendieck 2 [1, 1] []).map (fun f => f.dict.items)) =
    some [([1, 1], 1), ([1], -PolyVal.mk Poly.beta)] := by decide +kernel

/-- C49: the summand `nu ⊄ mu` is empty, so then the result is zero, although `(-BETA)**(sum(mu) - sum(nu))` may have a
negative exponent. -/
theorem C49_not_contained (n : Nat) {mu nu : List Nat} (hm : IsPartition mu) (hn : IsPartition nu)
    (h : ¬ Diagram nu ⊆ Diagram mu) (w : Laurent) : rppSum w n mu nu = 0 := by
  rw [rppSum]
  refine Finset.sum_eq_zero (fun T hT => ?_)
  exact absurd ((C47_semistandard_rpp n hm hn T).1 hT).1 h

theorem dual_expansion_family {n : Nat} {w : PolyVal} (hw : BetaOnly w.den)
    {function : List Nat → Option SymPoly} (hF : IsDualFamily n w function) {f : SymPoly} (hf : IsSym n f)
    (hz : Vec.NoZero f) (hb : ∀ mu, BetaOnly (f.get mu).den) :
    ∃ N ans, (∀ fuel ≥ N, expansion function (termFromHighest n) fuel f = some ans) ∧
      Expands n (fun mu => rppSum w.den n mu []) (polynomial Poly.x n f).den ans.den ∧
      ∀ u, Expands n (fun mu => rppSum w.den n mu []) (polynomial Poly.x n f).den u → u = ans.den := by
  obtain ⟨N, ans, h1, h2, h3, h4, h5⟩ := triangular_expansion (dual_triangular hw hF) (findsFirst_highest n)
    (fun mu hm _ k hk => (rppCount_support hm (dual_count hF hm hk)).2.2.1) hf hz hb
  have hphi : ∀ u : List Nat →₀ PolyVal, (∀ k, u k ≠ 0 → IsPartition k ∧ k.length ≤ n) →
      phi (xden Poly.x) n (combine function u) = ∑ mu ∈ u.support, (u mu).den * rppSum w.den n mu [] := by
    intro u hu
    rw [phi_combine, Finsupp.sum]
    refine Finset.sum_congr rfl (fun mu hmu => ?_)
    have hm := (hu mu (Finsupp.mem_support_iff.1 hmu)).1
    rw [phi_dualFamily hF hm, rppSum]
    congr 1
    exact Finset.sum_congr rfl (fun T hT => by rw [xm_rppWeight n hm isPartition_nil hT])
  have h3' : ∀ k, ans.den k ≠ 0 → IsPartition k ∧ k.length ≤ n := fun k hk => h3 k (by rwa [← Vec.den_apply])
  have h4' : ∀ k, BetaOnly (ans.den k).den := fun k => by rw [Vec.den_apply]; exact h4 k
  have hp : (polynomial Poly.x n f).den = phi (xden Poly.x) n (combine function ans.den) := by
    rw [den_polynomial Poly.x n (fun k hk => (hf.keys k hk).1), h2]
  refine ⟨N, ans, h1, ⟨h3', h4', by rw [hp, hphi _ h3']⟩, fun u hu => ?_⟩
  refine combine_polynomial_injective (dual_triangular hw hF) hu.partitions h3' hu.beta h4' ?_
  rw [hphi u hu.partitions, ← hp, hu.sum]

/-- C50: for a symmetric polynomial `f` with coefficients in `ℤ[β, β⁻¹]`, `dual_grothendieck_expansion(f)` terminates,
none of its assertions fails, and it returns the unique coefficients of `f` in the dual stable Grothendieck
polynomials. -/
theorem C50_dual_grothendieck (n : Nat) {f : SymPoly} (hf : IsSym n f) (hz : Vec.NoZero f)
    (hb : ∀ mu, BetaOnly (f.get mu).den) :
    ∃ N ans, (∀ fuel ≥ N, dualGrothendieckExpansion n fuel f = some ans) ∧
      Expands n (fun mu => rppSum (-Laurent.xpow 0 1) n mu []) (polynomial Poly.x n f).den ans.den ∧
      ∀ u, Expands n (fun mu => rppSum (-Laurent.xpow 0 1) n mu []) (polynomial Poly.x n f).den u → u = ans.den := by
  have := dual_expansion_family (by rw [PolyVal.den_neg]; exact betaOnly_neg betaOnly_beta) (family_dual n) hf hz hb
  rwa [PolyVal.den_neg, PolyVal.den_mk, den_beta] at this

/-- C50: the same for `mp_dual_grothendieck_expansion`. -/
theorem C50_mp_dual_grothendieck (n : Nat) {f : SymPoly} (hf : IsSym n f) (hz : Vec.NoZero f)
    (hb : ∀ mu, BetaOnly (f.get mu).den) :
    ∃ N ans, (∀ fuel ≥ N, mpDualGrothendieckExpansion n fuel f = some ans) ∧
      Expands n (fun mu => rppSum (Laurent.xpow 0 1) n mu []) (polynomial Poly.x n f).den ans.den ∧
      ∀ u, Expands n (fun mu => rppSum (Laurent.xpow 0 1) n mu []) (polynomial Poly.x n f).den u → u = ans.den := by
  have := dual_expansion_family betaOnly_beta (family_mpDual n) hf hz hb
  rwa [PolyVal.den_mk, den_beta] at this

example : ((dualGrothendieckExpansion 2 10 (Vec.add (ofMono 2 [1, 1]) (ofMono 2 [1]))).map (fun a => a.dict.items)) =
    some [([1], 1 + PolyVal.mk Poly.beta), ([1, 1], 1)] := by decide +kernel

end Verif.Symm
