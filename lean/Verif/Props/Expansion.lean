import Verif.Lemmas.ExpansionBases
import Verif.Props.Symmetric

/-! # C44: expansions of symmetric polynomials -/

namespace Verif.Symm

open Verif.Part Partition Tableaux

/-- The generating function of the semistandard (`sv = false`) or set-valued (`sv = true`) tableaux of shape `mu` with
entries at most `n`; every entry beyond the number of boxes gives a factor `w`.  C24 and C25 say which tableaux
`semistandard` lists. -/
noncomputable def tableauSum (sv : Bool) (w : Laurent) (n : Nat) (mu : List Nat) : Laurent :=
  ∑ T ∈ semistandard sv [] n mu,
    w ^ ((T.items.flatMap Prod.snd).length - T.items.length) * ∏ i ∈ Finset.range n,
      Laurent.xpow ((i : ℤ) + 1) ((T.items.flatMap Prod.snd).count ((i : Int) + 1) : Nat)

/-- `u` is a vector of coefficients in `ℤ[β, β⁻¹]`, indexed by partitions with at most `n` parts, and `p` is the sum
of `u mu * G mu`. -/
structure Expands (n : Nat) (G : List Nat → Laurent) (p : Laurent) (u : List Nat →₀ PolyVal) : Prop where
  partitions : ∀ mu, u mu ≠ 0 → IsPartition mu ∧ mu.length ≤ n
  beta : ∀ mu, BetaOnly (u mu).den
  sum : p = ∑ mu ∈ u.support, (u mu).den * G mu

theorem expansion_family {n : Nat} {sv : Bool} {w : PolyVal} (hw : BetaOnly w.den)
    {function : List Nat → Option SymPoly} (hF : IsFamily n sv w function) {f : SymPoly} (hf : IsSym n f)
    (hz : Vec.NoZero f) (hb : ∀ mu, BetaOnly (f.get mu).den) :
    ∃ N ans, (∀ fuel ≥ N, expansion function (termFromLowest n) fuel f = some ans) ∧
      Expands n (tableauSum sv w.den n) (polynomial Poly.x n f).den ans.den ∧
      ∀ u, Expands n (tableauSum sv w.den n) (polynomial Poly.x n f).den u → u = ans.den := by
  obtain ⟨N, ans, h1, h2, h3, h4, h5⟩ := family_expansion hw hF hf hz hb
  have hphi : ∀ u : List Nat →₀ PolyVal, (∀ k, u k ≠ 0 → IsPartition k ∧ k.length ≤ n) →
      phi (xden Poly.x) n (combine function u) = ∑ mu ∈ u.support, (u mu).den * tableauSum sv w.den n mu := by
    intro u hu
    rw [phi_combine, Finsupp.sum]
    refine Finset.sum_congr rfl (fun mu hmu => ?_)
    rw [phi_family hF (hu mu (Finsupp.mem_support_iff.1 hmu)).1, tableauSum]
    congr 1
    exact Finset.sum_congr rfl (fun T _ => by rw [xm_wt_x]; rfl)
  have h3' : ∀ k, ans.den k ≠ 0 → IsPartition k ∧ k.length ≤ n := fun k hk => h3 k (by rwa [← Vec.den_apply])
  have h4' : ∀ k, BetaOnly (ans.den k).den := fun k => by rw [Vec.den_apply]; exact h4 k
  have hp : (polynomial Poly.x n f).den = phi (xden Poly.x) n (combine function ans.den) := by
    rw [den_polynomial Poly.x n (fun k hk => (hf.keys k hk).1), h2]
  refine ⟨N, ans, h1, ⟨h3', h4', by rw [hp, hphi _ h3']⟩, fun u hu => ?_⟩
  refine combine_polynomial_injective (family_triangular hw hF) hu.partitions h3' hu.beta h4' ?_
  rw [hphi u hu.partitions, ← hp, hu.sum]

theorem betaOnly_beta : BetaOnly (PolyVal.mk Poly.beta).den := by
  rw [PolyVal.den_mk, den_beta]; exact betaOnly_xpow 1

/-- C44: for a symmetric polynomial `f` with coefficients in `ℤ[β, β⁻¹]`, `schur_expansion(f)` terminates, none of its
assertions fails, and it returns the unique coefficients of `f` in the basis of Schur polynomials. -/
theorem C44_schur (n : Nat) {f : SymPoly} (hf : IsSym n f) (hz : Vec.NoZero f) (hb : ∀ mu, BetaOnly (f.get mu).den) :
    ∃ N ans, (∀ fuel ≥ N, schurExpansion n fuel f = some ans) ∧
      Expands n (tableauSum false 1 n) (polynomial Poly.x n f).den ans.den ∧
      ∀ u, Expands n (tableauSum false 1 n) (polynomial Poly.x n f).den u → u = ans.den := by
  have := expansion_family (w := 1) (by rw [PolyVal.den_one]; exact betaOnly_one) (family_schur n) hf hz hb
  rwa [PolyVal.den_one] at this

/-- C44: the same for `grothendieck_expansion` and stable Grothendieck polynomials. -/
theorem C44_grothendieck (n : Nat) {f : SymPoly} (hf : IsSym n f) (hz : Vec.NoZero f)
    (hb : ∀ mu, BetaOnly (f.get mu).den) :
    ∃ N ans, (∀ fuel ≥ N, grothendieckExpansion n fuel f = some ans) ∧
      Expands n (tableauSum true (Laurent.xpow 0 1) n) (polynomial Poly.x n f).den ans.den ∧
      ∀ u, Expands n (tableauSum true (Laurent.xpow 0 1) n) (polynomial Poly.x n f).den u → u = ans.den := by
  have := expansion_family betaOnly_beta (family_grothendieck n) hf hz hb
  rwa [PolyVal.den_mk, den_beta] at this

/-- C44: the same for `mn_grothendieck_expansion`, with `-β` in place of `β`. -/
theorem C44_mn_grothendieck (n : Nat) {f : SymPoly} (hf : IsSym n f) (hz : Vec.NoZero f)
    (hb : ∀ mu, BetaOnly (f.get mu).den) :
    ∃ N ans, (∀ fuel ≥ N, mnGrothendieckExpansion n fuel f = some ans) ∧
      Expands n (tableauSum true (-Laurent.xpow 0 1) n) (polynomial Poly.x n f).den ans.den ∧
      ∀ u, Expands n (tableauSum true (-Laurent.xpow 0 1) n) (polynomial Poly.x n f).den u → u = ans.den := by
  have := expansion_family (by rw [PolyVal.den_neg]; exact betaOnly_neg betaOnly_beta) (family_mnGrothendieck n) hf hz hb
  rwa [PolyVal.den_neg, PolyVal.den_mk, den_beta] at this

/-- C44: `mn_stable_grothendieck` does not raise, and it is the generating function with `-β`. -/
theorem C44_mn_stable_grothendieck (n : Nat) {mu : List Nat} (hm : IsPartition mu) :
    ∃ g, mnStableGrothendieck n mu [] = some g ∧ IsSym n g ∧
      (polynomial Poly.x n g).den = tableauSum true (-Laurent.xpow 0 1) n mu := by
  obtain ⟨g, h1, h2, _⟩ := family_mnGrothendieck n mu hm
  refine ⟨g, h1, h2, ?_⟩
  have := phi_family (family_mnGrothendieck n) hm Poly.x
  simp only at h1
  rw [fden, h1, Option.map_some, Option.getD_some, PolyVal.den_neg, PolyVal.den_mk, den_beta] at this
  rw [den_polynomial Poly.x n (fun k hk => (h2.keys k hk).1), this, tableauSum]
  exact Finset.sum_congr rfl (fun T _ => by rw [xm_wt_x]; rfl)

/-- C44: the symmetric polynomials made by `stable_grothendieck`, and sums, differences and multiples of
such, meet the hypotheses. -/
theorem C44_closed {n : Nat} {f g : SymPoly} (hf : Vec.NoZero f) (hfb : ∀ mu, BetaOnly (f.get mu).den)
    (hgb : ∀ mu, BetaOnly (g.get mu).den) {c : PolyVal} (hc : BetaOnly c.den) :
    (∀ mu, BetaOnly ((Vec.add f g).get mu).den) ∧ (∀ mu, BetaOnly ((Vec.sub f g).get mu).den) ∧
      (∀ mu, BetaOnly ((Vec.smul f c).get mu).den) ∧ Vec.NoZero (Vec.add f g) ∧ Vec.NoZero (Vec.sub f g) ∧
      Vec.NoZero (Vec.smul f c) ∧ ∀ mu (_ : IsPartition mu) s, stableGrothendieck n mu [] none = some s →
        IsSym n s ∧ Vec.NoZero s ∧ ∀ k, BetaOnly (s.get k).den := by
  refine ⟨fun mu => ?_, fun mu => ?_, fun mu => ?_, Vec.noZero_add hf, Vec.noZero_sub hf, Vec.noZero_mk' _ _, ?_⟩
  · rw [Vec.get_add, PolyVal.den_add]; exact betaOnly_add (hfb mu) (hgb mu)
  · rw [Vec.get_sub, PolyVal.den_sub]; exact betaOnly_sub (hfb mu) (hgb mu)
  · rw [Vec.get_smul, PolyVal.den_mul]; exact betaOnly_mul (hfb mu) hc
  · intro mu hm s hs
    obtain ⟨h1, h2, _⟩ := C31_coefficients n hm isPartition_nil none hs
    obtain ⟨g, e1, _, e3⟩ := family_grothendieck n mu hm
    simp only at e1
    rw [hs] at e1
    obtain rfl := Option.some.inj e1
    refine ⟨h1, h2, fun k => ?_⟩
    rw [e3, PolyVal.den_mul, PolyVal.den_intCast, PolyVal.den_pow]
    exact betaOnly_mul (betaOnly_int _) (betaOnly_pow betaOnly_beta _)

/-- C44 finding: for a coefficient that is not a polynomial in beta, here `x_5`, the coefficient of
`beta ** total_degree` is 0, the recursion subtracts nothing and does not end. -/
theorem C44_other_coefficients (fuel : Nat) :
    schurExpansion 1 fuel (ofMono 1 [] (PolyVal.mk (Poly.x 5))) = none := by
  obtain ⟨f, hf⟩ : ∃ f, ofMono 1 [] (PolyVal.mk (Poly.x 5)) = f := ⟨_, rfl⟩
  obtain ⟨g, hg⟩ : ∃ g, schur 1 [] [] = some g := Option.isSome_iff_exists.1 (by decide +kernel)
  have h1 : f.len ≠ 0 := by rw [← hf]; decide +kernel
  have h2 : termFromLowest 1 f = some [] := by rw [← hf]; decide +kernel
  have h3 : (f.get []).totalDegree = some 1 := by rw [← hf]; decide +kernel
  have h4 : (f.get []).coefficient 0 1 = 0 := by rw [← hf]; decide +kernel
  have h5 : ((schur 1 [] []).map (fun g => ((g.get []).isInteger, (g.get []).constantTerm))) = some (true, 1) := by
    decide +kernel
  have h6 : ((schur 1 [] []).map (fun g => (Vec.sub (ofMono 1 [] (PolyVal.mk (Poly.x 5))) (Vec.smul g 0)).dict.items)) =
      some (ofMono 1 [] (PolyVal.mk (Poly.x 5))).dict.items := by decide +kernel
  rw [hg, Option.map_some] at h5 h6
  have h5 := Option.some.inj h5
  rw [Prod.mk.injEq] at h5
  rw [hf] at h6 ⊢
  have h7 : Vec.sub f (Vec.smul g 0) = f := by
    have hm : (Vec.sub f (Vec.smul g 0)).multiplier = f.multiplier := by
      rw [Vec.sub]
      split
      · rfl
      · show (f.multiplier <|> g.multiplier) = _
        rw [← hf]; rfl
    have hd : (Vec.sub f (Vec.smul g 0)).dict = f.dict := by
      cases hv : (Vec.sub f (Vec.smul g 0)).dict
      cases hw : f.dict
      simp only [hv, hw] at h6
      have := Option.some.inj h6
      subst this
      rfl
    cases hv : Vec.sub f (Vec.smul g 0)
    cases hw : f
    rw [hv, hw] at hm hd
    simp only at hm hd
    rw [hm, hd]
  induction fuel with
  | zero => rfl
  | succ fuel ih =>
    rw [schurExpansion] at ih
    rw [schurExpansion, expansion, if_neg h1, h2]
    simp only [hg, h3, h4, h5.1, h5.2, Option.bind_eq_bind, Option.bind_some, PolyVal.mod_one, PolyVal.floordiv_one,
      if_true, zero_mul, h7, ih, Option.bind_none]
    exact Option.bind_fun_none _

/-- `m[2] + m[1, 1]` in 3 variables. -/
def exampleSym : SymPoly := Vec.add (ofMono 3 [2]) (ofMono 3 [1, 1])

example : IsSym 3 exampleSym ∧ Vec.NoZero exampleSym ∧ ∀ mu, BetaOnly (exampleSym.get mu).den := by
  refine ⟨isSym_add (isSym_ofMono ⟨by decide, by decide⟩ (by decide) _) (isSym_ofMono ⟨by decide, by decide⟩ (by decide) _),
    Vec.noZero_add (Vec.noZero_mk' _ _), fun mu => ?_⟩
  rw [exampleSym, Vec.get_add, PolyVal.den_add]
  refine betaOnly_add ?_ ?_
  · rw [ofMono, mkSym, Vec.get_mk', Dict.getD_set, Dict.getD_empty]
    split
    · rw [PolyVal.den_one]; exact betaOnly_one
    · rw [PolyVal.den_zero]; exact betaOnly_zero
  · rw [ofMono, mkSym, Vec.get_mk', Dict.getD_set, Dict.getD_empty]
    split
    · rw [PolyVal.den_one]; exact betaOnly_one
    · rw [PolyVal.den_zero]; exact betaOnly_zero

example : ((schurExpansion 3 10 exampleSym).map (fun a => a.dict.items)) = some [([2], 1)] := by
  decide +kernel

example : (mnGrothendieckExpansion 3 20 exampleSym).isSome = true := by decide +kernel

end Verif.Symm
