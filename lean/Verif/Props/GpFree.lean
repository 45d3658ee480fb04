import Verif.Model.GpFree
import Verif.Props.MarkedDual
import Verif.Props.OmegaSchur

/-! # C130: expansions in products of one-row dual stable Grothendieck P-polynomials -/

namespace Verif.Symm

open Tableaux Verif.Part Partition

theorem maxKey_mem {f : SymPoly} {t : List Nat} (h : maxKey f = some t) : t ∈ f.dict.keys := by
  rw [maxKey] at h
  split at h
  · simp at h
  · rename_i k ks hk
    rw [hk]
    obtain ⟨h1, _⟩ := foldl_max_spec ks k
    rw [Option.some.inj h] at h1
    rcases h1 with h1 | h1
    · rw [h1]; exact List.mem_cons_self
    · exact List.mem_cons_of_mem _ h1

theorem termFromHighest_mem {n : Nat} {f : SymPoly} {t : List Nat} (h : termFromHighest n f = some t) : t ∈ f.dict.keys := by
  have := keys_mk' (maxKey_mem h)
  rw [Dict.mem_keys] at this ⊢
  obtain ⟨v, hv⟩ := this
  rw [Dict.get?_filter, Option.filter_eq_some_iff] at hv
  exact ⟨v, hv.1⟩

theorem gp_strict (n : Nat) {mu : List Nat} (hm : IsPartition mu) {g : SymPoly} (h : dualStableGrothendieckP n mu [] = some g) :
    IsStrict mu := by
  refine ⟨?_, hm.2⟩
  by_contra hc
  rw [dualStableGrothendieckP, (C62_not_strict false n hc).2] at h
  simp at h

theorem gp_value (n : Nat) {mu : List Nat} (hm : IsStrict mu) {g : SymPoly} (h : dualStableGrothendieckP n mu [] = some g) :
    IsSym n g ∧ (polynomial Poly.x n g).den = mrppShapeSum false (-Laurent.xpow 0 1) n mu := by
  obtain ⟨f, S, h1, h2, _, h4, h5⟩ := C64_dual_stable_grothendieck_p n hm (nu := []) ⟨by simp, by simp⟩
  rw [h] at h1
  obtain rfl := Option.some.inj h1
  refine ⟨h2, ?_⟩
  rw [h5, mrppShapeSum, h4]
  rfl

theorem keys_vecAdd {u v : SymPoly} {k : List Nat} (h : k ∈ (Vec.add u v).dict.keys) : k ∈ u.dict.keys ∨ k ∈ v.dict.keys := by
  rw [Vec.add] at h
  split at h
  · exact Or.inl h
  · have := keys_fromKeys (keys_mk' h)
    rwa [Vec.unionKeys, List.mem_dedup, List.mem_append] at this

theorem gpExpansion_keys (n : Nat) : ∀ (fuel : Nat) (f : SymPoly) (ans), IsSym n f → gpExpansion n fuel f = some ans →
    ∀ k ∈ ans.dict.keys, IsStrict k := by
  intro fuel
  induction fuel with
  | zero => intro f ans _ h; simp [gpExpansion, expansion] at h
  | succ fuel ih =>
    intro f ans hf h
    rw [gpExpansion, expansion] at h
    split at h
    · obtain rfl := Option.some.inj h
      intro k hk
      simp [Vec.mk', Dict.filter, Dict.keys, Dict.empty] at hk
    · simp only [Option.bind_eq_bind, Option.bind_eq_some_iff] at h
      obtain ⟨t, ht, g, hg, cdeg, _, h⟩ := h
      have hts := gp_strict n (hf.keys t (termFromHighest_mem ht)).1 hg
      split at h
      · simp only [Option.bind_eq_some_iff] at h
        obtain ⟨r, _, h⟩ := h
        split at h
        · simp only [Option.bind_eq_some_iff] at h
          obtain ⟨q, _, b, _, a, ha, ok, _, h⟩ := h
          split at h
          · obtain rfl := Option.some.inj h
            intro k hk
            rcases keys_vecAdd hk with hk | hk
            · exact ih _ a (isSym_sub hf (isSym_smul (gp_value n hts hg).1 _)) ha k hk
            · rcases keys_set (keys_mk' hk) with rfl | hk
              · exact hts
              · simp [Dict.keys, Dict.empty] at hk
          · simp at h
        · simp at h
      · simp at h

/-- The product of the generating functions of the marked reverse plane partitions of shape one row, over the parts of `mu`. -/
noncomputable def rowProduct (n : Nat) (mu : List Nat) : Laurent :=
  (mu.map (fun a => mrppShapeSum false (-Laurent.xpow 0 1) n [a])).prod

theorem gpProduct_value (n : Nat) {mu : List Nat} (hm : ∀ a ∈ mu, 0 < a) {g : SymPoly} (h : gpProduct n mu = some g) :
    mu ≠ [] ∧ IsSym n g ∧ (polynomial Poly.x n g).den = rowProduct n mu := by
  have key : ∀ (l : List Nat) (g r : SymPoly), (∀ a ∈ l, 0 < a) → IsSym n g →
      l.foldlM (fun g part => (dualStableGrothendieckP n [part] []).map (fun h => mul g h)) g = some r →
      IsSym n r ∧ (polynomial Poly.x n r).den = (polynomial Poly.x n g).den * rowProduct n l := by
    intro l
    induction l with
    | nil =>
      intro g r _ hg h
      obtain rfl := Option.some.inj h
      exact ⟨hg, by simp [rowProduct]⟩
    | cons a l ih =>
      intro g r hp hg h
      rw [List.foldlM_cons, Option.bind_eq_bind, Option.bind_eq_some_iff] at h
      obtain ⟨g', hg', h⟩ := h
      rw [Option.map_eq_some_iff] at hg'
      obtain ⟨q, hq, rfl⟩ := hg'
      have hq' := gp_value n (mu := [a]) ⟨by simp, by simpa using hp a List.mem_cons_self⟩ hq
      obtain ⟨h1, h2⟩ := ih _ r (fun b hb => hp b (List.mem_cons_of_mem _ hb)) (isSym_mul hg hq'.1) h
      refine ⟨h1, ?_⟩
      rw [h2, polynomial_mul Poly.x hg hq'.1, PolyVal.den_mul, hq'.2, rowProduct, rowProduct, List.map_cons, List.prod_cons,
        mul_assoc]
  cases mu with
  | nil => simp [gpProduct] at h
  | cons a l =>
    rw [gpProduct] at h
    split at h
    · simp at h
    · rename_i q hq
      have hq' := gp_value n (mu := [a]) ⟨by simp, by simpa using hm a List.mem_cons_self⟩ hq
      obtain ⟨h1, h2⟩ := key l _ g (fun b hb => hm b (List.mem_cons_of_mem _ hb)) (isSym_smul hq'.1 1) h
      refine ⟨by simp, h1, ?_⟩
      rw [h2, polynomial_smul Poly.x hq'.1, PolyVal.den_mul, PolyVal.den_one, mul_one, hq'.2, rowProduct, rowProduct,
        List.map_cons, List.prod_cons]

theorem polynomial_split {n : Nat} {f g : SymPoly} (hf : IsSym n f) (hg : IsSym n g) :
    (polynomial Poly.x n f).den = (polynomial Poly.x n (Vec.sub f g)).den + (polynomial Poly.x n g).den := by
  rw [den_polynomial Poly.x n (fun k hk => (hf.keys k hk).1), den_polynomial Poly.x n (fun k hk => (hg.keys k hk).1),
    den_polynomial Poly.x n (fun k hk => ((isSym_sub hf hg).keys k hk).1), ← phi_add]
  congr 1
  ext k
  rw [Finsupp.add_apply, Vec.den_apply, Vec.den_apply, Vec.den_apply, Vec.get_sub, sub_add_cancel]

/-- C130: whenever `gp_free_expansion(f)` returns, `f` is the combination, with the coefficients returned, of the products of
dual stable Grothendieck P-polynomials of one row; the keys are nonempty strict partitions. -/
theorem C130_gp_free (n : Nat) : ∀ (fuel : Nat) {f : SymPoly}, IsSym n f → ∀ ans, gpFreeExpansion n fuel f = some ans →
    (∀ mu, ans.den mu ≠ 0 → IsStrict mu ∧ mu ≠ []) ∧
      (polynomial Poly.x n f).den = ∑ mu ∈ ans.den.support, (ans.den mu).den *
        (mu.map (fun a => mrppShapeSum false (-Laurent.xpow 0 1) n [a])).prod := by
  have main : ∀ (fuel : Nat) (f : SymPoly), IsSym n f → ∀ ans, gpFreeExpansion n fuel f = some ans →
      (∀ mu, ans.den mu ≠ 0 → IsStrict mu ∧ mu ≠ []) ∧
        (polynomial Poly.x n f).den = ans.den.sum (fun mu c => c.den * rowProduct n mu) := by
    intro fuel
    induction fuel with
    | zero => intro f _ ans h; simp [gpFreeExpansion] at h
    | succ fuel ih =>
      intro f hf ans h
      rw [gpFreeExpansion] at h
      split at h
      · rename_i hlen
        obtain rfl := Option.some.inj h
        have h0 : (Vec.mk' Dict.empty none : Vec (List Nat) PolyVal).den = 0 := by
          ext k; rw [Vec.den_apply, Vec.get_mk']; rfl
        rw [h0]
        refine ⟨fun mu hmu => absurd rfl hmu, ?_⟩
        rw [Finsupp.sum_zero_index, den_polynomial Poly.x n (fun k hk => (hf.keys k hk).1)]
        have : f.den = 0 := by ext k; rw [Vec.den_apply, Vec.get_of_len_zero hlen]; rfl
        rw [this, phi, Finsupp.sum_zero_index]
      · split at h
        · simp at h
        · rename_i e he
          split at h
          · simp at h
          · rename_i mu hmu
            have hs := gpExpansion_keys n fuel f e hf he mu (maxKey_mem hmu)
            split at h
            · simp at h
            · rename_i g hg
              obtain ⟨g1, g2, g3⟩ := gpProduct_value n hs.2 hg
              split at h
              · simp at h
              · rename_i a ha
                obtain rfl := Option.some.inj h
                have hsm := isSym_smul g2 (e.get mu)
                obtain ⟨i1, i2⟩ := ih _ (isSym_sub hf hsm) a ha
                have hd : (Vec.add a (Vec.mk' (Dict.empty.set mu (e.get mu)) none)).den =
                    a.den + Finsupp.single mu (e.get mu) := by
                  ext k
                  rw [Vec.den_apply, Vec.get_add, Finsupp.add_apply, Vec.den_apply, Vec.get_mk', Dict.getD_set,
                    Finsupp.single_apply]
                  rfl
                rw [hd]
                constructor
                · intro k hk
                  rw [Finsupp.add_apply, Finsupp.single_apply] at hk
                  by_cases hkm : mu = k
                  · subst hkm; exact ⟨hs, g1⟩
                  · rw [if_neg hkm, add_zero] at hk
                    exact i1 k hk
                · rw [Finsupp.sum_add_index' (fun k => by rw [PolyVal.den_zero, zero_mul])
                    (fun k x y => by rw [PolyVal.den_add, add_mul]), Finsupp.sum_single_index (by rw [PolyVal.den_zero, zero_mul]),
                    ← i2, polynomial_split hf hsm, polynomial_smul Poly.x g2, PolyVal.den_mul, g3, mul_comm (rowProduct n mu)]
  intro fuel f hf ans h
  exact main fuel f hf ans h

/-- C130 (finding): `gp_free_expansion` raises on the multiples of `gp_()`, the nonzero constants. -/
theorem C130_constant (n : Nat) {f : SymPoly} (hf : IsSym n f) (hz : Vec.NoZero f) (hb : ∀ mu, BetaOnly (f.get mu).den)
    {c : PolyVal} (hc : c ≠ 0)
    (he : ExpandsStrict n (mrppShapeSum false (-Laurent.xpow 0 1) n) (polynomial Poly.x n f).den (Finsupp.single [] c)) :
    ∀ fuel, gpFreeExpansion n fuel f = none := by
  obtain ⟨h1, h2⟩ := C65_gp_expansion n f hf hz hb
  obtain ⟨N, a, ha, had⟩ := h1 _ he
  have huniq : ∀ fuel e, gpExpansion n fuel f = some e → e.den = Finsupp.single [] c := by
    intro fuel e hfe
    obtain ⟨M, b, hb', hbd⟩ := h1 _ (h2 fuel e hfe)
    have := ha (max N M) (le_max_left _ _)
    rw [hb' (max N M) (le_max_right _ _)] at this
    obtain rfl := Option.some.inj this
    rw [← hbd, had]
  intro fuel
  cases fuel with
  | zero => rfl
  | succ fuel =>
    rw [gpFreeExpansion]
    split
    · rename_i hlen
      exfalso
      have := huniq 1 (Vec.mk' Dict.empty none) (by rw [gpExpansion, expansion, if_pos hlen])
      have := DFunLike.congr_fun this []
      rw [Vec.den_apply, Vec.get_mk', Finsupp.single_eq_same] at this
      exact hc this.symm
    · cases hge : gpExpansion n fuel f with
      | none => rfl
      | some e =>
        dsimp only
        cases hm : maxKey e with
        | none => rfl
        | some mu =>
          have h0 := (Vec.mem_keys_iff (expansion_noZero _ _ _ _ _ hge) mu).1 (maxKey_mem hm)
          rw [← Vec.den_apply, huniq fuel e hge, Finsupp.single_apply] at h0
          split at h0
          · rename_i hmu
            subst hmu
            rfl
          · exact absurd rfl h0

/-- `gp_()` is the constant 1 and meets the hypotheses, so that `gp_free_expansion` raises on it. -/
example : (dualStableGrothendieckP 2 [] []).map (fun f => f.dict.items) = some [([], 1)] := by decide +kernel

theorem C130_constant_one (n : Nat) : ∃ f, dualStableGrothendieckP n [] [] = some f ∧ ∀ fuel, gpFreeExpansion n fuel f = none := by
  have hs : IsStrict [] := ⟨by simp, by simp⟩
  have h10 : (1 : PolyVal) ≠ 0 := by decide +kernel
  obtain ⟨f, S, h1, h2, h3, _, _⟩ := C64_dual_stable_grothendieck_p n hs hs
  refine ⟨f, h1, ?_⟩
  have hv := (gp_value n hs h1).2
  have hb : ∀ mu, BetaOnly (f.get mu).den := by
    intro mu
    obtain ⟨g, e1, _, e3⟩ := (family_gp n).2 [] hs
    dsimp only at e1
    rw [h1] at e1
    obtain rfl := Option.some.inj e1
    rw [e3, PolyVal.den_mul, PolyVal.den_intCast, PolyVal.den_pow, PolyVal.den_neg]
    exact betaOnly_mul (betaOnly_int _) (betaOnly_pow (betaOnly_neg betaOnly_beta) _)
  refine C130_constant n h2 h3 hb (c := 1) h10 ⟨fun mu hmu => ?_, fun mu => ?_, ?_⟩
  · rw [Finsupp.single_apply] at hmu
    split at hmu
    · rename_i h; subst h; exact ⟨hs, by simp⟩
    · exact absurd rfl hmu
  · rw [Finsupp.single_apply]
    split
    · rw [PolyVal.den_one]; exact betaOnly_one
    · rw [PolyVal.den_zero]; exact betaOnly_zero
  · rw [hv, Finsupp.support_single _ h10, Finset.sum_singleton, Finsupp.single_eq_same, PolyVal.den_one, one_mul]

/-- In two variables, `gp_(2, 1) = gp_(2) gp_(1) + (...) gp_(3) + (...) gp_(2)`: the coefficients returned. -/
example : ((dualStableGrothendieckP 2 [2, 1] []).bind (gpFreeExpansion 2 12)).map
    (fun a => (a.dict.keys.length, decide (a.get [2, 1] = 1))) = some (3, true) := by decide +kernel

end Verif.Symm
