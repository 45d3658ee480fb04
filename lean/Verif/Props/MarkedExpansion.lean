import Verif.Lemmas.MarkedExpansion
import Verif.Props.Marked
import Verif.Props.Expansion

/-! # C54: expansions in the bases of polynomials of shifted marked tableaux -/

attribute [-simp] List.getD_eq_getElem?_getD

namespace Verif.Symm

open Tableaux Verif.Part Partition

/-- `u` is a vector of coefficients in `ℤ[β, β⁻¹]`, indexed by strict partitions with at most `n` parts, and `p` is the
sum of `u mu * G mu`. -/
structure ExpandsStrict (n : Nat) (G : List Nat → Laurent) (p : Laurent) (u : List Nat →₀ PolyVal) : Prop where
  strict : ∀ mu, u mu ≠ 0 → IsStrict mu ∧ mu.length ≤ n
  beta : ∀ mu, BetaOnly (u mu).den
  sum : p = ∑ mu ∈ u.support, (u mu).den * G mu

/-- The expansion `e` terminates on exactly the combinations of the `G mu`, and returns their coefficients: it returns
`u` on a combination with coefficients `u`, and if it returns at all then `f` is the combination with the coefficients
returned. -/
def ExpansionIn (n : Nat) (G : List Nat → Laurent) (e : Nat → SymPoly → Option (Vec (List Nat) PolyVal)) : Prop :=
  ∀ f, IsSym n f → Vec.NoZero f → (∀ mu, BetaOnly (f.get mu).den) →
    (∀ u, ExpandsStrict n G (polynomial Poly.x n f).den u →
      ∃ N ans, (∀ fuel ≥ N, e fuel f = some ans) ∧ ans.den = u) ∧
    ∀ fuel ans, e fuel f = some ans → ExpandsStrict n G (polynomial Poly.x n f).den ans.den

theorem marked_expansion {sv dp : Bool} {n : Nat} {w : PolyVal} (hw : BetaOnly w.den)
    {function : List Nat → Option SymPoly} (hF : IsMarkedFamily sv dp n w function) :
    ExpansionIn n (markedSum sv dp w.den n) (expansion function (termFromLowest n)) := by
  intro f hf hz hb
  have ht := marked_triangular hw hF
  constructor
  · intro u hu
    obtain ⟨N, ans, h1, h2, _⟩ := span_expansion_polynomial ht (findsFirst_lowest n) (markedSum sv dp w.den n)
      (fun mu hmu => phi_markedFamily hF hmu.1) u hu.strict hu.beta f hf hz hb hu.sum
    exact ⟨N, ans, h1, h2⟩
  · intro fuel ans h
    obtain ⟨h1, h2, h3⟩ := span_expansion_sound ht (findsFirst_lowest n) (fun mu g hp hl hg => by
      refine ⟨⟨?_, hp.2⟩, hl⟩
      by_contra hc
      rw [hF.1 mu hc] at hg
      cases hg) fuel f hf hz hb ans h
    refine ⟨h1, h2, ?_⟩
    rw [den_polynomial Poly.x n (fun k hk => (hf.keys k hk).1), h3, phi_combine, Finsupp.sum]
    exact Finset.sum_congr rfl (fun mu hmu => by rw [phi_markedFamily hF (h1 mu (Finsupp.mem_support_iff.1 hmu)).1])

theorem isStrict_nil : IsStrict [] := ⟨by simp, by simp⟩

theorem countShifted_none (dp sv : Bool) (n : Nat) {mu : List Nat} (h : ¬ mu.Pairwise (· > ·)) :
    countSemistandardShiftedMarked dp sv [] n mu = none := by
  have : isStrictPartition mu = false := by
    rw [← Bool.not_eq_true, isStrictPartition_iff]
    exact h
  cases n <;> simp [countSemistandardShiftedMarked, this]

theorem family_schurP (n : Nat) : IsMarkedFamily false false n 1 (fun mu => schurP n mu []) := by
  refine ⟨fun mu h => by simp only [schurP, countShifted_none false false n h]; rfl, fun mu hm => ?_⟩
  obtain ⟨f, h1, h2, _, h4, _⟩ := vectorize_marked_one (sh := true) (dp := false) (by simp) isStrict_nil hm n
  exact ⟨f, by simp only [schurP, countSemistandardShiftedMarked_eq isStrict_nil n hm]; exact h1, h2, h4⟩

theorem family_schurQ (n : Nat) : IsMarkedFamily false true n 1 (fun mu => schurQ n mu []) := by
  refine ⟨fun mu h => by simp only [schurQ, countShifted_none true false n h]; rfl, fun mu hm => ?_⟩
  obtain ⟨f, h1, h2, _, h4, _⟩ := vectorize_marked_one (sh := true) (dp := true) (by simp) isStrict_nil hm n
  exact ⟨f, by simp only [schurQ, countSemistandardShiftedMarked_eq isStrict_nil n hm]; exact h1, h2, h4⟩

theorem family_GP (n : Nat) : IsMarkedFamily true false n (PolyVal.mk Poly.beta) (fun mu => stableGrothendieckP n mu [] none) := by
  refine ⟨fun mu h => by simp only [stableGrothendieckP, countShifted_none false true n h]; rfl, fun mu hm => ?_⟩
  obtain ⟨f, h1, h2, _, h4, _⟩ := betaVectorize_marked (sh := true) (dp := false) (sv := true) (by simp) isStrict_nil hm n none
  refine ⟨f, by simp only [stableGrothendieckP, countSemistandardShiftedMarked_eq isStrict_nil n hm]; exact h1, h2, fun k => ?_⟩
  rw [h4, if_pos (show within none k.sum from fun b hb => by simp at hb)]

theorem family_GQ (n : Nat) : IsMarkedFamily true true n (PolyVal.mk Poly.beta) (fun mu => stableGrothendieckQ n mu [] none) := by
  refine ⟨fun mu h => by simp only [stableGrothendieckQ, countShifted_none true true n h]; rfl, fun mu hm => ?_⟩
  obtain ⟨f, h1, h2, _, h4, _⟩ := betaVectorize_marked (sh := true) (dp := true) (sv := true) (by simp) isStrict_nil hm n none
  refine ⟨f, by simp only [stableGrothendieckQ, countSemistandardShiftedMarked_eq isStrict_nil n hm]; exact h1, h2, fun k => ?_⟩
  rw [h4, if_pos (show within none k.sum from fun b hb => by simp at hb)]

theorem family_mnGP (n : Nat) : IsMarkedFamily true false n (-PolyVal.mk Poly.beta) (fun mu => mnStableGrothendieckP n mu []) := by
  refine ⟨fun mu h => by
    simp only [mnStableGrothendieckP, stableGrothendieckP, countShifted_none false true n h]; rfl, fun mu hm => ?_⟩
  obtain ⟨f, h1, h2, _, h4, _⟩ := mn_spec (dp := false) n hm isStrict_nil
  exact ⟨f, by
    simp only [mnStableGrothendieckP, stableGrothendieckP, countSemistandardShiftedMarked_eq isStrict_nil n hm]; exact h1,
    h2, h4⟩

theorem family_mnGQ (n : Nat) : IsMarkedFamily true true n (-PolyVal.mk Poly.beta) (fun mu => mnStableGrothendieckQ n mu []) := by
  refine ⟨fun mu h => by
    simp only [mnStableGrothendieckQ, stableGrothendieckQ, countShifted_none true true n h]; rfl, fun mu hm => ?_⟩
  obtain ⟨f, h1, h2, _, h4, _⟩ := mn_spec (dp := true) n hm isStrict_nil
  exact ⟨f, by
    simp only [mnStableGrothendieckQ, stableGrothendieckQ, countSemistandardShiftedMarked_eq isStrict_nil n hm]; exact h1,
    h2, h4⟩

/-- C54: `P_expansion` finds the coefficients of the combinations of Schur P-polynomials. -/
theorem C54_P_expansion (n : Nat) : ExpansionIn n (markedSum false false 1 n) (PExpansion n) := by
  have := marked_expansion (w := 1) (by rw [PolyVal.den_one]; exact betaOnly_one) (family_schurP n)
  rwa [PolyVal.den_one] at this

/-- C54: `Q_expansion` finds the coefficients of the combinations of Schur Q-polynomials. -/
theorem C54_Q_expansion (n : Nat) : ExpansionIn n (markedSum false true 1 n) (QExpansion n) := by
  have := marked_expansion (w := 1) (by rw [PolyVal.den_one]; exact betaOnly_one) (family_schurQ n)
  rwa [PolyVal.den_one] at this

/-- C54: the same for `GP_expansion`. -/
theorem C54_GP_expansion (n : Nat) : ExpansionIn n (markedSum true false (Laurent.xpow 0 1) n) (GPExpansion n) := by
  have := marked_expansion betaOnly_beta (family_GP n)
  rwa [PolyVal.den_mk, den_beta] at this

/-- C54: the same for `GQ_expansion`. -/
theorem C54_GQ_expansion (n : Nat) : ExpansionIn n (markedSum true true (Laurent.xpow 0 1) n) (GQExpansion n) := by
  have := marked_expansion betaOnly_beta (family_GQ n)
  rwa [PolyVal.den_mk, den_beta] at this

/-- C54: the same for `mn_GP_expansion`, with `-β` in place of `β`. -/
theorem C54_mn_GP_expansion (n : Nat) : ExpansionIn n (markedSum true false (-Laurent.xpow 0 1) n) (mnGPExpansion n) := by
  have := marked_expansion (by rw [PolyVal.den_neg]; exact betaOnly_neg betaOnly_beta) (family_mnGP n)
  rwa [PolyVal.den_neg, PolyVal.den_mk, den_beta] at this

/-- C54: the same for `mn_GQ_expansion`, with `-β` in place of `β`. -/
theorem C54_mn_GQ_expansion (n : Nat) : ExpansionIn n (markedSum true true (-Laurent.xpow 0 1) n) (mnGQExpansion n) := by
  have := marked_expansion (by rw [PolyVal.den_neg]; exact betaOnly_neg betaOnly_beta) (family_mnGQ n)
  rwa [PolyVal.den_neg, PolyVal.den_mk, den_beta] at this

/-- C54: the number of shifted marked tableaux of shape and weight `mu`, the coefficient by which the expansions divide. -/
theorem C54_leading (dp sv : Bool) (n : Nat) {mu : List Nat} (hm : IsStrict mu) (hl : mu.length ≤ n) :
    ∃ S, semistandardShiftedMarked dp sv [] n mu = some S ∧
      (S.filter (fun T => ∀ i < n, (weight n T).getD i 0 = mu.getD i 0)).card = if dp then 2 ^ mu.length else 1 := by
  refine ⟨_, semistandardShiftedMarked_eq isStrict_nil n hm, ?_⟩
  have h := (count_marked (sh := true) (sv := sv) (dp := dp) (by simp) n hm isStrict_nil mu).1 ⟨isStrict_isPartition hm, hl⟩
  rw [markedCount_self hm hl] at h
  cases dp
  · simpa using h.symm
  · simp only [if_true] at h ⊢
    exact_mod_cast h.symm

/-- `P_(2, 1) + β P_(3)` in 3 variables. -/
def examplePSum : Option SymPoly :=
  (schurP 3 [2, 1] []).bind (fun f => (schurP 3 [3] []).map (fun g => Vec.add f (Vec.smul g (PolyVal.mk Poly.beta))))

example : (examplePSum.bind (PExpansion 3 10)).map (fun a => [a.get [2, 1], a.get [3], a.get [2]]) =
    some [1, PolyVal.mk Poly.beta, 0] := by decide +kernel

/-- The hypotheses are met by the sum above. -/
example : ∃ f u, examplePSum = some f ∧ IsSym 3 f ∧ Vec.NoZero f ∧ (∀ mu, BetaOnly (f.get mu).den) ∧
    ExpandsStrict 3 (markedSum false false 1 3) (polynomial Poly.x 3 f).den u ∧ u [3] = PolyVal.mk Poly.beta := by
  obtain ⟨g1, a1, a2, a3⟩ := (family_schurP 3).2 [2, 1] ⟨by simp, by simp⟩
  obtain ⟨g2, b1, b2, b3⟩ := (family_schurP 3).2 [3] ⟨by simp, by simp⟩
  have hsum : examplePSum = some (Vec.add g1 (Vec.smul g2 (PolyVal.mk Poly.beta))) := by
    simp only at a1 b1
    rw [examplePSum, a1, b1]; rfl
  have hsym : IsSym 3 (Vec.add g1 (Vec.smul g2 (PolyVal.mk Poly.beta))) := isSym_add a2 (isSym_smul b2 _)
  have hone : BetaOnly (1 : PolyVal).den := by rw [PolyVal.den_one]; exact betaOnly_one
  have hz : Vec.NoZero (Vec.add g1 (Vec.smul g2 (PolyVal.mk Poly.beta))) := by
    have h1 : (schurP 3 [2, 1] []).map (fun g => decide (∀ x ∈ g.dict.items, x.2 ≠ 0)) = some true := by decide +kernel
    simp only at a1
    rw [a1, Option.map_some, Option.some_inj, decide_eq_true_eq] at h1
    exact Vec.noZero_add (fun k v hk => h1 (k, v) (Dict.get?_eq_some.1 hk))
  have hb : ∀ mu, BetaOnly ((Vec.add g1 (Vec.smul g2 (PolyVal.mk Poly.beta))).get mu).den := by
    intro mu
    rw [Vec.get_add, Vec.get_smul, a3, b3, PolyVal.den_add, PolyVal.den_mul, PolyVal.den_mul, PolyVal.den_mul,
      PolyVal.den_intCast, PolyVal.den_intCast, PolyVal.den_pow, PolyVal.den_pow]
    exact betaOnly_add (betaOnly_mul (betaOnly_int _) (betaOnly_pow hone _))
      (betaOnly_mul (betaOnly_mul (betaOnly_int _) (betaOnly_pow hone _)) betaOnly_beta)
  obtain ⟨ans, h1, h2⟩ : ∃ ans, PExpansion 3 10 (Vec.add g1 (Vec.smul g2 (PolyVal.mk Poly.beta))) = some ans ∧
      ans.get [3] = PolyVal.mk Poly.beta := by
    have h : (examplePSum.bind (PExpansion 3 10)).map (fun a => a.get [3]) = some (PolyVal.mk Poly.beta) := by
      decide +kernel
    rw [hsum, Option.bind_some, Option.map_eq_some_iff] at h
    exact h
  exact ⟨_, ans.den, hsum, hsym, hz, hb, ((C54_P_expansion 3) _ hsym hz hb).2 10 ans h1, by rw [Vec.den_apply, h2]⟩

/-- The expansion of a polynomial that is not a combination of P-polynomials, here `m_(1, 1)`, raises an exception (the
AssertionError of `count_semistandard_shifted_marked`, for every fuel); likewise `Q_expansion` of `m_1 = P_1`, where the
assertion that the leading coefficient divides fails. -/
theorem C54_not_in_span (fuel : Nat) :
    PExpansion 2 fuel (ofMono 2 [1, 1]) = none ∧ QExpansion 2 fuel (ofMono 2 [1]) = none := by
  cases fuel with
  | zero => exact ⟨rfl, rfl⟩
  | succ fuel =>
    constructor
    · have h1 : (ofMono 2 [1, 1]).len ≠ 0 := by decide +kernel
      have h2 : termFromLowest 2 (ofMono 2 [1, 1]) = some [1, 1] := by decide +kernel
      have h3 : schurP 2 [1, 1] [] = none := by decide +kernel
      rw [PExpansion, expansion, if_neg h1, h2]
      simp only [Option.bind_eq_bind, Option.bind_some, h3, Option.bind_none]
    · have h1 : (ofMono 2 [1]).len ≠ 0 := by decide +kernel
      have h2 : termFromLowest 2 (ofMono 2 [1]) = some [1] := by decide +kernel
      have h3 : ((ofMono 2 [1]).get [1]).totalDegree = some 0 := by decide +kernel
      have h4 : (schurQ 2 [1] []).map (fun g => ((g.get [1]).isInteger, ((ofMono 2 [1]).get [1]).coefficient 0 0 |>.mod (g.get [1]).constantTerm)) =
        some (true, some 1) := by decide +kernel
      rw [Option.map_eq_some_iff] at h4
      obtain ⟨g, h4, h5⟩ := h4
      rw [Prod.mk.injEq] at h5
      rw [QExpansion, expansion, if_neg h1, h2]
      have h6 : (1 : PolyVal) ≠ 0 := by decide +kernel
      simp only [Option.bind_eq_bind, Option.bind_some, h4, h3, h5.1, h5.2, if_true, if_neg h6]

theorem expansion_mod {function : List Nat → Option SymPoly} {getTerm : SymPoly → Option (List Nat)} (fuel : Nat)
    {f g : SymPoly} {t : List Nat} {cdeg : ℤ} {r : PolyVal} (h0 : f.len ≠ 0) (h1 : getTerm f = some t)
    (h2 : function t = some g) (h3 : (f.get t).totalDegree = some cdeg)
    (h4 : ((f.get t).coefficient 0 cdeg).mod (g.get t).constantTerm = some r) (h5 : r ≠ 0) :
    expansion function getTerm fuel f = none := by
  cases fuel with
  | zero => rfl
  | succ fuel =>
    rw [expansion, if_neg h0, h1]
    simp [h2, h3, h4, h5]

theorem expansion_rec {function : List Nat → Option SymPoly} {getTerm : SymPoly → Option (List Nat)} (fuel : Nat)
    {f g : SymPoly} {t : List Nat} {cdeg : ℤ} {q : PolyVal} {b : Poly} (h0 : f.len ≠ 0) (h1 : getTerm f = some t)
    (h2 : function t = some g) (h3 : (f.get t).totalDegree = some cdeg)
    (h4 : ((f.get t).coefficient 0 cdeg).floordiv (g.get t).constantTerm = some q) (h5 : Poly.pow Poly.beta cdeg = some b)
    (h6 : ∀ fuel, expansion function getTerm fuel (Vec.sub f (Vec.smul g (q * PolyVal.mk b))) = none) :
    expansion function getTerm fuel f = none := by
  cases fuel with
  | zero => rfl
  | succ fuel =>
    rw [expansion, if_neg h0, h1]
    simp [h2, h3, h4, h5, h6]

theorem schurS_21 : (schurS 2 [2, 1] []).isSome = true := by decide +kernel

theorem schurS_3 : (schurS 2 [3] []).isSome = true := by decide +kernel

/-- C54 (finding): `S_expansion` raises an AssertionError on `S_(2,1)` in two variables: it starts with `S_(3)`, after which
`4 x_1^2 x_2 + ...` is left over, and the coefficient in `S_(2,1)` is 8. -/
theorem C54_S_expansion_fails : ∃ f, schurS 2 [2, 1] [] = some f ∧ ∀ fuel, SExpansion 2 fuel f = none := by
  refine ⟨(schurS 2 [2, 1] []).get schurS_21, (Option.some_get schurS_21).symm, fun fuel => ?_⟩
  refine expansion_rec (g := (schurS 2 [3] []).get schurS_3) (t := [3]) (cdeg := 0) (q := 1) (b := Poly.one) fuel
    (by decide +kernel) (by decide +kernel) (Option.some_get schurS_3).symm (by decide +kernel) (by decide +kernel)
    (by decide +kernel) (fun fuel => ?_)
  exact expansion_mod (g := (schurS 2 [2, 1] []).get schurS_21) (t := [2, 1]) (cdeg := 0) (r := 4) fuel
    (by decide +kernel) (by decide +kernel) (Option.some_get schurS_21).symm (by decide +kernel) (by decide +kernel)
    (by decide +kernel)

end Verif.Symm
