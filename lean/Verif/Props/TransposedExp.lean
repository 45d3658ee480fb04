import Verif.Lemmas.TransExp
import Verif.Props.Transposed
import Verif.Props.Dual

/-! # C103: expansions in the transposed dual stable Grothendieck polynomials -/

attribute [-simp] List.getD_eq_getElem?_getD

namespace Verif.Symm

open Tableaux Verif.Part Partition

/-- The transposed dual polynomial of shape `mu`, with `w` in place of `-beta`.  C24 says which tableaux `semistandard`
lists. -/
noncomputable def rowSum (w : Laurent) (n : Nat) (mu : List Nat) : Laurent := ∑ T ∈ semistandard false [] n mu, rowTerm w n T

/-- The transposed dual P- or Q-polynomial of shape `mu`, with `w` in place of `-beta`.  C51 says which tableaux
`semistandard_shifted_marked` lists. -/
noncomputable def lineSum (dp : Bool) (w : Laurent) (n : Nat) (mu : List Nat) : Laurent :=
  ∑ T ∈ (semistandardShiftedMarked dp false [] n mu).getD ∅, lineTerm w n T

theorem phi_line {dp : Bool} {n : Nat} {w : PolyVal} {function : List Nat → Option SymPoly}
    (hF : IsTransFamily dp n w function) {mu : List Nat} (hm : IsStrict mu) :
    phi (xden Poly.x) n (fden function mu) = lineSum dp w.den n mu := by
  rw [phi_transFamily hF hm, lineSum, semistandardShiftedMarked_eq isStrict_nil n hm, Option.getD_some,
    marked_sum_eq dp n hm isStrict_nil]

theorem trans_expansion {dp : Bool} {n : Nat} {w : PolyVal} (hw : BetaOnly w.den)
    {function : List Nat → Option SymPoly} (hF : IsTransFamily dp n w function) :
    ExpansionIn n (lineSum dp w.den n) (expansion function (termFromHighest n)) := by
  intro f hf hz hb
  have ht := trans_triangular hw hF
  constructor
  · intro u hu
    obtain ⟨N, ans, h1, h2, _⟩ := span_expansion_polynomial ht (findsFirst_highest n) (lineSum dp w.den n)
      (fun mu hmu => phi_line hF hmu.1) u hu.strict hu.beta f hf hz hb hu.sum
    exact ⟨N, ans, h1, h2⟩
  · intro fuel ans h
    obtain ⟨h1, h2, h3⟩ := span_expansion_sound ht (findsFirst_highest n) (fun mu g hp hl hg => by
      refine ⟨⟨?_, hp.2⟩, hl⟩
      by_contra hc
      rw [hF.1 mu hc] at hg
      cases hg) fuel f hf hz hb ans h
    refine ⟨h1, h2, ?_⟩
    rw [den_polynomial Poly.x n (fun k hk => (hf.keys k hk).1), h3, phi_combine, Finsupp.sum]
    exact Finset.sum_congr rfl (fun mu hmu => by rw [phi_line hF (h1 mu (Finsupp.mem_support_iff.1 hmu)).1])

/-- C103: `jp_expansion` terminates on exactly the combinations of the transposed dual P-polynomials and finds their
coefficients, in whatever order the tableaux are traversed. -/
theorem C103_jp_expansion (n : Nat) {tabs : List Nat → List Tab} (ht : ∀ mu S, IsStrict mu →
    semistandardShiftedMarked false false [] n mu = some S → ListsSet (tabs mu) S) :
    ExpansionIn n (lineSum false (Laurent.xpow 0 1) n) (jpExpansion tabs n) := by
  have := trans_expansion betaOnly_beta (family_trans ht)
  rwa [PolyVal.den_mk, den_beta] at this

/-- C103: the same for `jq_expansion`. -/
theorem C103_jq_expansion (n : Nat) {tabs : List Nat → List Tab} (ht : ∀ mu S, IsStrict mu →
    semistandardShiftedMarked true false [] n mu = some S → ListsSet (tabs mu) S) :
    ExpansionIn n (lineSum true (Laurent.xpow 0 1) n) (jqExpansion tabs n) := by
  have := trans_expansion betaOnly_beta (family_trans ht)
  rwa [PolyVal.den_mk, den_beta] at this

theorem phi_row {n : Nat} {w : PolyVal} {function : List Nat → Option SymPoly}
    (hF : IsRowFamily n w function) {mu : List Nat} (hm : IsPartition mu) :
    phi (xden Poly.x) n (fden function mu) = rowSum w.den n mu := by
  rw [phi_rowFamily hF hm, rowSum]
  refine Finset.sum_congr rfl (fun T hT => ?_)
  rw [rowTerm_eq (singleTab_of_isTab (R := ssRules) (lam := []) (mu := mu) (K := n) rfl (by
    rwa [semistandard_eq_allTabs isPartition_nil hm, mem_allTabs ssRules_inj isPartition_nil n hm] at hT))]

theorem row_expansion {n : Nat} {w : PolyVal} (hw : BetaOnly w.den) {function : List Nat → Option SymPoly}
    (hF : IsRowFamily n w function) {f : SymPoly} (hf : IsSym n f)
    (hz : Vec.NoZero f) (hb : ∀ mu, BetaOnly (f.get mu).den) :
    ∃ N ans, (∀ fuel ≥ N, expansion function (termFromHighest n) fuel f = some ans) ∧
      Expands n (rowSum w.den n) (polynomial Poly.x n f).den ans.den ∧
      ∀ u, Expands n (rowSum w.den n) (polynomial Poly.x n f).den u → u = ans.den := by
  obtain ⟨N, ans, h1, h2, h3, h4, h5⟩ := triangular_expansion (row_triangular hw hF) (findsFirst_highest n)
    (fun mu hm _ k hk => row_first hF hm hk) hf hz hb
  have hphi : ∀ u : List Nat →₀ PolyVal, (∀ k, u k ≠ 0 → IsPartition k ∧ k.length ≤ n) →
      phi (xden Poly.x) n (combine function u) = ∑ mu ∈ u.support, (u mu).den * rowSum w.den n mu := by
    intro u hu
    rw [phi_combine, Finsupp.sum]
    refine Finset.sum_congr rfl (fun mu hmu => ?_)
    rw [phi_row hF (hu mu (Finsupp.mem_support_iff.1 hmu)).1]
  have h3' : ∀ k, ans.den k ≠ 0 → IsPartition k ∧ k.length ≤ n := fun k hk => h3 k (by rwa [← Vec.den_apply])
  have h4' : ∀ k, BetaOnly (ans.den k).den := fun k => by rw [Vec.den_apply]; exact h4 k
  have hp : (polynomial Poly.x n f).den = phi (xden Poly.x) n (combine function ans.den) := by
    rw [den_polynomial Poly.x n (fun k hk => (hf.keys k hk).1), h2]
  refine ⟨N, ans, h1, ⟨h3', h4', by rw [hp, hphi _ h3']⟩, fun u hu => ?_⟩
  refine combine_polynomial_injective (row_triangular hw hF) hu.partitions h3' hu.beta h4' ?_
  rw [hphi u hu.partitions, ← hp, hu.sum]

/-- C103: for a symmetric polynomial `f` with coefficients in `ℤ[β, β⁻¹]`, `j_expansion(f)` terminates, none of its
assertions fails, and it returns the unique coefficients of `f` in the transposed dual polynomials, in whatever order the
tableaux are traversed. -/
theorem C103_j_expansion (n : Nat) {tabs : List Nat → List Tab}
    (ht : ∀ mu, IsPartition mu → ListsSet (tabs mu) (semistandard false [] n mu)) {f : SymPoly} (hf : IsSym n f)
    (hz : Vec.NoZero f) (hb : ∀ mu, BetaOnly (f.get mu).den) :
    ∃ N ans, (∀ fuel ≥ N, jExpansion tabs n fuel f = some ans) ∧
      Expands n (rowSum (Laurent.xpow 0 1) n) (polynomial Poly.x n f).den ans.den ∧
      ∀ u, Expands n (rowSum (Laurent.xpow 0 1) n) (polynomial Poly.x n f).den u → u = ans.den := by
  have := row_expansion betaOnly_beta (family_row ht) hf hz hb
  rwa [PolyVal.den_mk, den_beta] at this

/-! ### examples -/

/-- All fillings of the boxes with the values. -/
def fillings (values : List Int) : List (Nat × Nat) → List Tab
  | [] => [Tab.empty]
  | b :: bs => values.flatMap (fun a => (fillings values bs).map (fun T => T.set b [a]))

/-- The marked tableaux for `transposedDualS 2 mu []`. -/
def exampleMoved (mu : List Nat) : List Tab :=
  (fillings [-1, 1, -2, 2] (((List.range 3).flatMap (fun i => (List.range 6).map (fun j => (i + 1, j + 1)))).filter
    (fun b => decide (b.2 ≤ mu.length + mu.getD (b.1 - 1) 0 ∧ mu.length < b.2)))).filter
    (fun T => decide (T ∈ (semistandardShiftedMarked true false (staircaseNu mu []) 2 (staircaseMu mu)).getD ∅))

/-- The semistandard tableaux of a shape with at most 2 columns and 2 rows and entries at most 2. -/
def exampleSmall (dp : Bool) (mu : List Nat) : List Tab :=
  (fillings [-1, 1, -2, 2] (((List.range 3).flatMap (fun i => (List.range 6).map (fun j => (i + 1, j + 1)))).filter
    (fun b => decide (b.1 ≤ b.2 ∧ b.2 < b.1 + mu.getD (b.1 - 1) 0)))).filter
    (fun T => decide (T ∈ (semistandardShiftedMarked dp false [] 2 mu).getD ∅))

example : (exampleSmall true [2, 1]).Nodup ∧ semistandardShiftedMarked true false [] 2 [2, 1] =
    some (exampleSmall true [2, 1]).toFinset := by decide +kernel

/-- `jq_(2, 1) + β jq_(2)` in 2 variables. -/
def exampleJqSum : Option SymPoly :=
  (transposedDualMarked 2 [2, 1] [] (Poly.neg Poly.beta) (exampleSmall true [2, 1])).bind (fun f =>
    (transposedDualMarked 2 [2] [] (Poly.neg Poly.beta) (exampleSmall true [2])).map (fun g =>
      Vec.add f (Vec.smul g (PolyVal.mk Poly.beta))))

example : (exampleJqSum.bind (jqExpansion (exampleSmall true) 2 10)).map (fun a => [a.get [2, 1], a.get [2], a.get [1]]) =
    some [1, PolyVal.mk Poly.beta, 0] := by decide +kernel

/-- `p_1 = x_1 + x_2` is half of `jq_(1)`: there is no expansion. -/
example : (jqExpansion (exampleSmall true) 2 10 (ofMono 2 [1])).isNone = true := by decide +kernel

example : ((jExpansion (fun mu => (fillings [1, 2] (((List.range 3).flatMap (fun i => (List.range 6).map
    (fun j => (i + 1, j + 1)))).filter (fun b => decide (b.2 ≤ mu.getD (b.1 - 1) 0)))).filter
      (fun T => decide (T ∈ semistandard false [] 2 mu))) 2 10 (ofMono 2 [2])).map (fun a => a.dict.items)) =
    some [([1], -PolyVal.mk Poly.beta), ([1, 1], -1), ([2], 1)] := by decide +kernel

/-! ### `js_expansion` -/

theorem term_congr {n : Nat} {f f0 : SymPoly} (hf : IsSym n f) (hz : Vec.NoZero f) (hf0 : IsSym n f0) (hz0 : Vec.NoZero f0)
    (h : ∀ k, f.get k = f0.get k) : (f.len = 0 ↔ f0.len = 0) ∧
      (f0.len ≠ 0 → termFromHighest n f = termFromHighest n f0) := by
  have h1 : f.len = 0 ↔ f0.len = 0 := by
    rw [Vec.len_zero_iff hz, Vec.len_zero_iff hz0]
    exact forall_congr' (fun k => by rw [h k])
  refine ⟨h1, fun h0 => ?_⟩
  obtain ⟨t, e1, e2, e3⟩ := findsFirst_highest n f hf hz (fun hc => h0 (h1.1 hc))
  obtain ⟨t0, e4, e5, e6⟩ := findsFirst_highest n f0 hf0 hz0 h0
  rw [e1, e4]
  by_contra hne
  have hne : t ≠ t0 := fun hc => hne (by rw [hc])
  have h2 := e3 t0 (by rw [h]; exact e5) (Ne.symm hne)
  have h3 := e6 t (by rw [← h]; exact e2) hne
  exact beforeHigh_irrefl _ (beforeHigh_trans h2 h3)

/-- The marked tableaux for `slow_transposed_dual_stable_grothendieck_s(2, mu)`. -/
def movedTabs (mu : List Nat) : Finset Tab :=
  (semistandardShiftedMarked true false (staircaseNu mu []) 2 (staircaseMu mu)).getD ∅

theorem transS_order {mu : List Nat} (hm : IsPartition mu) {tabs tabs' : List Tab} (h : ListsSet tabs (movedTabs mu))
    (h' : ListsSet tabs' (movedTabs mu)) : ∃ f g, transposedDualS 2 mu [] (Poly.neg Poly.beta) tabs = some f ∧
      transposedDualS 2 mu [] (Poly.neg Poly.beta) tabs' = some g ∧ IsSym 2 f ∧ IsSym 2 g ∧ Vec.NoZero f ∧ Vec.NoZero g ∧
      ∀ k, f.get k = g.get k := by
  have h1 := isStrict_staircaseMu hm
  have h2 := isStrict_staircaseNu (mu := mu) (nu := []) isPartition_nil
  have he : movedTabs mu = markedGen true false true (staircaseNu mu []) 2 (staircaseMu mu) := by
    rw [movedTabs, semistandardShiftedMarked_eq h2 2 h1, Option.getD_some]
  rw [he] at h h'
  obtain ⟨f, a1, a2, a3, a4, _⟩ := transposedDualMarked_spec Poly.x true 2 h1 h2 (Or.inl rfl) h
  obtain ⟨g, b1, b2, b3, b4, _⟩ := transposedDualMarked_spec Poly.x true 2 h1 h2 (Or.inl rfl) h'
  have hlast : mu.length = 0 ∨ mu.getD (mu.length - 1) 0 > 0 := by
    by_cases h0 : mu.length = 0
    · exact Or.inl h0
    · right
      rw [List.getD_eq_getElem _ _ (by omega)]
      exact hm.2 _ (List.getElem_mem _)
  exact ⟨f, g, by rw [transposedDualS, if_pos hlast, a1], by rw [transposedDualS, if_pos hlast, b1], a2, b2, a3, b3,
    fun k => by rw [a4, b4]⟩

theorem listsSet_of {l : List Tab} {S : Finset Tab} (h : l.Nodup ∧ l.toFinset = S) : ListsSet l S :=
  ⟨h.1, fun T => by rw [← h.2, List.mem_toFinset]⟩

theorem js_21 : (transposedDualS 2 [2, 1] [] (Poly.neg Poly.beta) (exampleMoved [2, 1])).isSome = true := by decide +kernel

theorem js_3 : (transposedDualS 2 [3] [] (Poly.neg Poly.beta) (exampleMoved [3])).isSome = true := by decide +kernel

/-- C103 (finding): `js_expansion` raises an AssertionError on `js_(2,1)` in two variables, in whatever order the tableaux
are traversed: it starts with `js_(3)`, after which `4 x_1^2 x_2 + ...` is left over, and the coefficient in `js_(2,1)`
is 8. -/
theorem C103_js_expansion_fails {tabs : List Nat → List Tab} (ht : ∀ mu, IsPartition mu → ListsSet (tabs mu) (movedTabs mu)) :
    ∃ f, transposedDualS 2 [2, 1] [] (Poly.neg Poly.beta) (tabs [2, 1]) = some f ∧ ∀ fuel, jsExpansion tabs 2 fuel f = none := by
  have p21 : IsPartition [2, 1] := by unfold IsPartition; decide
  have p3 : IsPartition [3] := by unfold IsPartition; decide
  obtain ⟨f, f0, a1, a2, a3, a4, a5, a6, a7⟩ := transS_order p21 (ht _ p21)
    (listsSet_of (l := exampleMoved [2, 1]) (by decide +kernel))
  obtain ⟨g, g0, b1, b2, b3, b4, b5, b6, b7⟩ := transS_order p3 (ht _ p3)
    (listsSet_of (l := exampleMoved [3]) (by decide +kernel))
  have hf0 : f0 = (transposedDualS 2 [2, 1] [] (Poly.neg Poly.beta) (exampleMoved [2, 1])).get js_21 := by
    rw [← Option.some_inj, Option.some_get, a2]
  have hg0 : g0 = (transposedDualS 2 [3] [] (Poly.neg Poly.beta) (exampleMoved [3])).get js_3 := by
    rw [← Option.some_inj, Option.some_get, b2]
  have c1 := term_congr a3 a5 a4 a6 a7
  have d1 := term_congr (isSym_sub a3 (isSym_smul b3 1)) (Vec.noZero_sub a5) (isSym_sub a4 (isSym_smul b4 1))
    (Vec.noZero_sub a6) (fun k => by rw [Vec.get_sub, Vec.get_sub, Vec.get_smul, Vec.get_smul, a7, b7])
  have e1 : f0.len ≠ 0 := by rw [hf0]; decide +kernel
  have e2 : (Vec.sub f0 (Vec.smul g0 1)).len ≠ 0 := by rw [hf0, hg0]; decide +kernel
  refine ⟨f, a1, fun fuel => ?_⟩
  refine expansion_rec (g := g) (t := [3]) (cdeg := 0) (q := 1) (b := Poly.one) fuel (fun h => e1 (c1.1.1 h))
    ((c1.2 e1).trans (by rw [hf0]; decide +kernel)) b1 (by rw [a7, hf0]; decide +kernel)
    (by rw [a7, b7, hf0, hg0]; decide +kernel) (by decide +kernel) (fun fuel => ?_)
  rw [show (1 : PolyVal) * PolyVal.mk Poly.one = 1 by decide +kernel]
  have e3 : (Vec.sub f (Vec.smul g 1)).get [2, 1] = (Vec.sub f0 (Vec.smul g0 1)).get [2, 1] := by
    rw [Vec.get_sub, Vec.get_sub, Vec.get_smul, Vec.get_smul, a7, b7]
  refine expansion_mod (g := f) (t := [2, 1]) (cdeg := 0) (r := 4) fuel (fun h => e2 (d1.1.1 h))
    ((d1.2 e2).trans (by rw [hf0, hg0]; decide +kernel)) a1 (by rw [e3, hf0, hg0]; decide +kernel)
    (by rw [e3, a7, hf0, hg0]; decide +kernel) (by decide +kernel)

end Verif.Symm
