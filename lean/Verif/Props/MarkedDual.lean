import Verif.Lemmas.MrppPoly
import Verif.Props.MarkedRpp
import Verif.Props.MarkedExpansion
import Verif.Props.Slow

/-! # C64, C65: dual stable Grothendieck P-, Q- and S-polynomials and expansions in them -/

attribute [-simp] List.getD_eq_getElem?_getD

namespace Verif.Symm

open Tableaux Verif.Part Partition

/-- C64: for strict partitions, `dual_stable_grothendieck_p(n, mu, nu)` raises no exception and is the generating function
of the marked reverse plane partitions of shape `mu/nu` with primes on the diagonal, with `w = -β`.  C62 says which
tableaux these are, and what their weights are. -/
theorem C64_dual_stable_grothendieck_p (n : Nat) {mu nu : List Nat} (hm : IsStrict mu) (hn : IsStrict nu) :
    ∃ f S, dualStableGrothendieckP n mu nu = some f ∧ IsSym n f ∧ Vec.NoZero f ∧
      semistandardMarkedRpp false nu n mu = some S ∧ (polynomial Poly.x n f).den = mrppSum (-Laurent.xpow 0 1) n S := by
  obtain ⟨f, h1, h2, h3, _, h5⟩ := dualVectorize_mrpp false n hn hm
  exact ⟨f, _, by rw [dualStableGrothendieckP, countSemistandardMarkedRpp_eq n hm]; exact h1, h2, h3,
    semistandardMarkedRpp_eq n hm, h5⟩

/-- C64: `dual_stable_grothendieck_q(n, mu, nu)` is the same for all marked reverse plane partitions. -/
theorem C64_dual_stable_grothendieck_q (n : Nat) {mu nu : List Nat} (hm : IsStrict mu) (hn : IsStrict nu) :
    ∃ f S, dualStableGrothendieckQ n mu nu = some f ∧ IsSym n f ∧ Vec.NoZero f ∧
      semistandardMarkedRpp true nu n mu = some S ∧ (polynomial Poly.x n f).den = mrppSum (-Laurent.xpow 0 1) n S := by
  obtain ⟨f, h1, h2, h3, _, h5⟩ := dualVectorize_mrpp true n hn hm
  exact ⟨f, _, by rw [dualStableGrothendieckQ, countSemistandardMarkedRpp_eq n hm]; exact h1, h2, h3,
    semistandardMarkedRpp_eq n hm, h5⟩

/-- C64: `mp_dual_stable_grothendieck_p(n, mu, nu)` is the same with `w = β`. -/
theorem C64_mp_dual_stable_grothendieck_p (n : Nat) {mu nu : List Nat} (hm : IsStrict mu) (hn : IsStrict nu) :
    ∃ f S, mpDualStableGrothendieckP n mu nu = some f ∧ IsSym n f ∧ Vec.NoZero f ∧
      semistandardMarkedRpp false nu n mu = some S ∧ (polynomial Poly.x n f).den = mrppSum (Laurent.xpow 0 1) n S := by
  obtain ⟨f, h1, h2, h3, _, h5⟩ := negateBeta_mrpp false n hn hm
  exact ⟨f, _, by rw [mpDualStableGrothendieckP, dualStableGrothendieckP, countSemistandardMarkedRpp_eq n hm]; exact h1,
    h2, h3, semistandardMarkedRpp_eq n hm, h5⟩

/-- C64: `mp_dual_stable_grothendieck_q(n, mu, nu)` is the same with `w = β`. -/
theorem C64_mp_dual_stable_grothendieck_q (n : Nat) {mu nu : List Nat} (hm : IsStrict mu) (hn : IsStrict nu) :
    ∃ f S, mpDualStableGrothendieckQ n mu nu = some f ∧ IsSym n f ∧ Vec.NoZero f ∧
      semistandardMarkedRpp true nu n mu = some S ∧ (polynomial Poly.x n f).den = mrppSum (Laurent.xpow 0 1) n S := by
  obtain ⟨f, h1, h2, h3, _, h5⟩ := negateBeta_mrpp true n hn hm
  exact ⟨f, _, by rw [mpDualStableGrothendieckQ, dualStableGrothendieckQ, countSemistandardMarkedRpp_eq n hm]; exact h1,
    h2, h3, semistandardMarkedRpp_eq n hm, h5⟩

/-! ### `dual_stable_grothendieck_s` -/

theorem getD_range_map (f : Nat → Nat) (n i : Nat) : ((List.range n).map f).getD i 0 = if i < n then f i else 0 := by
  by_cases h : i < n
  · rw [if_pos h, List.getD_eq_getElem _ _ (by simpa using h)]
    simp
  · rw [if_neg h, List.getD_eq_default _ _ (by simpa using h)]

theorem getD_staircaseMu (mu : List Nat) (i : Nat) :
    (staircaseMu mu).getD i 0 = if i < mu.length then mu.getD i 0 + mu.length - i else 0 := getD_range_map _ _ _

theorem getD_staircaseNu (mu nu : List Nat) (i : Nat) :
    (staircaseNu mu nu).getD i 0 = if i < mu.length then nu.getD i 0 + mu.length - i else 0 := by
  rw [staircaseNu, getD_range_map]
  by_cases h : i < mu.length
  · rw [if_pos h, if_pos h]
    by_cases h2 : i < nu.length
    · rw [if_pos h2]
    · rw [if_neg h2, List.getD_eq_default _ _ (by omega)]
  · rw [if_neg h, if_neg h]

theorem isStrict_range_map (f : Nat → Nat) (n : Nat) (h1 : ∀ i j, i < j → j < n → f j < f i) (h2 : ∀ i < n, 1 ≤ f i) :
    IsStrict ((List.range n).map f) := by
  constructor
  · rw [List.pairwise_map]
    refine (List.pairwise_lt_range (n := n)).imp_of_mem ?_
    intro a b _ hb hab
    exact h1 a b hab (List.mem_range.1 hb)
  · intro a ha
    obtain ⟨i, hi, rfl⟩ := List.mem_map.1 ha
    have := h2 i (List.mem_range.1 hi)
    omega

theorem getD_antitone {mu : List Nat} (h : IsPartition mu) {i j : Nat} (hij : i ≤ j) : mu.getD j 0 ≤ mu.getD i 0 := by
  by_cases hj : j < mu.length
  · rw [List.getD_eq_getElem _ _ hj, List.getD_eq_getElem _ _ (by omega)]
    rcases Nat.eq_or_lt_of_le hij with rfl | hlt
    · exact le_rfl
    · exact List.pairwise_iff_getElem.1 h.1 i j _ _ hlt
  · rw [List.getD_eq_default _ _ (by omega)]
    exact Nat.zero_le _

theorem isStrict_staircaseMu {mu : List Nat} (h : IsPartition mu) : IsStrict (staircaseMu mu) := by
  refine isStrict_range_map _ _ (fun i j hij hj => ?_) (fun i hi => by omega)
  have := getD_antitone h hij.le
  omega

theorem isStrict_staircaseNu {mu nu : List Nat} (h : IsPartition nu) : IsStrict (staircaseNu mu nu) := by
  refine isStrict_range_map _ _ (fun i j hij hj => ?_) (fun i hi => by omega)
  have := getD_antitone h hij.le
  have e : ∀ i, (if i < nu.length then nu.getD i 0 else 0) = nu.getD i 0 := by
    intro i
    by_cases h2 : i < nu.length
    · rw [if_pos h2]
    · rw [if_neg h2, List.getD_eq_default _ _ (by omega)]
  rw [e, e]
  omega

/-- The boxes of the skew shape `mu/nu`, moved to the right by the number of parts of `mu`. -/
def MovedSkew (mu nu : List Nat) : Set (Nat × Nat) :=
  {b | ∃ c ∈ Diagram mu \ Diagram nu, b = (c.1, c.2 + mu.length)}

theorem movedSkew_eq (mu nu : List Nat) :
    ShiftedDiagram (staircaseMu mu) \ ShiftedDiagram (staircaseNu mu nu) = MovedSkew mu nu := by
  ext ⟨i, j⟩
  rw [Set.mem_sdiff, mem_shiftedDiagram, mem_shiftedDiagram, getD_staircaseMu, getD_staircaseNu]
  constructor
  · rintro ⟨⟨h1, h2, h3⟩, h4⟩
    by_cases hi : i - 1 < mu.length
    · rw [if_pos hi] at h3 h4
      refine ⟨(i, j - mu.length), ⟨mem_diagram.2 ⟨h1, by omega, by omega⟩, fun h => ?_⟩, ?_⟩
      · have := mem_diagram.1 h
        omega
      · rw [Prod.mk.injEq]
        exact ⟨rfl, by simp only; omega⟩
    · rw [if_neg hi] at h3
      omega
  · rintro ⟨⟨a, b⟩, ⟨h1, h2⟩, h3⟩
    rw [Prod.mk.injEq] at h3
    obtain ⟨rfl, rfl⟩ := h3
    rw [mem_diagram] at h1 h2
    have hi : i - 1 < mu.length := by
      by_contra hc
      rw [List.getD_eq_default _ _ (by omega)] at h1
      omega
    rw [if_pos hi, if_pos hi]
    simp only at *
    omega

/-- C64: for partitions `mu` and `nu`, `dual_stable_grothendieck_s(n, mu, nu)` raises no exception and is the generating
function of the marked reverse plane partitions of the unshifted skew shape `mu/nu`, moved to the right by the length of
`mu`.  Only the first `len(mu)` parts of `nu` matter. -/
theorem C64_dual_stable_grothendieck_s (n : Nat) {mu nu : List Nat} (hm : IsPartition mu) (hn : IsPartition nu) :
    ∃ f S, dualStableGrothendieckS n mu nu = some f ∧ IsSym n f ∧ Vec.NoZero f ∧
      (polynomial Poly.x n f).den = mrppSum (-Laurent.xpow 0 1) n S ∧
      ∀ T, T ∈ S ↔ (∀ i < mu.length, nu.getD i 0 ≤ mu.getD i 0) ∧ ∃ g, IsMarkedRPP true n (MovedSkew mu nu) g ∧
        (∀ b ∈ MovedSkew mu nu, T.get? b = some [g b]) ∧ ∀ b ∉ MovedSkew mu nu, T.get? b = none := by
  obtain ⟨f, S, h1, h2, h3, h4, h5⟩ := C64_dual_stable_grothendieck_q n (isStrict_staircaseMu hm)
    (isStrict_staircaseNu (mu := mu) hn)
  obtain ⟨S', h6, h7⟩ := C62_semistandard_marked_rpp true n (isStrict_staircaseMu hm) (isStrict_staircaseNu (mu := mu) hn)
  rw [h4, Option.some_inj] at h6
  subst h6
  refine ⟨f, S, ?_, h2, h3, h5, fun T => ?_⟩
  · rw [dualStableGrothendieckS, if_pos, h1]
    by_cases h0 : mu.length = 0
    · exact Or.inl h0
    · right
      rw [List.getD_eq_getElem _ _ (by omega)]
      exact hm.2 _ (List.getElem_mem _)
  · rw [h7, movedSkew_eq]
    refine and_congr_left (fun _ => ?_)
    rw [shiftedDiagram_subset]
    refine forall_congr' (fun i => ?_)
    rw [getD_staircaseMu, getD_staircaseNu]
    by_cases hi : i < mu.length
    · rw [if_pos hi, if_pos hi]
      constructor
      · intro h _; omega
      · intro h; have := h hi; omega
    · rw [if_neg hi, if_neg hi]
      exact ⟨fun _ h => absurd h hi, fun _ => le_rfl⟩

/-- C64 (finding): `(1, 1)` is not contained in `(2,)`, yet `dual_stable_grothendieck_s(1, (2,), (1, 1))` is not zero, while
`dual_stable_grothendieck_q` of shapes that are not contained in each other is. -/
theorem C64_s_not_contained : (dualStableGrothendieckS 1 [2] [1, 1]).map (fun f => f.get [1]) = some 2 ∧
    ¬ Diagram [1, 1] ⊆ Diagram [2] := by
  refine ⟨by decide +kernel, fun h => ?_⟩
  have := h (show (2, 1) ∈ Diagram [1, 1] from mem_diagram.2 (by decide))
  rw [mem_diagram] at this
  exact absurd this (by decide)

/-- C64: the sum is empty, and so the result zero, if `nu` is not contained in `mu`. -/
theorem C64_not_contained (dn : Bool) (n : Nat) {mu nu : List Nat} (hm : IsStrict mu) (hn : IsStrict nu)
    (h : ¬ ShiftedDiagram nu ⊆ ShiftedDiagram mu) (w : Laurent) {S : Finset Tab}
    (hS : semistandardMarkedRpp dn nu n mu = some S) : mrppSum w n S = 0 := by
  obtain ⟨S', h1, h2⟩ := C62_semistandard_marked_rpp dn n hm hn
  rw [hS, Option.some_inj] at h1
  subst h1
  exact Finset.sum_eq_zero (fun T hT => absurd ((h2 T).1 hT).1 h)

/-! ### the slow versions -/

theorem sameCounts_mrpp (dn : Bool) (n : Nat) {mu nu : List Nat} (hm : IsStrict mu) (hn : IsStrict nu) :
    SameCounts n (fun T => (markedRppWeight n T).getD []) (mrppGen dn nu n mu) (mrppCount dn nu n mu) := by
  have hw : ∀ T ∈ mrppGen dn nu n mu, (markedRppWeight n T).getD [] = wtL n mrppWt T := by
    intro T hT
    rw [markedRppWeight_eq ((isTab_mrppGen hn n hm).1 hT), Option.getD_some]
  refine ⟨fun T hT => by rw [hw T hT, length_wtL], fun u v hu hp => ?_, (mrpp_countSetup hn).keys n mu hm,
    fun k => ⟨fun hk => ?_, fun hk => mrppCount_neg hn hm hk⟩⟩
  · have h := C63_symmetric dn n hm hn (semistandardMarkedRpp_eq n hm) hu hp
    have e : ∀ u, (mrppGen dn nu n mu).filter (fun T => (markedRppWeight n T).getD [] = u) =
        (mrppGen dn nu n mu).filter (fun T => markedRppWeight n T = some u) := by
      intro u
      refine Finset.filter_congr (fun T hT => ?_)
      rw [markedRppWeight_eq ((isTab_mrppGen hn n hm).1 hT), Option.getD_some, Option.some_inj]
    rw [e, e, h]
  · rw [mrppCount_pos hn hm hk, wCount]
    congr 2
    refine Finset.filter_congr (fun T hT => forall₂_congr (fun i hi => ?_))
    rw [hw T hT, getD_wtL _ _ _ hi]

theorem agrees_mrpp (dn : Bool) (n : Nat) {mu nu : List Nat} (hm : IsStrict mu) (hn : IsStrict nu) {tabs : List Tab}
    (ht : ListsSet tabs (mrppGen dn nu n mu)) :
    Agrees n (slowMarkedDual n mu nu tabs) (dualVectorize n mu nu (mrppCount dn nu n mu)) := by
  have h := sameCounts_mrpp dn n hm hn
  obtain ⟨r, hr, _⟩ := dualVectorize_mrpp dn n hn hm
  rw [dualVectorize] at hr ⊢
  rw [slowMarkedDual]
  have hall : tabs.all (fun T => (markedRppWeight n T).isSome) = true := by
    rw [List.all_eq_true]
    intro T hT
    rw [markedRppWeight_eq ((isTab_mrppGen hn n hm).1 ((ht.2 T).1 hT))]
    rfl
  cases hb : Poly.pow Poly.beta (-1) with
  | none => rw [hb] at hr; cases hr
  | some b =>
    rw [hb] at hr
    simp only at hr ⊢
    rw [if_pos hall]
    obtain ⟨f, g, h1, h2, h3, h4, h5⟩ := slow_eq_fast ht h.length h.symm h.keys h.count (some (PolyVal.mk (Poly.neg b)))
    rw [h1, h2]
    rw [h2] at hr
    simp only at hr ⊢
    cases hc : Poly.pow (Poly.neg Poly.beta) ((mu.sum : Int) - nu.sum) with
    | none => rw [hc] at hr; cases hr
    | some c =>
      refine ⟨Vec.smul f (PolyVal.mk c), Vec.smul g (PolyVal.mk c), rfl, rfl, isSym_smul h3 _,
        vec_eq_of_get_eq (Vec.noZero_mk' _ _) (fun k => ?_)⟩
      rw [Vec.get_smul, Vec.get_smul, h5]

/-- C64: `_slow_dual_stable_grothendieck_p(n, mu, nu)` raises no exception, in whatever order the set of tableaux is
traversed, and its value equals that of `dual_stable_grothendieck_p(n, mu, nu)`. -/
theorem C64_slow_p (n : Nat) {mu nu : List Nat} (hm : IsStrict mu) (hn : IsStrict nu) {S : Finset Tab}
    (hS : semistandardMarkedRpp false nu n mu = some S) {tabs : List Tab} (ht : ListsSet tabs S) :
    Agrees n (slowMarkedDual n mu nu tabs) (dualStableGrothendieckP n mu nu) := by
  rw [semistandardMarkedRpp_eq n hm, Option.some_inj] at hS
  subst hS
  rw [dualStableGrothendieckP, countSemistandardMarkedRpp_eq n hm]
  exact agrees_mrpp false n hm hn ht

/-- C64: the same for `_slow_dual_stable_grothendieck_q`. -/
theorem C64_slow_q (n : Nat) {mu nu : List Nat} (hm : IsStrict mu) (hn : IsStrict nu) {S : Finset Tab}
    (hS : semistandardMarkedRpp true nu n mu = some S) {tabs : List Tab} (ht : ListsSet tabs S) :
    Agrees n (slowMarkedDual n mu nu tabs) (dualStableGrothendieckQ n mu nu) := by
  rw [semistandardMarkedRpp_eq n hm, Option.some_inj] at hS
  subst hS
  rw [dualStableGrothendieckQ, countSemistandardMarkedRpp_eq n hm]
  exact agrees_mrpp true n hm hn ht

example : ((dualStableGrothendieckP 2 [2] []).map (fun f => [f.get [2], f.get [1, 1], f.get [1]])) =
    some [1, 2, -PolyVal.mk Poly.beta] := by decide +kernel

example : ((dualStableGrothendieckQ 2 [2] []).map (fun f => [f.get [2], f.get [1, 1], f.get [1]])) =
    some [2, 4, -PolyVal.mk Poly.beta] := by decide +kernel

/-! ### expansions -/

theorem mrpp_expansion {dn : Bool} {n : Nat} {w : PolyVal} (hw : BetaOnly w.den)
    {function : List Nat → Option SymPoly} (hF : IsMrppFamily dn n w function) :
    ExpansionIn n (mrppShapeSum dn w.den n) (expansion function (termFromHighest n)) := by
  intro f hf hz hb
  have ht := mrpp_triangular hw hF
  constructor
  · intro u hu
    obtain ⟨N, ans, h1, h2, _⟩ := span_expansion_polynomial ht (findsFirst_highest n) (mrppShapeSum dn w.den n)
      (fun mu hmu => phi_mrppFamily hF hmu.1) u hu.strict hu.beta f hf hz hb hu.sum
    exact ⟨N, ans, h1, h2⟩
  · intro fuel ans h
    obtain ⟨h1, h2, h3⟩ := span_expansion_sound ht (findsFirst_highest n) (fun mu g hp hl hg => by
      refine ⟨⟨?_, hp.2⟩, hl⟩
      by_contra hc
      rw [hF.1 mu hc] at hg
      cases hg) fuel f hf hz hb ans h
    refine ⟨h1, h2, ?_⟩
    rw [den_polynomial Poly.x n (fun k hk => (hf.keys k hk).1), h3, phi_combine, Finsupp.sum]
    exact Finset.sum_congr rfl (fun mu hmu => by rw [phi_mrppFamily hF (h1 mu (Finsupp.mem_support_iff.1 hmu)).1])

theorem family_gp (n : Nat) : IsMrppFamily false n (-PolyVal.mk Poly.beta) (fun mu => dualStableGrothendieckP n mu []) := by
  refine ⟨fun mu h => by simp only [dualStableGrothendieckP, (C62_not_strict false n h).2]; rfl, fun mu hm => ?_⟩
  obtain ⟨f, h1, h2, _, h4, _⟩ := dualVectorize_mrpp false n isStrict_nil hm
  exact ⟨f, by simp only [dualStableGrothendieckP, countSemistandardMarkedRpp_eq n hm]; exact h1, h2, h4⟩

theorem family_gq (n : Nat) : IsMrppFamily true n (-PolyVal.mk Poly.beta) (fun mu => dualStableGrothendieckQ n mu []) := by
  refine ⟨fun mu h => by simp only [dualStableGrothendieckQ, (C62_not_strict true n h).2]; rfl, fun mu hm => ?_⟩
  obtain ⟨f, h1, h2, _, h4, _⟩ := dualVectorize_mrpp true n isStrict_nil hm
  exact ⟨f, by simp only [dualStableGrothendieckQ, countSemistandardMarkedRpp_eq n hm]; exact h1, h2, h4⟩

theorem family_mpGp (n : Nat) : IsMrppFamily false n (PolyVal.mk Poly.beta) (fun mu => mpDualStableGrothendieckP n mu []) := by
  refine ⟨fun mu h => by
    simp only [mpDualStableGrothendieckP, dualStableGrothendieckP, (C62_not_strict false n h).2]; rfl, fun mu hm => ?_⟩
  obtain ⟨f, h1, h2, _, h4, _⟩ := negateBeta_mrpp false n isStrict_nil hm
  exact ⟨f, by
    simp only [mpDualStableGrothendieckP, dualStableGrothendieckP, countSemistandardMarkedRpp_eq n hm]; exact h1, h2, h4⟩

theorem family_mpGq (n : Nat) : IsMrppFamily true n (PolyVal.mk Poly.beta) (fun mu => mpDualStableGrothendieckQ n mu []) := by
  refine ⟨fun mu h => by
    simp only [mpDualStableGrothendieckQ, dualStableGrothendieckQ, (C62_not_strict true n h).2]; rfl, fun mu hm => ?_⟩
  obtain ⟨f, h1, h2, _, h4, _⟩ := negateBeta_mrpp true n isStrict_nil hm
  exact ⟨f, by
    simp only [mpDualStableGrothendieckQ, dualStableGrothendieckQ, countSemistandardMarkedRpp_eq n hm]; exact h1, h2, h4⟩

/-- C65: `gp_expansion` terminates on exactly the combinations of dual stable Grothendieck P-polynomials and finds their
coefficients. -/
theorem C65_gp_expansion (n : Nat) : ExpansionIn n (mrppShapeSum false (-Laurent.xpow 0 1) n) (gpExpansion n) := by
  have := mrpp_expansion (by rw [PolyVal.den_neg]; exact betaOnly_neg betaOnly_beta) (family_gp n)
  rwa [PolyVal.den_neg, PolyVal.den_mk, den_beta] at this

/-- C65: the same for `gq_expansion`. -/
theorem C65_gq_expansion (n : Nat) : ExpansionIn n (mrppShapeSum true (-Laurent.xpow 0 1) n) (gqExpansion n) := by
  have := mrpp_expansion (by rw [PolyVal.den_neg]; exact betaOnly_neg betaOnly_beta) (family_gq n)
  rwa [PolyVal.den_neg, PolyVal.den_mk, den_beta] at this

/-- C65: the same for `mp_gp_expansion`, with `β` in place of `-β`. -/
theorem C65_mp_gp_expansion (n : Nat) : ExpansionIn n (mrppShapeSum false (Laurent.xpow 0 1) n) (mpGpExpansion n) := by
  have := mrpp_expansion betaOnly_beta (family_mpGp n)
  rwa [PolyVal.den_mk, den_beta] at this

/-- C65: the same for `mp_gq_expansion`, with `β` in place of `-β`. -/
theorem C65_mp_gq_expansion (n : Nat) : ExpansionIn n (mrppShapeSum true (Laurent.xpow 0 1) n) (mpGqExpansion n) := by
  have := mrpp_expansion betaOnly_beta (family_mpGq n)
  rwa [PolyVal.den_mk, den_beta] at this

/-- C65: the number of marked reverse plane partitions of shape and weight `mu`, by which the expansions divide. -/
theorem C65_leading (dn : Bool) (n : Nat) {mu : List Nat} (hm : IsStrict mu) (hl : mu.length ≤ n) :
    ∃ S, semistandardMarkedRpp dn [] n mu = some S ∧
      (S.filter (fun T => ∃ w, markedRppWeight n T = some w ∧ ∀ i < n, w.getD i 0 = mu.getD i 0)).card =
        if dn then 2 ^ mu.length else 1 := by
  obtain ⟨d, S, h1, h2, h3⟩ := C63_count_marked_rpp dn n hm isStrict_nil
  refine ⟨S, h2, ?_⟩
  have h := (h3 mu).1 ⟨isStrict_isPartition hm, hl⟩
  rw [countSemistandardMarkedRpp_eq n hm, Option.some_inj] at h1
  rw [← h1, mrppCount_self hm hl] at h
  cases dn
  · simpa using h.symm
  · simp only [if_true] at h ⊢
    exact_mod_cast h.symm

/-- `gp_(2, 1) + β gp_(3)` in 3 variables. -/
def exampleGpSum : Option SymPoly :=
  (dualStableGrothendieckP 3 [2, 1] []).bind (fun f =>
    (dualStableGrothendieckP 3 [3] []).map (fun g => Vec.add f (Vec.smul g (PolyVal.mk Poly.beta))))

example : (exampleGpSum.bind (gpExpansion 3 10)).map (fun a => [a.get [2, 1], a.get [3], a.get [2]]) =
    some [1, PolyVal.mk Poly.beta, 0] := by decide +kernel

theorem gs_21 : (dualStableGrothendieckS 2 [2, 1] []).isSome = true := by decide +kernel

theorem gs_3 : (dualStableGrothendieckS 2 [3] []).isSome = true := by decide +kernel

/-- C65 (finding): `gs_expansion` raises an AssertionError on `gs_(2,1)` in two variables: it starts with `gs_(3)`, after
which `4 x_1^2 x_2 + ...` is left over, and the coefficient in `gs_(2,1)` is 8. -/
theorem C65_gs_expansion_fails :
    ∃ f, dualStableGrothendieckS 2 [2, 1] [] = some f ∧ ∀ fuel, gsExpansion 2 fuel f = none := by
  refine ⟨(dualStableGrothendieckS 2 [2, 1] []).get gs_21, (Option.some_get gs_21).symm, fun fuel => ?_⟩
  refine expansion_rec (g := (dualStableGrothendieckS 2 [3] []).get gs_3) (t := [3]) (cdeg := 0) (q := 1) (b := Poly.one)
    fuel (by decide +kernel) (by decide +kernel) (Option.some_get gs_3).symm (by decide +kernel) (by decide +kernel)
    (by decide +kernel) (fun fuel => ?_)
  exact expansion_mod (g := (dualStableGrothendieckS 2 [2, 1] []).get gs_21) (t := [2, 1]) (cdeg := 0) (r := 4) fuel
    (by decide +kernel) (by decide +kernel) (Option.some_get gs_21).symm (by decide +kernel) (by decide +kernel)
    (by decide +kernel)

end Verif.Symm
