import Verif.Lemmas.TransDual
import Verif.Props.MarkedDual
import Verif.Props.Marked
import Verif.Props.Tableau
import Mathlib.Data.Set.Card

/-! # C101, C102: transposed dual stable Grothendieck polynomials -/

attribute [-simp] List.getD_eq_getElem?_getD

namespace Verif.Symm

open Tableaux Verif.Part Partition

/-! ### specification -/

/-- The boxes of `T` that hold `a`. -/
def holding (T : Tab) (a : Int) : Set (Nat × Nat) := {b | T.get? b = some [a]}

/-- The number of rows of `T` in which `a` occurs. -/
noncomputable def rowsHolding (T : Tab) (a : Int) : Nat := {r | ∃ c, (r, c) ∈ holding T a}.ncard

/-- The number of columns of `T` in which `a` occurs. -/
noncomputable def colsHolding (T : Tab) (a : Int) : Nat := {c | ∃ r, (r, c) ∈ holding T a}.ncard

/-- The product over `i` of `x_i ^ r_i * (x_i + w) ^ (a_i - r_i)`, where `i` occurs in `a_i` boxes and in `r_i` rows. -/
noncomputable def rowTerm (w : Laurent) (n : Nat) (T : Tab) : Laurent :=
  ∏ i ∈ Finset.Icc 1 n, (Laurent.xpow i 1 ^ rowsHolding T i * (Laurent.xpow i 1 + w) ^ ((holding T i).ncard - rowsHolding T i))

/-- The product over `i` of `x_i ^ (r_i + c_i) * (x_i + w) ^ (a_i - r_i - c_i)`, where `i` and `i'` occur in `a_i` boxes,
`i` occurs in `r_i` rows and `i'` in `c_i` columns. -/
noncomputable def lineTerm (w : Laurent) (n : Nat) (T : Tab) : Laurent :=
  ∏ i ∈ Finset.Icc 1 n, (Laurent.xpow i 1 ^ (rowsHolding T i + colsHolding T (-i)) *
    (Laurent.xpow i 1 + w) ^ ((holding T i ∪ holding T (-i)).ncard - rowsHolding T i - colsHolding T (-i)))

/-! ### the specification agrees with the weights used in the lemmas -/

theorem holding_eq {T : Tab} (h : SingleTab T) (a : Int) : holding T a = (boxesWith T a : Set (Nat × Nat)) := by
  ext b
  rw [Finset.mem_coe, mem_boxesWith, holding, Set.mem_setOf_eq, Tab.ent]
  constructor
  · intro hb
    rw [hb]
    simp
  · intro hb
    cases hg : T.get? b with
    | none => rw [hg] at hb; simp at hb
    | some s =>
      obtain ⟨x, hx⟩ := h (b, s) (Tab.get?_eq_some.1 hg)
      rw [hg] at hb
      simp only at hx
      subst hx
      simp only [Option.getD_some, List.mem_singleton] at hb
      rw [hb]

theorem ncard_holding {T : Tab} (h : SingleTab T) (a : Int) : (holding T a).ncard = (boxesWith T a).card := by
  rw [holding_eq h, Set.ncard_coe_finset]

theorem rowsHolding_eq {T : Tab} (h : SingleTab T) (a : Int) :
    rowsHolding T a = ((boxesWith T a).image Prod.fst).card := by
  rw [rowsHolding, ← Set.ncard_coe_finset]
  congr 1
  ext r
  rw [holding_eq h]
  simp

theorem colsHolding_eq {T : Tab} (h : SingleTab T) (a : Int) :
    colsHolding T a = ((boxesWith T a).image Prod.snd).card := by
  rw [colsHolding, ← Set.ncard_coe_finset]
  congr 1
  ext r
  rw [holding_eq h]
  simp

theorem ncard_union {T : Tab} (h : SingleTab T) (i : Nat) : (holding T ((i : Int) + 1) ∪ holding T (-((i : Int) + 1))).ncard =
    (boxesWith T ((i : Int) + 1)).card + (boxesWith T (-((i : Int) + 1))).card := by
  rw [← ncard_holding h, ← ncard_holding h]
  refine Set.ncard_union_eq ?_ (by rw [holding_eq h]; exact Finset.finite_toSet _) (by rw [holding_eq h]; exact Finset.finite_toSet _)
  rw [Set.disjoint_left]
  intro b hb hb'
  rw [holding, Set.mem_setOf_eq] at hb hb'
  rw [hb, Option.some_inj, List.cons.injEq] at hb'
  omega

theorem xden_xpow (i : Nat) : xden Poly.x i = Laurent.xpow i 1 := den_x i

theorem prod_Icc_one {A : Type*} [CommMonoid A] (f : Nat → A) (n : Nat) :
    ∏ i ∈ Finset.Icc 1 n, f i = ∏ i ∈ Finset.range n, f (i + 1) := by
  rw [Finset.range_eq_Ico, Finset.prod_Ico_add' f 0 n 1]
  rfl

theorem rowTerm_eq {T : Tab} (h : SingleTab T) (w : Laurent) (n : Nat) : rowTerm w n T =
    ∏ i ∈ Finset.range n, (xden Poly.x (i + 1) ^ rowLineWt T i * (xden Poly.x (i + 1) + w) ^ rowRestWt T i) := by
  rw [rowTerm, prod_Icc_one]
  refine Finset.prod_congr rfl (fun i _ => ?_)
  rw [xden_xpow, rowsHolding_eq h, ncard_holding h, rowLineWt, rowRestWt]
  push_cast
  rfl

theorem lineTerm_eq {T : Tab} (h : SingleTab T) (w : Laurent) (n : Nat) : lineTerm w n T =
    ∏ i ∈ Finset.range n, (xden Poly.x (i + 1) ^ lineWt T i * (xden Poly.x (i + 1) + w) ^ restWt T i) := by
  rw [lineTerm, prod_Icc_one]
  refine Finset.prod_congr rfl (fun i _ => ?_)
  have h1 : ((boxesWith T ((i : Int) + 1)).image Prod.fst).card ≤ _ := Finset.card_image_le
  have h2 : ((boxesWith T (-((i : Int) + 1))).image Prod.snd).card ≤ _ := Finset.card_image_le
  rw [xden_xpow, rowsHolding_eq h, colsHolding_eq h, lineWt, restWt]
  push_cast
  rw [ncard_union h]
  congr 2
  omega

/-! ### C101 -/

theorem marked_sum_eq (dp : Bool) (n : Nat) {mu nu : List Nat} (hm : IsStrict mu) (hn : IsStrict nu) (w : Laurent) :
    ∑ T ∈ markedGen true false dp nu n mu, lineTerm w n T = ∑ T ∈ markedGen true false dp nu n mu,
      ∏ i ∈ Finset.range n, (xden Poly.x (i + 1) ^ lineWt T i * (xden Poly.x (i + 1) + w) ^ restWt T i) := by
  refine Finset.sum_congr rfl (fun T hT => lineTerm_eq (singleTab_of_isTab (R := markRules true false dp) rfl
    ((isTab_markedGen (fun h => by simp at h) (sh := true) hn n hm).1 hT)) w n)

/-- C101: for partitions, `slow_transposed_dual_stable_grothendieck(n, mu, nu, beta)` with `beta` either `-BETA` (the
default) or `BETA` raises no exception, in whatever order the set of tableaux is traversed, and is the sum over the
semistandard tableaux of the products `rowTerm`, with `w = -beta`. -/
theorem C101_transposed (n : Nat) {mu nu : List Nat} (hm : IsPartition mu) (hn : IsPartition nu) {beta : Poly}
    (hb : beta = Poly.neg Poly.beta ∨ beta = Poly.beta) {tabs : List Tab} (ht : ListsSet tabs (semistandard false nu n mu)) :
    ∃ f, transposedDual n mu nu beta tabs = some f ∧ IsSym n f ∧ Vec.NoZero f ∧
      (polynomial Poly.x n f).den = ∑ T ∈ semistandard false nu n mu, rowTerm (-beta.den) n T := by
  obtain ⟨f, h1, h2, h3, _, h5⟩ := transposedDual_spec Poly.x n hm hn hb ht
  refine ⟨f, h1, h2, h3, ?_⟩
  rw [h5]
  refine Finset.sum_congr rfl (fun T hT => ?_)
  rw [rowTerm_eq (singleTab_of_isTab (R := ssRules) (lam := nu) (mu := mu) (K := n) rfl (by
    rwa [semistandard_eq_allTabs hn hm, mem_allTabs ssRules_inj hn n hm] at hT))]
  simp only [sub_eq_add_neg]

/-- C101: the same for strict partitions and `slow_transposed_dual_stable_grothendieck_p` (without primes on the diagonal)
and `slow_transposed_dual_stable_grothendieck_q` (with primes on the diagonal), with the products `lineTerm` over the
shifted marked tableaux. -/
theorem C101_transposed_marked (dp : Bool) (n : Nat) {mu nu : List Nat} (hm : IsStrict mu) (hn : IsStrict nu) {beta : Poly}
    (hb : beta = Poly.neg Poly.beta ∨ beta = Poly.beta) {S : Finset Tab}
    (hS : semistandardShiftedMarked dp false nu n mu = some S) {tabs : List Tab} (ht : ListsSet tabs S) :
    ∃ f, transposedDualMarked n mu nu beta tabs = some f ∧ IsSym n f ∧ Vec.NoZero f ∧
      (polynomial Poly.x n f).den = ∑ T ∈ S, lineTerm (-beta.den) n T := by
  rw [semistandardShiftedMarked_eq hn n hm, Option.some_inj] at hS
  subst hS
  obtain ⟨f, h1, h2, h3, _, h5⟩ := transposedDualMarked_spec Poly.x dp n hm hn hb ht
  refine ⟨f, h1, h2, h3, ?_⟩
  rw [h5, marked_sum_eq dp n hm hn]
  simp only [sub_eq_add_neg]

/-- C101: for partitions, `slow_transposed_dual_stable_grothendieck_s(n, mu, nu, beta)` is the same for the marked tableaux
of the unshifted skew shape `mu/nu`, moved to the right by the length of `mu`. -/
theorem C101_transposed_s (n : Nat) {mu nu : List Nat} (hm : IsPartition mu) (hn : IsPartition nu) {beta : Poly}
    (hb : beta = Poly.neg Poly.beta ∨ beta = Poly.beta) {S : Finset Tab}
    (hS : ∀ T, T ∈ S ↔ (∀ i < mu.length, nu.getD i 0 ≤ mu.getD i 0) ∧
      IsTableauOf false (MovedSkew mu nu) (IsMarked true n (MovedSkew mu nu)) T.get?) {tabs : List Tab}
    (ht : ListsSet tabs S) :
    ∃ f, transposedDualS n mu nu beta tabs = some f ∧ IsSym n f ∧ Vec.NoZero f ∧
      (polynomial Poly.x n f).den = ∑ T ∈ S, lineTerm (-beta.den) n T := by
  obtain ⟨S', h1, h2⟩ := C51_semistandard_shifted_marked true false n (isStrict_staircaseMu hm)
    (isStrict_staircaseNu (mu := mu) hn)
  have he : S = S' := by
    ext T
    rw [hS, h2, movedSkew_eq]
    refine and_congr_left (fun _ => ?_)
    rw [shiftedDiagram_subset]
    refine forall_congr' (fun i => ?_)
    rw [getD_staircaseMu, getD_staircaseNu]
    by_cases hi : i < mu.length
    · rw [if_pos hi, if_pos hi]
      constructor
      · intro h; have := h hi; omega
      · intro h _; omega
    · rw [if_neg hi, if_neg hi]
      exact ⟨fun _ => le_rfl, fun _ h => absurd h hi⟩
  subst he
  obtain ⟨f, h3, h4⟩ := C101_transposed_marked true n (isStrict_staircaseMu hm) (isStrict_staircaseNu (mu := mu) hn) hb h1 ht
  refine ⟨f, ?_, h4⟩
  rw [transposedDualS, if_pos, h3]
  by_cases h0 : mu.length = 0
  · exact Or.inl h0
  · right
    rw [List.getD_eq_getElem _ _ (by omega)]
    exact hm.2 _ (List.getElem_mem _)

/-- The shifted marked tableaux of shape (2) with entries at most 2 and no prime on the diagonal. -/
def exampleRows : List Tab :=
  [(Tab.empty.set (1, 1) [1]).set (1, 2) [1], (Tab.empty.set (1, 1) [1]).set (1, 2) [-2],
   (Tab.empty.set (1, 1) [1]).set (1, 2) [2], (Tab.empty.set (1, 1) [2]).set (1, 2) [2]]

example : exampleRows.Nodup ∧ semistandardShiftedMarked false false [] 2 [2] = some exampleRows.toFinset := by decide +kernel

/-- `x_1 (x_1 + β) + 2 x_1 x_2 + x_2 (x_2 + β)`. -/
example : (transposedDualMarked 2 [2] [] (Poly.neg Poly.beta) exampleRows).map
    (fun f => [f.get [2], f.get [1, 1], f.get [1], f.get []]) = some [1, 2, PolyVal.mk Poly.beta, 0] := by decide +kernel

/-- The semistandard tableaux of shape (1, 1) with entries at most 3: each entry is in a row of its own. -/
example : (transposedDual 3 [1, 1] [] (Poly.neg Poly.beta)
    [(Tab.empty.set (1, 1) [1]).set (2, 1) [2], (Tab.empty.set (1, 1) [1]).set (2, 1) [3],
      (Tab.empty.set (1, 1) [2]).set (2, 1) [3]]).map (fun f => [f.get [2], f.get [1, 1], f.get [1]]) = some [0, 1, 0] := by
  decide +kernel

/-! ### C102 -/

theorem mrppSum_eq {dn : Bool} {n : Nat} {mu nu : List Nat} (hn : IsStrict nu) (hm : IsStrict mu) (w : Laurent) :
    mrppSum w n (mrppGen dn nu n mu) = ∑ T ∈ mrppGen dn nu n mu, w ^ (mu.sum - nu.sum - ∑ i ∈ Finset.range n, mrppWt T i) *
      ∏ i ∈ Finset.range n, xden Poly.x (i + 1) ^ mrppWt T i := by
  rw [mrppSum]
  refine Finset.sum_congr rfl (fun T hT => ?_)
  rw [← mrpp_summand hn hm w hT, xm_wtL]

theorem sum_le_of_leq {mu nu : List Nat} (h : Leq nu mu) : nu.sum ≤ mu.sum := by
  rw [← sum_range_length (le_refl nu.length), ← sum_range_length (show mu.length ≤ nu.length + mu.length by omega)]
  exact (Finset.sum_le_sum (fun i hi => h i (Finset.mem_range.1 hi))).trans
    (Finset.sum_le_sum_of_subset (Finset.range_mono (by omega)))

theorem duality (dn : Bool) (n : Nat) {lam mu : List Nat} (hl : IsStrict lam) (hm : IsStrict mu) :
    ∑ k ∈ innerAbove mu lam, (-1) ^ (lam.sum - k.sum) * mrppSum (-Laurent.xpow 0 1) n (mrppGen dn k n lam) *
        ∑ T ∈ markedGen true false dn mu n k, lineTerm (Laurent.xpow 0 1) n T = (if lam = mu then 1 else 0) ∧
    ∑ k ∈ innerAbove mu lam, (-1) ^ (k.sum - mu.sum) * (∑ T ∈ markedGen true false dn k n lam, lineTerm (Laurent.xpow 0 1) n T) *
        mrppSum (-Laurent.xpow 0 1) n (mrppGen dn mu n k) = if lam = mu then 1 else 0 := by
  obtain ⟨h1, h2⟩ := dual_ring dn n hl hm (fun i => xden Poly.x (i + 1) * Laurent.xpow 0 (-1))
  have hst : ∀ k ∈ innerAbove mu lam, IsStrict k ∧ k.sum ≤ lam.sum ∧ mu.sum ≤ k.sum := fun k hk => by
    obtain ⟨a, b, c⟩ := (mem_innerAbove hl).1 hk
    exact ⟨a, sum_le_of_leq b, sum_le_of_leq c⟩
  have hpow : ∀ s : Nat, lam = mu → s = lam.sum - mu.sum → Laurent.xpow 0 1 ^ s = (1 : Laurent) := by
    rintro s rfl rfl
    simp
  have hfin : ∀ z : Laurent, z = (if lam = mu then 1 else 0) →
      Laurent.xpow 0 1 ^ (lam.sum - mu.sum) * z = if lam = mu then 1 else 0 := by
    intro z hz
    rw [hz]
    by_cases h : lam = mu
    · rw [if_pos h, hpow _ h rfl, mul_one]
    · rw [if_neg h, mul_zero]
  constructor
  · rw [← hfin _ h1, Finset.mul_sum]
    refine Finset.sum_congr rfl (fun k hk => ?_)
    obtain ⟨hk1, hk2, hk3⟩ := hst k hk
    rw [marked_sum_eq dn n hk1 hm, mrppSum_eq hk1 hl, ← mrpp_scale dn n hl hk1 xpow_inv, ← trans_scale dn n hk1 hm xpow_inv,
      show lam.sum - mu.sum = (lam.sum - k.sum) + (k.sum - mu.sum) by omega, pow_add]
    ring
  · rw [← hfin _ h2, Finset.mul_sum]
    refine Finset.sum_congr rfl (fun k hk => ?_)
    obtain ⟨hk1, hk2, hk3⟩ := hst k hk
    rw [marked_sum_eq dn n hl hk1, mrppSum_eq hm hk1, ← trans_scale dn n hl hk1 xpow_inv,
      show lam.sum - mu.sum = (lam.sum - k.sum) + (k.sum - mu.sum) by omega, pow_add]
    have := mrpp_scale dn n hk1 hm xpow_inv (fun i => xden Poly.x (i + 1))
    linear_combination (-(Laurent.xpow 0 1 ^ (lam.sum - k.sum) *
      transWG dn n lam k fun i => xden Poly.x (i + 1) * Laurent.xpow 0 (-1))) * this

theorem mem_between {lam mu : List Nat} (hl : IsStrict lam) {K : Finset (List Nat)} (hK : ∀ k, k ∈ K ↔ IsStrict k ∧
    ShiftedDiagram mu ⊆ ShiftedDiagram k ∧ ShiftedDiagram k ⊆ ShiftedDiagram lam) : K = innerAbove mu lam := by
  ext k
  rw [hK, mem_innerAbove hl, leq_iff_subset, leq_iff_subset]
  exact and_congr_right (fun _ => and_comm)

theorem den_neg_neg_beta : -(Poly.neg Poly.beta).den = Laurent.xpow 0 1 := by
  rw [Poly.den_neg, neg_neg, den_beta]

theorem duality_of (dn : Bool) (n : Nat) {lam mu : List Nat} (hl : IsStrict lam) (hm : IsStrict mu) {K : Finset (List Nat)}
    (hK : ∀ k, k ∈ K ↔ IsStrict k ∧ ShiftedDiagram mu ⊆ ShiftedDiagram k ∧ ShiftedDiagram k ⊆ ShiftedDiagram lam)
    {tabs : List Nat → List Nat → List Tab} (ht : ∀ a b S, IsStrict a → IsStrict b →
      semistandardShiftedMarked dn false b n a = some S → ListsSet (tabs a b) S) {G : List Nat → List Nat → Option SymPoly}
    (hG : ∀ a b, IsStrict a → IsStrict b → ∃ f S, G a b = some f ∧ semistandardMarkedRpp dn b n a = some S ∧
      (polynomial Poly.x n f).den = mrppSum (-Laurent.xpow 0 1) n S) :
    (∃ g j : List Nat → SymPoly, (∀ k ∈ K, G lam k = some (g k) ∧
        transposedDualMarked n k mu (Poly.neg Poly.beta) (tabs k mu) = some (j k)) ∧
      ∑ k ∈ K, (-1) ^ (lam.sum - k.sum) * (polynomial Poly.x n (g k)).den * (polynomial Poly.x n (j k)).den =
        if lam = mu then 1 else 0) ∧
    ∃ g j : List Nat → SymPoly, (∀ k ∈ K, G k mu = some (g k) ∧
        transposedDualMarked n lam k (Poly.neg Poly.beta) (tabs lam k) = some (j k)) ∧
      ∑ k ∈ K, (-1) ^ (k.sum - mu.sum) * (polynomial Poly.x n (j k)).den * (polynomial Poly.x n (g k)).den =
        if lam = mu then 1 else 0 := by
  have hG' : ∀ a b, ∃ f, IsStrict a → IsStrict b → G a b = some f ∧
      (polynomial Poly.x n f).den = mrppSum (-Laurent.xpow 0 1) n (mrppGen dn b n a) := by
    intro a b
    by_cases h : IsStrict a ∧ IsStrict b
    · obtain ⟨f, S, h1, h2, h3⟩ := hG a b h.1 h.2
      rw [semistandardMarkedRpp_eq n h.1, Option.some_inj] at h2
      subst h2
      exact ⟨f, fun _ _ => ⟨h1, h3⟩⟩
    · exact ⟨ofMono 0 [], fun h1 h2 => absurd ⟨h1, h2⟩ h⟩
  have hJ' : ∀ a b, ∃ f, IsStrict a → IsStrict b →
      transposedDualMarked n a b (Poly.neg Poly.beta) (tabs a b) = some f ∧
      (polynomial Poly.x n f).den = ∑ T ∈ markedGen true false dn b n a, lineTerm (Laurent.xpow 0 1) n T := by
    intro a b
    by_cases h : IsStrict a ∧ IsStrict b
    · have hS := semistandardShiftedMarked_eq (sv := false) (dp := dn) h.2 n h.1
      obtain ⟨f, h1, _, _, h3⟩ := C101_transposed_marked dn n h.1 h.2 (Or.inl rfl) hS (ht a b _ h.1 h.2 hS)
      rw [den_neg_neg_beta] at h3
      exact ⟨f, fun _ _ => ⟨h1, h3⟩⟩
    · exact ⟨ofMono 0 [], fun h1 h2 => absurd ⟨h1, h2⟩ h⟩
  choose g hg using hG'
  choose j hj using hJ'
  have hst : ∀ k ∈ K, IsStrict k := fun k hk => ((hK k).1 hk).1
  obtain ⟨d1, d2⟩ := duality dn n hl hm
  rw [← mem_between hl hK] at d1 d2
  refine ⟨⟨fun k => g lam k, fun k => j k mu, fun k hk => ⟨(hg _ _ hl (hst k hk)).1, (hj _ _ (hst k hk) hm).1⟩, ?_⟩,
    fun k => g k mu, fun k => j lam k, fun k hk => ⟨(hg _ _ (hst k hk) hm).1, (hj _ _ hl (hst k hk)).1⟩, ?_⟩
  · rw [← d1]
    exact Finset.sum_congr rfl (fun k hk => by rw [(hg _ _ hl (hst k hk)).2, (hj _ _ (hst k hk) hm).2])
  · rw [← d2]
    exact Finset.sum_congr rfl (fun k hk => by rw [(hg _ _ (hst k hk) hm).2, (hj _ _ hl (hst k hk)).2])

/-- C102: for strict partitions `lam` and `mu`, in any number of variables, the sums over the strict partitions `k` between
`mu` and `lam` of `(-1)^|lam/k| gp_{lam/k} jp_{k/mu}` and of `(-1)^|k/mu| jp_{lam/k} gp_{k/mu}` are 1 if `lam = mu` and 0
otherwise.  Here `gp` and `jp` are the polynomials of `dual_stable_grothendieck_p` and of
`slow_transposed_dual_stable_grothendieck_p`. -/
theorem C102_duality_p (n : Nat) {lam mu : List Nat} (hl : IsStrict lam) (hm : IsStrict mu) {K : Finset (List Nat)}
    (hK : ∀ k, k ∈ K ↔ IsStrict k ∧ ShiftedDiagram mu ⊆ ShiftedDiagram k ∧ ShiftedDiagram k ⊆ ShiftedDiagram lam)
    {tabs : List Nat → List Nat → List Tab} (ht : ∀ a b S, IsStrict a → IsStrict b →
      semistandardShiftedMarked false false b n a = some S → ListsSet (tabs a b) S) :
    (∃ g j : List Nat → SymPoly, (∀ k ∈ K, dualStableGrothendieckP n lam k = some (g k) ∧
        transposedDualMarked n k mu (Poly.neg Poly.beta) (tabs k mu) = some (j k)) ∧
      ∑ k ∈ K, (-1) ^ (lam.sum - k.sum) * (polynomial Poly.x n (g k)).den * (polynomial Poly.x n (j k)).den =
        if lam = mu then 1 else 0) ∧
    ∃ g j : List Nat → SymPoly, (∀ k ∈ K, dualStableGrothendieckP n k mu = some (g k) ∧
        transposedDualMarked n lam k (Poly.neg Poly.beta) (tabs lam k) = some (j k)) ∧
      ∑ k ∈ K, (-1) ^ (k.sum - mu.sum) * (polynomial Poly.x n (j k)).den * (polynomial Poly.x n (g k)).den =
        if lam = mu then 1 else 0 :=
  duality_of false n hl hm hK ht (G := dualStableGrothendieckP n) (fun a b ha hb => by
    obtain ⟨f, S, h1, _, _, h4, h5⟩ := C64_dual_stable_grothendieck_p n ha hb
    exact ⟨f, S, h1, h4, h5⟩)

/-- C102: the same for `dual_stable_grothendieck_q` and `slow_transposed_dual_stable_grothendieck_q`. -/
theorem C102_duality_q (n : Nat) {lam mu : List Nat} (hl : IsStrict lam) (hm : IsStrict mu) {K : Finset (List Nat)}
    (hK : ∀ k, k ∈ K ↔ IsStrict k ∧ ShiftedDiagram mu ⊆ ShiftedDiagram k ∧ ShiftedDiagram k ⊆ ShiftedDiagram lam)
    {tabs : List Nat → List Nat → List Tab} (ht : ∀ a b S, IsStrict a → IsStrict b →
      semistandardShiftedMarked true false b n a = some S → ListsSet (tabs a b) S) :
    (∃ g j : List Nat → SymPoly, (∀ k ∈ K, dualStableGrothendieckQ n lam k = some (g k) ∧
        transposedDualMarked n k mu (Poly.neg Poly.beta) (tabs k mu) = some (j k)) ∧
      ∑ k ∈ K, (-1) ^ (lam.sum - k.sum) * (polynomial Poly.x n (g k)).den * (polynomial Poly.x n (j k)).den =
        if lam = mu then 1 else 0) ∧
    ∃ g j : List Nat → SymPoly, (∀ k ∈ K, dualStableGrothendieckQ n k mu = some (g k) ∧
        transposedDualMarked n lam k (Poly.neg Poly.beta) (tabs lam k) = some (j k)) ∧
      ∑ k ∈ K, (-1) ^ (k.sum - mu.sum) * (polynomial Poly.x n (j k)).den * (polynomial Poly.x n (g k)).den =
        if lam = mu then 1 else 0 :=
  duality_of true n hl hm hK ht (G := dualStableGrothendieckQ n) (fun a b ha hb => by
    obtain ⟨f, S, h1, _, _, h4, h5⟩ := C64_dual_stable_grothendieck_q n ha hb
    exact ⟨f, S, h1, h4, h5⟩)

/-- The strict partitions between `()` and `(2,)`, and such an order of the tableaux. -/
example : (∀ k, k ∈ ({[], [1], [2]} : Finset (List Nat)) ↔
      IsStrict k ∧ ShiftedDiagram [] ⊆ ShiftedDiagram k ∧ ShiftedDiagram k ⊆ ShiftedDiagram [2]) ∧
    ∃ tabs : List Nat → List Nat → List Tab, ∀ a b S, IsStrict a → IsStrict b →
      semistandardShiftedMarked true false b 2 a = some S → ListsSet (tabs a b) S := by
  constructor
  · intro k
    have h := mem_innerAbove (lam := []) (mu := [2]) (nu := k) ⟨by decide, by decide⟩
    rw [show ({[], [1], [2]} : Finset (List Nat)) = innerAbove [] [2] by decide +kernel, h, leq_iff_subset, leq_iff_subset]
    exact and_congr_right (fun _ => and_comm)
  · refine ⟨fun a b => ((semistandardShiftedMarked true false b 2 a).getD ∅).toList, fun a b S _ _ h => ?_⟩
    simp only [h, Option.getD_some]
    exact ⟨Finset.nodup_toList _, fun T => Finset.mem_toList⟩

/-- In one variable, `gp_(2) - gp_{(2)/(1)} jp_(1) + jp_(2) = (x² - β x) - 2 x * x + (x² + β x) = 0`. -/
example : (dualStableGrothendieckP 1 [2] []).map (fun f => [f.get [2], f.get [1]]) = some [1, -PolyVal.mk Poly.beta] ∧
    (dualStableGrothendieckP 1 [2] [1]).map (fun f => [f.get [2], f.get [1]]) = some [0, 2] ∧
    (transposedDualMarked 1 [2] [] (Poly.neg Poly.beta) [(Tab.empty.set (1, 1) [1]).set (1, 2) [1]]).map
      (fun f => [f.get [2], f.get [1]]) = some [1, PolyVal.mk Poly.beta] := by decide +kernel

end Verif.Symm
