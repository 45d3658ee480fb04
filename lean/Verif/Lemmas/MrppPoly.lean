import Verif.Lemmas.MrppTop
import Verif.Lemmas.MarkedExpansion
import Verif.Model.MarkedRppPoly

/-! The polynomials of marked reverse plane partitions. -/

attribute [-simp] List.getD_eq_getElem?_getD

namespace Verif.Symm

open Tableaux Verif.Part Partition

/-- The generating function of the marked reverse plane partitions in `S`: a letter `i` gives a factor `x_i` for every
column that contains it, `i'` a factor `x_i` for every row that contains it, and every further box gives a factor `w`. -/
noncomputable def mrppSum (w : Laurent) (n : Nat) (S : Finset Tab) : Laurent :=
  ∑ T ∈ S, w ^ (T.items.length - ((markedRppWeight n T).getD []).sum) * ∏ i ∈ Finset.range n,
    Laurent.xpow ((i : ℤ) + 1) (((markedRppWeight n T).getD []).getD i 0 : Nat)

variable {dn : Bool} {mu nu k : List Nat} {n : Nat}

theorem mrppCount_pos (hn : IsStrict nu) (hm : IsStrict mu) (hk : IsPartition k ∧ k.length ≤ n) :
    (mrppCount dn nu n mu).getD k 0 = wCount (mrppGen dn nu n mu) n mrppWt (fun i => k.getD i 0) := by
  rw [(mrpp_countSetup hn).count n mu hm, if_pos hk,
    ← (mrpp_countSetup hn).stable hk.2 hm (fun i h1 _ => List.getD_eq_default _ _ h1)]

theorem mrppCount_neg (hn : IsStrict nu) (hm : IsStrict mu) (hk : ¬ (IsPartition k ∧ k.length ≤ n)) :
    (mrppCount dn nu n mu).getD k 0 = 0 := by
  rw [(mrpp_countSetup hn).count n mu hm, if_neg hk]

theorem mrpp_summand (hn : IsStrict nu) (hm : IsStrict mu) (w : Laurent) {T : Tab} (hT : T ∈ mrppGen dn nu n mu) :
    w ^ (mu.sum - nu.sum - ∑ i ∈ Finset.range n, mrppWt T i) * xm (xden Poly.x) 1 (wtL n mrppWt T) =
      w ^ (T.items.length - ((markedRppWeight n T).getD []).sum) * ∏ i ∈ Finset.range n,
        Laurent.xpow ((i : ℤ) + 1) (((markedRppWeight n T).getD []).getD i 0 : Nat) := by
  have hI := (isTab_mrppGen hn n hm).1 hT
  have := isTab_length hI
  rw [markedRppWeight_eq hI, Option.getD_some, sum_wtL]
  congr 1
  · congr 1
    omega
  · rw [xm_wtL]
    refine Finset.prod_congr rfl (fun i hi => ?_)
    rw [getD_wtL _ _ _ (Finset.mem_range.1 hi), den_x, AddMonoidAlgebra.single_pow, Laurent.xpow]
    congr 1
    · simp
    · simp

theorem phi_mrpp (hn : IsStrict nu) (hm : IsStrict mu) (w : PolyVal) {u : List Nat →₀ PolyVal}
    (hu : ∀ k, u k = ((mrppCount dn nu n mu).getD k 0 : PolyVal) * w ^ (mu.sum - nu.sum - k.sum)) :
    phi (xden Poly.x) n u = mrppSum w.den n (mrppGen dn nu n mu) := by
  rw [phi_weights Poly.x (mrpp_swap hn n hm) u (fun s => w ^ (mu.sum - nu.sum - s))]
  · refine Finset.sum_congr rfl (fun T hT => ?_)
    rw [← mrpp_summand hn hm w.den hT, PolyVal.den_pow, sum_wtL]
  · intro k hk
    rw [hu, mrppCount_pos hn hm hk]
  · intro k hk
    rw [hu, mrppCount_neg hn hm hk]
    simp

theorem dualVectorize_mrpp (dn : Bool) (n : Nat) (hn : IsStrict nu) (hm : IsStrict mu) :
    ∃ f, dualVectorize n mu nu (mrppCount dn nu n mu) = some f ∧ IsSym n f ∧ Vec.NoZero f ∧
      (∀ k, f.get k = ((mrppCount dn nu n mu).getD k 0 : PolyVal) *
        (-PolyVal.mk Poly.beta) ^ (mu.sum - nu.sum - k.sum)) ∧
      (polynomial Poly.x n f).den = mrppSum (-Laurent.xpow 0 1) n (mrppGen dn nu n mu) := by
  obtain ⟨f, h1, h2, h3, h4, h5⟩ := dualVectorize_spec Poly.x (mrpp_swap hn n hm) ((mrpp_countSetup hn).keys n mu hm)
    (fun k hk => mrppCount_pos (dn := dn) hn hm hk) (fun k hk => mrppCount_neg hn hm hk) (mu := mu) (nu := nu)
    (fun T hT => sum_mrppWt_le ((isTab_mrppGen hn n hm).1 hT))
  refine ⟨f, h1, h2, h3, h4, ?_⟩
  rw [h5]
  exact Finset.sum_congr rfl (fun T hT => mrpp_summand hn hm _ hT)

theorem negateBeta_mrpp (dn : Bool) (n : Nat) (hn : IsStrict nu) (hm : IsStrict mu) :
    ∃ g, (dualVectorize n mu nu (mrppCount dn nu n mu)).bind negateBeta = some g ∧ IsSym n g ∧ Vec.NoZero g ∧
      (∀ k, g.get k = ((mrppCount dn nu n mu).getD k 0 : PolyVal) *
        PolyVal.mk Poly.beta ^ (mu.sum - nu.sum - k.sum)) ∧
      (polynomial Poly.x n g).den = mrppSum (Laurent.xpow 0 1) n (mrppGen dn nu n mu) := by
  obtain ⟨f, h1, h2, h3, h4, _⟩ := dualVectorize_mrpp dn n hn hm
  have hsub : ∀ k, (f.get k).substitute 0 (Poly.neg Poly.beta) =
      some (((mrppCount dn nu n mu).getD k 0 : PolyVal) * PolyVal.mk Poly.beta ^ (mu.sum - nu.sum - k.sum)) := by
    intro k
    rw [h4, mul_neg_pow, substitute_beta, ← mul_neg_pow, neg_neg]
  obtain ⟨g, g1, g2, g3, g4⟩ := negateBeta_spec h2
    (fun a => (a.substitute 0 (Poly.neg Poly.beta)).getD 0) (by decide +kernel) (fun k hk => by
      rw [hsub]; rfl)
  have hget : ∀ k, g.get k = ((mrppCount dn nu n mu).getD k 0 : PolyVal) *
      PolyVal.mk Poly.beta ^ (mu.sum - nu.sum - k.sum) := fun k => by rw [g4, hsub]; rfl
  refine ⟨g, by rw [h1]; exact g1, g2, g3, hget, ?_⟩
  rw [den_polynomial Poly.x n (fun k hk => (g2.keys k hk).1), phi_mrpp hn hm _ (fun k => by
    rw [Vec.den_apply]; exact hget k), PolyVal.den_mk, den_beta]

/-! ### triangularity -/

theorem mrppCount_self (hm : IsStrict mu) (hl : mu.length ≤ n) :
    (mrppCount dn [] n mu).getD mu 0 = if dn then 2 ^ mu.length else 1 := by
  have hnil : IsStrict [] := ⟨by simp, by simp⟩
  rw [mrppCount_pos hnil hm ⟨isStrict_isPartition hm, hl⟩, wCount, card_mrpp_top hm hl]
  cases dn <;> simp

theorem mrppCount_before (hm : IsStrict mu) (hk : (mrppCount dn [] n mu).getD k 0 ≠ 0) (hne : k ≠ mu) :
    beforeHigh mu k := by
  have hnil : IsStrict [] := ⟨by simp, by simp⟩
  by_cases hp : IsPartition k ∧ k.length ≤ n
  swap
  · exact absurd (mrppCount_neg hnil hm hp) hk
  rw [mrppCount_pos hnil hm hp, wCount] at hk
  obtain ⟨T, hT⟩ := Finset.card_pos.1 (Nat.pos_of_ne_zero (by exact_mod_cast hk))
  rw [Finset.mem_filter, isTab_mrppGen hnil n hm] at hT
  obtain ⟨hT, hw⟩ := hT
  have hsum : ∑ i ∈ Finset.range n, mrppWt T i = k.sum := by
    rw [Finset.sum_congr rfl (fun i hi => hw i (Finset.mem_range.1 hi)), sum_range_length hp.2]
  have hle := sum_mrppWt_le hT
  rw [hsum, List.sum_nil, add_zero] at hle
  rcases Nat.lt_or_ge k.sum mu.sum with h | h
  · exact Or.inl h
  have he : mu.sum = k.sum := by omega
  obtain ⟨h1, h2⟩ := mrpp_top hT (by rw [hsum, he]; rfl)
  have hcount : (markedCount true false true [] n mu).getD k 0 ≠ 0 := by
    rw [markedCount_weights (sh := true) (by simp) hnil hm, if_pos hp, wCount]
    have : 0 < ((markedGen true false true [] n mu).filter (fun T => ∀ i < n, markWeight T i = k.getD i 0)).card :=
      Finset.card_pos.2 ⟨T, Finset.mem_filter.2 ⟨(isTab_markedGen (sh := true) (by simp) hnil n hm).2 h1,
        fun i hi => by rw [← h2 i hi, hw i hi]⟩⟩
    exact_mod_cast this.ne'
  rcases markedCount_before hm hcount hne with h | h
  · omega
  · exact Or.inr h

/-- `function` gives the polynomials of marked reverse plane partitions, and `none` for partitions that are not strict. -/
def IsMrppFamily (dn : Bool) (n : Nat) (w : PolyVal) (function : List Nat → Option SymPoly) : Prop :=
  (∀ mu, ¬ mu.Pairwise (· > ·) → function mu = none) ∧ ∀ mu, IsStrict mu → ∃ g, function mu = some g ∧ IsSym n g ∧
    ∀ k, g.get k = ((mrppCount dn [] n mu).getD k 0 : PolyVal) * w ^ (mu.sum - ([] : List Nat).sum - k.sum)

theorem mrpp_triangular {w : PolyVal} (hw : BetaOnly w.den) {function : List Nat → Option SymPoly}
    (hF : IsMrppFamily dn n w function) :
    TriangularOn n (fun mu => IsStrict mu ∧ mu.length ≤ n) (fun mu => if dn then 2 ^ mu.length else 1) function
      beforeHigh := by
  refine ⟨beforeHigh_trans, beforeHigh_irrefl, fun mu ⟨hm, hl⟩ => ⟨by cases dn <;> simp, ?_⟩⟩
  obtain ⟨g, h1, h2, h3⟩ := hF.2 mu hm
  refine ⟨g, h1, h2, ?_, fun k => ?_, fun k hk hne => ?_⟩
  · rw [h3, mrppCount_self hm hl]; simp
  · rw [h3, PolyVal.den_mul, PolyVal.den_intCast, PolyVal.den_pow]
    exact betaOnly_mul (betaOnly_int _) (betaOnly_pow hw _)
  · refine mrppCount_before (dn := dn) (n := n) hm ?_ hne
    intro h
    rw [h3, h] at hk
    simp at hk

/-- The generating function of the marked reverse plane partitions of shape `mu`. -/
noncomputable def mrppShapeSum (dn : Bool) (w : Laurent) (n : Nat) (mu : List Nat) : Laurent :=
  mrppSum w n ((semistandardMarkedRpp dn [] n mu).getD ∅)

theorem phi_mrppFamily {w : PolyVal} {function : List Nat → Option SymPoly} (hF : IsMrppFamily dn n w function)
    (hm : IsStrict mu) : phi (xden Poly.x) n (fden function mu) = mrppShapeSum dn w.den n mu := by
  have hnil : IsStrict [] := ⟨by simp, by simp⟩
  obtain ⟨g, h1, h2, h3⟩ := hF.2 mu hm
  rw [fden, h1, Option.map_some, Option.getD_some, phi_mrpp (dn := dn) hnil hm w (fun k => by
    rw [Vec.den_apply]; exact h3 k), mrppShapeSum, semistandardMarkedRpp_eq n hm, Option.getD_some]

end Verif.Symm
