import Verif.Model.MarkedPoly
import Verif.Lemmas.MarkedSpec
import Verif.Lemmas.DualFamily

/-! The polynomials of marked tableaux. -/

attribute [-simp] List.getD_eq_getElem?_getD

namespace Verif.Symm

open Tableaux Verif.Part Partition

/-- The generating function of the tableaux in `S`: an entry `i` or `i'` gives a factor `x_i`, and every entry beyond the
first in a box a factor `w`. -/
noncomputable def tabSum (w : Laurent) (n : Nat) (S : Finset Tab) : Laurent :=
  ∑ T ∈ S, w ^ (T.entries.length - T.items.length) * ∏ i ∈ Finset.range n,
    Laurent.xpow ((i : ℤ) + 1) ((T.entries.count ((i : ℤ) + 1) + T.entries.count (-((i : ℤ) + 1)) : Nat) : ℤ)

variable {sh sv dp : Bool} {mu nu : List Nat}

open scoped Classical in
theorem markedCount_weights (hdp : sh = false → dp = true) (hn : IsShape sh nu) (hm : IsShape sh mu) (n : Nat)
    (k : List Nat) : (markedCount sh sv dp nu n mu).getD k 0 =
      if IsPartition k ∧ k.length ≤ n then wCount (markedGen sh sv dp nu n mu) n markWeight (fun i => k.getD i 0) else 0 := by
  rw [markedCount_spec hdp hn n mu hm]
  by_cases hk : IsPartition k ∧ k.length ≤ n
  · rw [if_pos hk, if_pos hk, ← markN_stable hdp hn hm hk.2 (fun i h1 _ => List.getD_eq_default _ _ h1), markN]
  · rw [if_neg hk, if_neg hk]

/-- A tableau with the weight of a nonzero count. -/
theorem markedCount_exists (hdp : sh = false → dp = true) (hn : IsShape sh nu) (hm : IsShape sh mu) {n : Nat}
    {k : List Nat} (hk : (markedCount sh sv dp nu n mu).getD k 0 ≠ 0) : IsPartition k ∧ k.length ≤ n ∧
      ∃ T, IsTab (markRules sh sv dp) nu (2 * n) mu T ∧ (∀ i < n, markWeight T i = k.getD i 0) ∧
        k.sum = T.entries.length := by
  rw [markedCount_weights hdp hn hm] at hk
  by_cases h : IsPartition k ∧ k.length ≤ n
  · rw [if_pos h, wCount] at hk
    obtain ⟨T, hT⟩ := Finset.card_pos.1 (Nat.pos_of_ne_zero (by exact_mod_cast hk))
    rw [Finset.mem_filter, isTab_markedGen hdp hn n hm] at hT
    refine ⟨h.1, h.2, T, hT.1, hT.2, ?_⟩
    rw [← sum_markWeight hT.1, sum_wtL, Finset.sum_congr rfl (fun i hi => hT.2 i (Finset.mem_range.1 hi)), sum_range_length h.2]
  · rw [if_neg h] at hk
    exact absurd rfl hk

theorem markedCount_ge (hdp : sh = false → dp = true) (hn : IsShape sh nu) (hm : IsShape sh mu) {n : Nat}
    {k : List Nat} (hk : (markedCount sh sv dp nu n mu).getD k 0 ≠ 0) : mu.sum ≤ k.sum + nu.sum ∧ nu.sum ≤ mu.sum := by
  obtain ⟨_, _, T, hT, _, hs⟩ := markedCount_exists hdp hn hm hk
  have := isTab_length hT
  have := entries_length_ge hT.canon
  omega

theorem xm_markWeight {n : Nat} {T : Tab} (hT : IsTab (markRules sh sv dp) nu (2 * n) mu T) :
    xm (xden Poly.x) 1 (wtL n markWeight T) = ∏ i ∈ Finset.range n,
      Laurent.xpow ((i : ℤ) + 1) ((T.entries.count ((i : ℤ) + 1) + T.entries.count (-((i : ℤ) + 1)) : Nat) : ℤ) := by
  rw [xm_wtL]
  refine Finset.prod_congr rfl (fun i hi => ?_)
  have h := (weight_spec (isTab_entries hT)).2 i (Finset.mem_range.1 hi)
  rw [weight_eq_wtL hT, getD_wtL _ _ _ (Finset.mem_range.1 hi)] at h
  rw [← h, den_x, AddMonoidAlgebra.single_pow, Laurent.xpow]
  congr 1
  · simp
  · simp

/-- Any function with these coefficients is the generating function. -/
theorem phi_marked (hdp : sh = false → dp = true) (hn : IsShape sh nu) (hm : IsShape sh mu) (n : Nat) (w : PolyVal)
    {u : List Nat →₀ PolyVal} (hu : ∀ k, u k = ((markedCount sh sv dp nu n mu).getD k 0 : PolyVal) *
      w ^ (k.sum + nu.sum - mu.sum)) :
    phi (xden Poly.x) n u = tabSum w.den n (markedGen sh sv dp nu n mu) := by
  rw [phi_weights Poly.x (marked_swapInvariant hdp hn n hm) u (fun s => w ^ (s + nu.sum - mu.sum))]
  · refine Finset.sum_congr rfl (fun T hT => ?_)
    have hI := (isTab_markedGen hdp hn n hm).1 hT
    have := isTab_length hI
    have := sum_markWeight hI
    rw [xm_markWeight hI, PolyVal.den_pow]
    congr 2
    omega
  · intro k hk
    rw [hu, markedCount_weights hdp hn hm, if_pos hk]
  · intro k hk
    rw [hu, markedCount_weights hdp hn hm, if_neg hk]
    simp

theorem vectorize_marked (hdp : sh = false → dp = true) (hn : IsShape sh nu) (hm : IsShape sh mu) (n : Nat)
    (signs : Option PolyVal) (bound : Option Int) :
    ∃ f, vectorize n (markedCount sh sv dp nu n mu) signs bound = some f ∧ IsSym n f ∧ Vec.NoZero f ∧
      (∀ k, f.get k = if within bound k.sum then ((markedCount sh sv dp nu n mu).getD k 0 : PolyVal) *
        signFactor signs k.sum else 0) ∧
      (polynomial Poly.x n f).den = ∑ T ∈ (markedGen sh sv dp nu n mu).filter (fun T => within bound T.entries.length),
        (signFactor signs T.entries.length).den * xm (xden Poly.x) 1 (wtL n markWeight T) := by
  obtain ⟨f, h1, h2, h3, h4, h5⟩ := vectorize_weights Poly.x (marked_swapInvariant hdp hn n hm)
    (d := markedCount sh sv dp nu n mu) (markedCount_keys sh sv dp nu n mu)
    (fun k hk => by rw [markedCount_weights hdp hn hm, if_pos hk])
    (fun k hk => by rw [markedCount_weights hdp hn hm, if_neg hk]) signs bound
  refine ⟨f, h1, h2, h3, h4, ?_⟩
  have e : ∀ T ∈ markedGen sh sv dp nu n mu, (wtL n markWeight T).sum = T.entries.length :=
    fun T hT => sum_markWeight ((isTab_markedGen hdp hn n hm).1 hT)
  rw [h5, Finset.filter_congr (q := fun T => within bound T.entries.length) (fun T hT => by rw [e T hT])]
  exact Finset.sum_congr rfl (fun T hT => by rw [e T (Finset.mem_filter.1 hT).1])

/-- `_vectorize` without signs. -/
theorem vectorize_marked_one (hdp : sh = false → dp = true) (hn : IsShape sh nu) (hm : IsShape sh mu) (n : Nat) :
    ∃ f, vectorize n (markedCount sh false dp nu n mu) none none = some f ∧ IsSym n f ∧ Vec.NoZero f ∧
      (∀ k, f.get k = ((markedCount sh false dp nu n mu).getD k 0 : PolyVal) * 1 ^ (k.sum + nu.sum - mu.sum)) ∧
      (polynomial Poly.x n f).den = tabSum 1 n (markedGen sh false dp nu n mu) := by
  obtain ⟨f, h1, h2, h3, h4, h5⟩ := vectorize_marked (sv := false) hdp hn hm n none none
  have hget : ∀ k, f.get k = ((markedCount sh false dp nu n mu).getD k 0 : PolyVal) * 1 ^ (k.sum + nu.sum - mu.sum) := by
    intro k
    rw [h4, if_pos (show within none k.sum from fun b hb => by simp at hb), signFactor, one_pow]
  refine ⟨f, h1, h2, h3, hget, ?_⟩
  rw [den_polynomial Poly.x n (fun k hk => (h2.keys k hk).1), phi_marked hdp hn hm n 1 (fun k => by
    rw [Vec.den_apply]; exact hget k), PolyVal.den_one]

/-- `BETA**(sum(nu) - sum(mu)) * _vectorize(...)`. -/
theorem betaVectorize_marked (hdp : sh = false → dp = true) (hn : IsShape sh nu) (hm : IsShape sh mu) (n : Nat)
    (bound : Option Int) :
    ∃ f, betaVectorize n mu nu (markedCount sh sv dp nu n mu) bound = some f ∧ IsSym n f ∧ Vec.NoZero f ∧
      (∀ k, f.get k = if within bound k.sum then ((markedCount sh sv dp nu n mu).getD k 0 : PolyVal) *
        PolyVal.mk Poly.beta ^ (k.sum + nu.sum - mu.sum) else 0) ∧
      (polynomial Poly.x n f).den = tabSum (Laurent.xpow 0 1) n
        ((markedGen sh sv dp nu n mu).filter (fun T => within bound T.entries.length)) := by
  obtain ⟨f, h1, h2, h3, h4, h5⟩ := vectorize_marked (sv := sv) hdp hn hm n (some (PolyVal.mk Poly.beta)) bound
  obtain ⟨b, hb1, hb2⟩ := pow_beta ((nu.sum : Int) - mu.sum)
  refine ⟨Vec.smul f (PolyVal.mk b), by rw [betaVectorize, h1, hb1], isSym_smul h2 _, Vec.noZero_mk' _ _,
    fun k => ?_, ?_⟩
  · rw [Vec.get_smul, h4]
    split
    · by_cases hc : (markedCount sh sv dp nu n mu).getD k 0 = 0
      · rw [hc]; simp
      · have := markedCount_ge hdp hn hm hc
        rw [mul_assoc]
        congr 1
        apply PolyVal.den_injective
        rw [PolyVal.den_mul, signFactor_beta, PolyVal.den_mk, hb2, PolyVal.den_pow, PolyVal.den_mk, den_beta, ← xpow_nat,
          Laurent.xpow, Laurent.xpow, Laurent.xpow, AddMonoidAlgebra.single_mul_single, ← Finsupp.single_add]
        congr 2
        omega
    · simp
  · rw [polynomial_smul Poly.x h2, PolyVal.den_mul, h5, Finset.sum_mul]
    refine Finset.sum_congr rfl (fun T hT => ?_)
    have hI := (isTab_markedGen hdp hn n hm).1 (Finset.mem_filter.1 hT).1
    have := isTab_length hI
    have := entries_length_ge hI.canon
    rw [PolyVal.den_mk, hb2, signFactor_beta, mul_right_comm, xm_markWeight hI, ← xpow_nat]
    congr 1
    rw [Laurent.xpow, Laurent.xpow, Laurent.xpow, AddMonoidAlgebra.single_mul_single, ← Finsupp.single_add]
    congr 2
    omega

/-- Substituting `-β` for `β`. -/
theorem negateBeta_marked (hdp : sh = false → dp = true) (hn : IsShape sh nu) (hm : IsShape sh mu) (n : Nat)
    {f : SymPoly} (h2 : IsSym n f) (h3 : ∀ k, f.get k = ((markedCount sh sv dp nu n mu).getD k 0 : PolyVal) *
        PolyVal.mk Poly.beta ^ (k.sum + nu.sum - mu.sum)) :
    ∃ g, negateBeta f = some g ∧ IsSym n g ∧ Vec.NoZero g ∧
      (∀ k, g.get k = ((markedCount sh sv dp nu n mu).getD k 0 : PolyVal) *
        (-PolyVal.mk Poly.beta) ^ (k.sum + nu.sum - mu.sum)) ∧
      (polynomial Poly.x n g).den = tabSum (-Laurent.xpow 0 1) n (markedGen sh sv dp nu n mu) := by
  obtain ⟨g, g1, g2, g3, g4⟩ := negateBeta_spec h2
    (fun a => (a.substitute 0 (Poly.neg Poly.beta)).getD 0) (by decide +kernel) (fun k hk => by
      rw [h3, substitute_beta]; rfl)
  have hget : ∀ k, g.get k = ((markedCount sh sv dp nu n mu).getD k 0 : PolyVal) *
        (-PolyVal.mk Poly.beta) ^ (k.sum + nu.sum - mu.sum) := by
    intro k
    rw [g4, h3, substitute_beta]; rfl
  refine ⟨g, g1, g2, g3, hget, ?_⟩
  rw [den_polynomial Poly.x n (fun k hk => (g2.keys k hk).1), phi_marked hdp hn hm n _ (fun k => by
    rw [Vec.den_apply]; exact hget k), PolyVal.den_neg, PolyVal.den_mk, den_beta]

end Verif.Symm
