import Verif.Lemmas.Count
import Mathlib.Algebra.BigOperators.Intervals
import Mathlib.Algebra.BigOperators.Ring.Finset
import Mathlib.Algebra.MvPolynomial.Rename
import Mathlib.Tactic.Ring
import Mathlib.Tactic.LinearCombination

/-! The generating functions of semistandard and set-valued tableaux are symmetric.  Two consecutive strips are chosen
row by row independently; each row contributes a symmetric factor up to factors that pair up between rows. -/

namespace Verif.Tableaux

open Verif.Part Partition Tab

attribute [-simp] List.getD_eq_getElem?_getD

variable {A : Type*} [CommRing A]

/-- `1 + x` if `p`, else `1`. -/
def opt (p : Prop) [Decidable p] (x : A) : A := if p then 1 + x else 1

theorem opt_congr {p q : Prop} [Decidable p] [Decidable q] (h : p ↔ q) (x : A) : opt p x = opt q x := by
  unfold opt; simp only [h]

/-- The symmetric part of a row. -/
def rowSum (d : Nat) (P Q : Bool) (x y : A) : A :=
  ∑ k ∈ Finset.range (d + 1), x ^ (d - k) * y ^ k * opt (P = true ∧ 0 < k) x * opt (Q = true ∧ k < d) y

/-- Complete homogeneous polynomial of degree `d - 1` in two variables. -/
def hsum (d : Nat) (x y : A) : A := ∑ k ∈ Finset.range d, x ^ (d - 1 - k) * y ^ k

theorem hsum_symm (d : Nat) (x y : A) : hsum d x y = hsum d y x := by
  unfold hsum
  rw [← Finset.sum_range_reflect]
  refine Finset.sum_congr rfl (fun k hk => ?_)
  rw [Finset.mem_range] at hk
  rw [show d - 1 - (d - 1 - k) = k by omega, mul_comm]

theorem rowSum_symm (d : Nat) (P Q : Bool) (x y : A) : rowSum d P Q x y = rowSum d P Q y x := by
  have hTF : ∀ x y : A, rowSum d true false x y = hsum (d + 1) x y + x * y * hsum d x y := by
    intro x y
    unfold rowSum hsum
    rw [Finset.sum_range_succ', Finset.sum_range_succ' (fun k => x ^ (d + 1 - 1 - k) * y ^ k)]
    rw [Finset.mul_sum, add_right_comm, ← Finset.sum_add_distrib]
    congr 1
    · refine Finset.sum_congr rfl (fun k hk => ?_)
      rw [Finset.mem_range] at hk
      simp only [opt, true_and, Nat.succ_pos, if_true, Bool.false_eq_true, false_and, if_false, Nat.add_sub_cancel]
      rw [show d - (k + 1) = d - 1 - k by omega]
      ring
    · simp [opt]
  have hFT : ∀ x y : A, rowSum d false true x y = hsum (d + 1) x y + x * y * hsum d x y := by
    intro x y
    unfold rowSum hsum
    rw [Finset.sum_range_succ, Finset.sum_range_succ (fun k => x ^ (d + 1 - 1 - k) * y ^ k)]
    rw [Finset.mul_sum, add_right_comm, ← Finset.sum_add_distrib]
    congr 1
    · refine Finset.sum_congr rfl (fun k hk => ?_)
      rw [Finset.mem_range] at hk
      simp only [opt, true_and, hk, if_true, Bool.false_eq_true, false_and, if_false, Nat.add_sub_cancel]
      rw [show d - k = d - 1 - k + 1 by omega]
      ring
    · simp [opt]
  have hPP : rowSum d P P x y = rowSum d P P y x := by
    unfold rowSum
    rw [← Finset.sum_range_reflect]
    refine Finset.sum_congr rfl (fun k hk => ?_)
    rw [Finset.mem_range] at hk
    rw [show d - (d + 1 - 1 - k) = k by omega, show d + 1 - 1 - k = d - k by omega,
      opt_congr (show (P = true ∧ 0 < d - k) ↔ (P = true ∧ k < d) by rw [Nat.sub_pos_iff_lt]),
      opt_congr (show (P = true ∧ d - k < d) ↔ (P = true ∧ 0 < k) by
        apply and_congr_right; intro _; omega)]
    ring
  cases P <;> cases Q
  · exact hPP
  · rw [hFT, hFT, hsum_symm (d + 1), hsum_symm d, mul_comm x y]
  · rw [hTF, hTF, hsum_symm (d + 1), hsum_symm d, mul_comm x y]
  · exact hPP

/-- One row of a two-step chain. -/
theorem row_lemma (sv : Bool) {m0 m1 r l rp lp : Nat} (h1 : l ≤ r) (h2 : lp ≤ rp) (h3 : max m1 r ≤ min m0 rp)
    (x y : A) :
    ∑ k ∈ Finset.Icc (max m1 r) (min m0 rp), x ^ (m0 - k) * y ^ (k - r) * opt (sv = true ∧ max m1 l < k) x *
        opt (sv = true ∧ max k lp < rp) y =
      x ^ (m0 - rp) * y ^ (m1 - r) * opt (sv = true ∧ max m1 l < r) x * opt (sv = true ∧ max m0 lp < rp) y *
        rowSum (min m0 rp - max m1 r) (sv && !decide (max m1 l < r))
          (sv && !decide (max m0 lp < rp) && decide (lp < rp)) x y := by
  have hI : Finset.Icc (max m1 r) (min m0 rp) = Finset.Ico (max m1 r) (min m0 rp + 1) := by
    ext k; simp only [Finset.mem_Icc, Finset.mem_Ico]; omega
  rw [hI, Finset.sum_Ico_eq_sum_range, rowSum, Finset.mul_sum,
    show min m0 rp + 1 - max m1 r = min m0 rp - max m1 r + 1 by omega]
  refine Finset.sum_congr rfl (fun j hj => ?_)
  rw [Finset.mem_range] at hj
  have e1 : opt (sv = true ∧ max m1 l < max m1 r + j) x = opt (sv = true ∧ max m1 l < r) x *
      opt ((sv && !decide (max m1 l < r)) = true ∧ 0 < j) x := by
    cases sv
    · simp [opt]
    · by_cases ha : max m1 l < r
      · have : max m1 l < max m1 r + j := by omega
        simp [opt, ha, this]
      · by_cases hj0 : 0 < j
        · have : max m1 l < max m1 r + j := by omega
          simp only [opt, ha, this, hj0]; simp
        · have : ¬ max m1 l < max m1 r + j := by omega
          simp only [opt, ha, this, hj0]; simp
  have e2 : opt (sv = true ∧ max (max m1 r + j) lp < rp) y = opt (sv = true ∧ max m0 lp < rp) y *
      opt ((sv && !decide (max m0 lp < rp) && decide (lp < rp)) = true ∧ j < min m0 rp - max m1 r) y := by
    cases sv
    · simp [opt]
    · by_cases ha : max m0 lp < rp
      · have : max (max m1 r + j) lp < rp := by omega
        simp only [opt, ha, this]; simp
      · by_cases hj0 : lp < rp ∧ j < min m0 rp - max m1 r
        · have : max (max m1 r + j) lp < rp := by omega
          simp only [opt, ha, this, hj0]; simp
        · have : ¬ max (max m1 r + j) lp < rp := by omega
          have h' : ¬ (((true && !decide (max m0 lp < rp) && decide (lp < rp)) = true) ∧ j < min m0 rp - max m1 r) := by
            intro hc; apply hj0; simp at hc; omega
          rw [opt, opt, opt, if_neg (fun h => this h.2), if_neg (fun h => ha h.2), if_neg h', one_mul]
  rw [e1, e2, show m0 - (max m1 r + j) = (m0 - rp) + (min m0 rp - max m1 r - j) by omega,
    show max m1 r + j - r = (m1 - r) + j by omega, pow_add, pow_add]
  ring

/-- The value in the row above, for functions (`top` above row 0). -/
def prevRow (r : Nat → Nat) (top : Nat) (i : Nat) : Nat := if i = 0 then top else r (i - 1)

/-- The sum over all two-step chains is symmetric. -/
theorem chain_symm (sv : Bool) (M : Nat) (m l r : Nat → Nat) (hlr : ∀ i, l i ≤ r i)
    (hmM : m M = 0) (hrM : ∀ i, M ≤ i + 1 → r i = 0) (x y : A) :
    ∏ i ∈ Finset.range M, ∑ k ∈ Finset.Icc (max (m (i + 1)) (r i)) (min (m i) (prevRow r (m 0) i)),
        x ^ (m i - k) * y ^ (k - r i) * opt (sv = true ∧ max (m (i + 1)) (l i) < k) x *
        opt (sv = true ∧ max k (prevRow l (m 0) i) < prevRow r (m 0) i) y =
    ∏ i ∈ Finset.range M, ∑ k ∈ Finset.Icc (max (m (i + 1)) (r i)) (min (m i) (prevRow r (m 0) i)),
        y ^ (m i - k) * x ^ (k - r i) * opt (sv = true ∧ max (m (i + 1)) (l i) < k) y *
        opt (sv = true ∧ max k (prevRow l (m 0) i) < prevRow r (m 0) i) x := by
  by_cases hc : ∀ i ∈ Finset.range M, max (m (i + 1)) (r i) ≤ min (m i) (prevRow r (m 0) i)
  swap
  · push Not at hc
    obtain ⟨i, hi, hlt⟩ := hc
    rw [Finset.prod_eq_zero hi, Finset.prod_eq_zero hi]
    · rw [Finset.Icc_eq_empty (by omega)]; simp
    · rw [Finset.Icc_eq_empty (by omega)]; simp
  have hprev : ∀ i, prevRow l (m 0) i ≤ prevRow r (m 0) i := by
    intro i; unfold prevRow; split
    · exact le_rfl
    · exact hlr _
  have key : ∀ x y : A, ∏ i ∈ Finset.range M,
      ∑ k ∈ Finset.Icc (max (m (i + 1)) (r i)) (min (m i) (prevRow r (m 0) i)),
        x ^ (m i - k) * y ^ (k - r i) * opt (sv = true ∧ max (m (i + 1)) (l i) < k) x *
        opt (sv = true ∧ max k (prevRow l (m 0) i) < prevRow r (m 0) i) y =
      (∏ i ∈ Finset.range M, x ^ (m i - prevRow r (m 0) i)) * (∏ i ∈ Finset.range M, y ^ (m i - prevRow r (m 0) i)) *
      (∏ i ∈ Finset.range M, opt (sv = true ∧ max (m (i + 1)) (l i) < r i) x) *
      (∏ i ∈ Finset.range M, opt (sv = true ∧ max (m (i + 1)) (l i) < r i) y) *
      (∏ i ∈ Finset.range M, rowSum (min (m i) (prevRow r (m 0) i) - max (m (i + 1)) (r i))
          (sv && !decide (max (m (i + 1)) (l i) < r i))
          (sv && !decide (max (m i) (prevRow l (m 0) i) < prevRow r (m 0) i) &&
            decide (prevRow l (m 0) i < prevRow r (m 0) i)) x y) := by
    intro x y
    rw [Finset.prod_congr rfl (fun i hi => row_lemma sv (hlr i) (hprev i) (hc i hi) x y)]
    simp only [Finset.prod_mul_distrib]
    have e1 : ∏ i ∈ Finset.range M, y ^ (m (i + 1) - r i) = ∏ i ∈ Finset.range M, y ^ (m i - prevRow r (m 0) i) := by
      match M, hmM with
      | 0, _ => simp
      | M + 1, hmM =>
        rw [Finset.prod_range_succ, Finset.prod_range_succ' (fun i => y ^ (m i - prevRow r (m 0) i)), hmM]
        simp [prevRow]
    have e2 : ∏ i ∈ Finset.range M, opt (sv = true ∧ max (m i) (prevRow l (m 0) i) < prevRow r (m 0) i) y =
        ∏ i ∈ Finset.range M, opt (sv = true ∧ max (m (i + 1)) (l i) < r i) y := by
      match M, hrM with
      | 0, _ => simp
      | M + 1, hrM =>
        rw [Finset.prod_range_succ (fun i => opt (sv = true ∧ max (m (i + 1)) (l i) < r i) y),
          Finset.prod_range_succ', hrM M le_rfl]
        simp [prevRow, opt]
    rw [e1, e2]
  rw [key x y, key y x]
  rw [Finset.prod_congr rfl (fun i _ => rowSum_symm _ _ _ x y)]
  ring

/-! ### strips -/

/-- The weight of the strip `mu/nu` for a letter with variable `x`. -/
def stripWt (sv : Bool) (M : Nat) (mu lam nu : Nat → Nat) (x : A) : A :=
  ∏ i ∈ Finset.range M, (x ^ (mu i - nu i) * opt (sv = true ∧ max (mu (i + 1)) (lam i) < nu i) x)

theorem card_diff {mu lam : List Nat} {s} (h : StripRec mu lam s) {M : Nat} (hM : mu.length ≤ M) :
    s.2.1.length = ∑ i ∈ Finset.range M, (mu.getD i 0 - s.1.getD i 0) := by
  classical
  have : s.2.1.toFinset = ((Finset.range M).sigma (fun i => Finset.Ioc (s.1.getD i 0) (mu.getD i 0))).image
      (fun p => (p.1 + 1, p.2)) := by
    ext ⟨a, b⟩
    rw [List.mem_toFinset, h.diff_mem, mem_diagram, mem_diagram, Finset.mem_image]
    constructor
    · rintro ⟨⟨h1, h2, h3⟩, h4⟩
      refine ⟨⟨a - 1, b⟩, ?_, by simp; omega⟩
      rw [Finset.mem_sigma, Finset.mem_range, Finset.mem_Ioc]
      refine ⟨?_, ?_, h3⟩
      · by_contra hc
        rw [List.getD_eq_default mu 0 (by simp only at hc; omega)] at h3
        omega
      · simp only at h1 h2 h3 h4 ⊢; omega
    · rintro ⟨⟨i, j⟩, hij, he⟩
      rw [Finset.mem_sigma, Finset.mem_range, Finset.mem_Ioc] at hij
      simp only [Prod.mk.injEq] at he hij
      obtain ⟨rfl, rfl⟩ := he
      simp only [Nat.add_sub_cancel]
      omega
  rw [← List.toFinset_card_of_nodup h.diff_nodup, this, Finset.card_image_of_injective, Finset.card_sigma]
  · simp
  · rintro ⟨a, b⟩ ⟨c, d⟩ he
    simp only [Prod.mk.injEq, Nat.add_right_cancel_iff] at he
    obtain ⟨rfl, rfl⟩ := he
    rfl

theorem card_corners {mu lam : List Nat} {s} (h : StripRec mu lam s) {M : Nat} (hM : mu.length ≤ M) :
    s.2.2.length = ((Finset.range M).filter (fun i => max (mu.getD (i + 1) 0) (lam.getD i 0) < s.1.getD i 0)).card := by
  classical
  have : s.2.2.toFinset = ((Finset.range M).filter
      (fun i => max (mu.getD (i + 1) 0) (lam.getD i 0) < s.1.getD i 0)).image (fun i => (i + 1, s.1.getD i 0)) := by
    ext b
    rw [List.mem_toFinset, h.corner_mem, Finset.mem_image]
    constructor
    · rintro ⟨i, hi, rfl⟩
      refine ⟨i, ?_, rfl⟩
      rw [Finset.mem_filter, Finset.mem_range]
      refine ⟨?_, hi⟩
      by_contra hc
      have := (h.strip.2 i).2
      rw [List.getD_eq_default mu 0 (by omega)] at this
      omega
    · rintro ⟨i, hi, rfl⟩
      rw [Finset.mem_filter] at hi
      exact ⟨i, hi.2, rfl⟩
  rw [← List.toFinset_card_of_nodup h.corner_nodup, this, Finset.card_image_of_injective]
  intro a b he
  simp only [Prod.mk.injEq, Nat.add_right_cancel_iff] at he
  exact he.1

theorem stripWt_eq (sv : Bool) {mu lam : List Nat} {s} (h : StripRec mu lam s) {M : Nat} (hM : mu.length ≤ M) (x : A) :
    x ^ s.2.1.length * (if sv then (1 + x) ^ s.2.2.length else 1) =
      stripWt sv M (fun i => mu.getD i 0) (fun i => lam.getD i 0) (fun i => s.1.getD i 0) x := by
  rw [stripWt, Finset.prod_mul_distrib, card_diff h hM, Finset.prod_pow_eq_pow_sum]
  congr 1
  cases sv
  · simp [opt]
  · simp only [if_true, opt, true_and]
    rw [card_corners h hM, Finset.prod_ite]
    simp

/-- The generating function of tableaux with the letter `i + 1` marked by `y i`. -/
def W (sv : Bool) (lam : List Nat) (n : Nat) (mu : List Nat) (y : Nat → A) : A :=
  ∑ T ∈ semistandard sv lam n mu, ∏ i ∈ Finset.range n, y i ^ T.entries.count ((i : Int) + 1)

/-- The set of strips. -/
def stripSet (mu lam : List Nat) : Finset (List Nat) := ((horizontalStrips mu lam).map Prod.fst).toFinset

theorem mem_stripSet {mu lam : List Nat} (hm : IsPartition mu) (hl : IsPartition lam) {nu : List Nat} :
    nu ∈ stripSet mu lam ↔ (∀ i, lam.getD i 0 ≤ mu.getD i 0) ∧ IsStrip mu lam nu := by
  rw [stripSet, List.mem_toFinset, List.mem_map]
  by_cases hc : contains mu lam = true
  swap
  · rw [strips_of_not_contains hc]
    rw [contains_iff hl.2] at hc
    simp [hc]
  obtain ⟨_, _, h3, h4⟩ := horizontalStrips_spec hm hl hc
  rw [contains_iff hl.2] at hc
  constructor
  · rintro ⟨s, hs, rfl⟩; exact ⟨hc, (h3 s hs).strip⟩
  · rintro ⟨_, h⟩; exact h4 nu h

theorem W_succ {sv : Bool} {lam : List Nat} (hl : IsPartition lam) (n : Nat) {mu : List Nat} (hm : IsPartition mu)
    (y : Nat → A) {M : Nat} (hM : mu.length ≤ M) :
    W sv lam (n + 1) mu y = ∑ nu ∈ stripSet mu lam,
      stripWt sv M (fun i => mu.getD i 0) (fun i => lam.getD i 0) (fun i => nu.getD i 0) (y n) * W sv lam n nu y := by
  classical
  have h := sum_counts_succ (R := A) (sv := sv) hl n hm
    (fun c f => y n ^ c * ∏ i ∈ Finset.range n, y i ^ f i)
  have hprod : ∀ T : Tab, ∏ i ∈ Finset.range n, y i ^ (if i < n then T.entries.count ((i : Int) + 1) else 0) =
      ∏ i ∈ Finset.range n, y i ^ T.entries.count ((i : Int) + 1) := by
    intro T
    refine Finset.prod_congr rfl (fun i hi => ?_)
    rw [if_pos (Finset.mem_range.1 hi)]
  simp only [hprod] at h
  rw [W]
  simp only [Finset.prod_range_succ]
  rw [Finset.sum_congr rfl (fun T _ => mul_comm _ _), h]
  by_cases hc : contains mu lam = true
  swap
  · rw [stripSet, strips_of_not_contains hc]; simp
  obtain ⟨_, hnd, h3, _⟩ := horizontalStrips_spec hm hl hc
  rw [stripSet, List.sum_toFinset _ hnd, List.map_map, List.sum_toFinset _ (List.Nodup.of_map _ hnd)]
  refine congrArg List.sum (List.map_congr_left (fun s hs => ?_))
  simp only [Function.comp_apply]
  rw [← stripWt_eq sv (h3 s hs) hM]
  have : ∀ i, (s.2.2.length.choose i) • ∑ T ∈ semistandard sv lam n s.1, y n ^ (s.2.1.length + i) *
      ∏ i ∈ Finset.range n, y i ^ T.entries.count ((i : Int) + 1) =
      (y n ^ s.2.1.length * W sv lam n s.1 y) * (y n ^ i * (s.2.2.length.choose i : A)) := by
    intro i
    rw [← Finset.mul_sum, nsmul_eq_mul, pow_add, W]; ring
  rw [Finset.sum_congr rfl (fun i _ => this i), ← Finset.mul_sum]
  have hb : ∑ i ∈ Finset.range (cornerBound sv s), y n ^ i * (s.2.2.length.choose i : A) =
      if sv then (1 + y n) ^ s.2.2.length else 1 := by
    cases sv
    · simp [cornerBound]
    · simp only [cornerBound, if_true]
      rw [show 1 + y n = y n + 1 from add_comm _ _, add_pow]
      simp
  rw [hb]
  ring

/-- Two consecutive strips from `mu` to `rho`. -/
theorem twoStep {sv : Bool} {lam : List Nat} (hl : IsPartition lam) {mu rho : List Nat} (hm : IsPartition mu)
    (hr : IsPartition rho) (hlm : ∀ i, lam.getD i 0 ≤ mu.getD i 0) (hlr : ∀ i, lam.getD i 0 ≤ rho.getD i 0)
    (hrm : ∀ i, rho.getD i 0 ≤ mu.getD i 0) {M : Nat} (hM : mu.length + 1 = M) (x y : A) :
    ∑ nu ∈ (stripSet mu lam).filter (fun nu => rho ∈ stripSet nu lam),
      stripWt sv M (fun i => mu.getD i 0) (fun i => lam.getD i 0) (fun i => nu.getD i 0) x *
      stripWt sv M (fun i => nu.getD i 0) (fun i => lam.getD i 0) (fun i => rho.getD i 0) y =
    ∏ i ∈ Finset.range M, ∑ k ∈ Finset.Icc (max (mu.getD (i + 1) 0) (rho.getD i 0))
        (min (mu.getD i 0) (prevRow (fun i => rho.getD i 0) (mu.getD 0 0) i)),
        x ^ (mu.getD i 0 - k) * y ^ (k - rho.getD i 0) *
        opt (sv = true ∧ max (mu.getD (i + 1) 0) (lam.getD i 0) < k) x *
        opt (sv = true ∧ max k (prevRow (fun i => lam.getD i 0) (mu.getD 0 0) i) <
          prevRow (fun i => rho.getD i 0) (mu.getD 0 0) i) y := by
  classical
  have hmem : ∀ nu, nu ∈ (stripSet mu lam).filter (fun nu => rho ∈ stripSet nu lam) ↔ IsPartition nu ∧
      ∀ i, max (mu.getD (i + 1) 0) (rho.getD i 0) ≤ nu.getD i 0 ∧
        nu.getD i 0 ≤ min (mu.getD i 0) (prevRow (fun i => rho.getD i 0) (mu.getD 0 0) i) := by
    intro nu
    rw [Finset.mem_filter, mem_stripSet hm hl]
    constructor
    · rintro ⟨⟨_, h1⟩, h2⟩
      rw [mem_stripSet h1.1 hl] at h2
      refine ⟨h1.1, fun i => ?_⟩
      have a1 := h1.2 i
      have a2 := h2.2.2 i
      have a3 := h2.2.2 (i - 1)
      unfold coreRow at a1 a2 a3
      refine ⟨by omega, ?_⟩
      unfold prevRow
      by_cases hi : i = 0
      · subst hi; rw [if_pos rfl]; omega
      · rw [if_neg hi]
        rw [show i - 1 + 1 = i by omega] at a3
        simp only
        omega
    · rintro ⟨h1, h2⟩
      refine ⟨⟨hlm, h1, fun i => ?_⟩, ?_⟩
      · have a1 := h2 i; have a2 := hlr i; unfold coreRow; omega
      · rw [mem_stripSet h1 hl]
        refine ⟨fun i => by have a1 := h2 i; have a2 := hlr i; omega, hr, fun i => ?_⟩
        have a1 := h2 i
        have a2 := hlr i
        have a3 := (h2 (i + 1)).2
        unfold prevRow at a3
        rw [if_neg (by omega), Nat.add_sub_cancel] at a3
        simp only at a3
        unfold coreRow
        omega
  have hshift : ∀ nu : List Nat, (∀ i, mu.length ≤ i → nu.getD i 0 = 0) →
      ∏ i ∈ Finset.range M, opt (sv = true ∧ max (nu.getD (i + 1) 0) (lam.getD i 0) < rho.getD i 0) y =
      ∏ i ∈ Finset.range M, opt (sv = true ∧ max (nu.getD i 0) (prevRow (fun i => lam.getD i 0) (mu.getD 0 0) i) <
          prevRow (fun i => rho.getD i 0) (mu.getD 0 0) i) y := by
    intro nu _
    subst hM
    rw [Finset.prod_range_succ, Finset.prod_range_succ']
    have h0 : rho.getD mu.length 0 = 0 := by
      have := hrm mu.length
      rw [List.getD_eq_default mu 0 le_rfl] at this
      omega
    rw [h0]
    simp [prevRow, opt]
  have hfin : ∀ nu ∈ (stripSet mu lam).filter (fun nu => rho ∈ stripSet nu lam),
      stripWt sv M (fun i => mu.getD i 0) (fun i => lam.getD i 0) (fun i => nu.getD i 0) x *
      stripWt sv M (fun i => nu.getD i 0) (fun i => lam.getD i 0) (fun i => rho.getD i 0) y =
      ∏ i : Fin M, (x ^ (mu.getD i 0 - nu.getD i 0) * y ^ (nu.getD i 0 - rho.getD i 0) *
        opt (sv = true ∧ max (mu.getD (i + 1) 0) (lam.getD i 0) < nu.getD i 0) x *
        opt (sv = true ∧ max (nu.getD i 0) (prevRow (fun i => lam.getD i 0) (mu.getD 0 0) i) <
          prevRow (fun i => rho.getD i 0) (mu.getD 0 0) i) y) := by
    intro nu hnu
    have hnu' := (hmem nu).1 hnu
    have hz : ∀ i, mu.length ≤ i → nu.getD i 0 = 0 := by
      intro i hi
      have := (hnu'.2 i).2
      rw [List.getD_eq_default mu 0 hi] at this
      omega
    rw [Fin.prod_univ_eq_prod_range (fun i => x ^ (mu.getD i 0 - nu.getD i 0) * y ^ (nu.getD i 0 - rho.getD i 0) *
        opt (sv = true ∧ max (mu.getD (i + 1) 0) (lam.getD i 0) < nu.getD i 0) x *
        opt (sv = true ∧ max (nu.getD i 0) (prevRow (fun i => lam.getD i 0) (mu.getD 0 0) i) <
          prevRow (fun i => rho.getD i 0) (mu.getD 0 0) i) y) M]
    unfold stripWt
    simp only [Finset.prod_mul_distrib]
    rw [hshift nu hz]
    ring
  rw [Finset.sum_congr rfl hfin]
  rw [← Fin.prod_univ_eq_prod_range (fun i => ∑ k ∈ Finset.Icc (max (mu.getD (i + 1) 0) (rho.getD i 0))
        (min (mu.getD i 0) (prevRow (fun i => rho.getD i 0) (mu.getD 0 0) i)),
        x ^ (mu.getD i 0 - k) * y ^ (k - rho.getD i 0) *
        opt (sv = true ∧ max (mu.getD (i + 1) 0) (lam.getD i 0) < k) x *
        opt (sv = true ∧ max k (prevRow (fun i => lam.getD i 0) (mu.getD 0 0) i) <
          prevRow (fun i => rho.getD i 0) (mu.getD 0 0) i) y) M]
  rw [Finset.prod_univ_sum]
  have hfwd : ∀ nu ∈ (stripSet mu lam).filter (fun nu => rho ∈ stripSet nu lam),
      (fun i : Fin M => nu.getD i 0) ∈ Fintype.piFinset (fun i : Fin M =>
        Finset.Icc (max (mu.getD (i + 1) 0) (rho.getD i 0))
        (min (mu.getD i 0) (prevRow (fun i => rho.getD i 0) (mu.getD 0 0) i))) := by
    intro nu hnu
    rw [Fintype.mem_piFinset]
    intro i
    rw [Finset.mem_Icc]
    exact ((hmem nu).1 hnu).2 i
  have hback : ∀ f ∈ Fintype.piFinset (fun i : Fin M =>
        Finset.Icc (max (mu.getD (i + 1) 0) (rho.getD i 0))
        (min (mu.getD i 0) (prevRow (fun i => rho.getD i 0) (mu.getD 0 0) i))),
      trim (List.ofFn f) ∈ (stripSet mu lam).filter (fun nu => rho ∈ stripSet nu lam) := by
    intro f hf
    rw [Fintype.mem_piFinset] at hf
    have hg : ∀ i, (trim (List.ofFn f)).getD i 0 = (List.ofFn f).getD i 0 := fun i => getD_trim _ _
    have hgi : ∀ i (h : i < M), (List.ofFn f).getD i 0 = f ⟨i, h⟩ := by
      intro i h
      rw [List.getD_eq_getElem _ _ (by simpa using h)]; simp
    have hgo : ∀ i, M ≤ i → (List.ofFn f).getD i 0 = 0 := by
      intro i h
      exact List.getD_eq_default _ _ (by simpa using h)
    rw [hmem]
    refine ⟨trim_isPartition ?_, ?_⟩
    · rw [List.pairwise_iff_getElem]
      have hs : ∀ i, (List.ofFn f).getD (i + 1) 0 ≤ (List.ofFn f).getD i 0 := by
        intro i
        by_cases hi : i + 1 < M
        · rw [hgi (i + 1) hi, hgi i (by omega)]
          have a1 := hf ⟨i + 1, hi⟩
          have a2 := hf ⟨i, by omega⟩
          rw [Finset.mem_Icc] at a1 a2
          simp only at a1 a2
          omega
        · rw [hgo (i + 1) (by omega)]; omega
      intro i j hi hj hij
      have := antitone_nat_of_succ_le (f := fun i => (List.ofFn f).getD i 0) hs (le_of_lt hij)
      simp only at this
      rw [List.getD_eq_getElem _ _ hi, List.getD_eq_getElem _ _ hj] at this
      exact this
    · intro i
      rw [hg]
      by_cases hi : i < M
      · rw [hgi i hi]
        have := hf ⟨i, hi⟩
        rw [Finset.mem_Icc] at this
        exact this
      · rw [hgo i (by omega)]
        have := hrm i
        rw [List.getD_eq_default mu 0 (by omega)] at this
        rw [List.getD_eq_default mu 0 (show mu.length ≤ i + 1 by omega)]
        omega
  refine Finset.sum_nbij' (fun nu => (fun i : Fin M => nu.getD i 0)) (fun f => trim (List.ofFn f)) hfwd hback ?_ ?_ ?_
  · intro nu hnu
    have hnu' := (hmem nu).1 hnu
    refine row_ext ((hmem _).1 (hback _ (hfwd nu hnu))).1.2 hnu'.1.2 (fun i => ?_)
    rw [getD_trim]
    by_cases hi : i < M
    · rw [List.getD_eq_getElem _ _ (by simpa using hi)]; simp
    · rw [List.getD_eq_default _ _ (by simpa using hi)]
      have := (hnu'.2 i).2
      rw [List.getD_eq_default mu 0 (by omega)] at this
      omega
  · intro f hf
    funext i
    rw [getD_trim, List.getD_eq_getElem _ _ (by simp)]; simp
  · intro nu _
    rfl

theorem mem_stripSet_bounds {mu lam nu : List Nat} (hm : IsPartition mu) (hl : IsPartition lam)
    (h : nu ∈ stripSet mu lam) : IsPartition nu ∧ (∀ i, lam.getD i 0 ≤ nu.getD i 0) ∧
      (∀ i, nu.getD i 0 ≤ mu.getD i 0) ∧ nu.length ≤ mu.length ∧ (∀ i, lam.getD i 0 ≤ mu.getD i 0) := by
  obtain ⟨h0, h1, h2⟩ := (mem_stripSet hm hl).1 h
  refine ⟨h1, fun i => ?_, fun i => (h2 i).2, ?_, h0⟩
  · have := (h2 i).1; unfold coreRow at this; omega
  · by_contra hc
    have h3 := (getD_pos_iff h1.2 mu.length).2 (by omega)
    have h4 := (h2 mu.length).2
    rw [List.getD_eq_default mu 0 le_rfl] at h4
    omega

/-- The two largest letters can be exchanged. -/
theorem W_swap_top {sv : Bool} {lam : List Nat} (hl : IsPartition lam) (n : Nat) {mu : List Nat} (hm : IsPartition mu)
    (y : Nat → A) : W sv lam (n + 2) mu y = W sv lam (n + 2) mu (y ∘ Equiv.swap n (n + 1)) := by
  classical
  have key : ∀ z : Nat → A, W sv lam (n + 2) mu z =
      ∑ rho ∈ (stripSet mu lam).biUnion (fun nu => stripSet nu lam),
        (∑ nu ∈ (stripSet mu lam).filter (fun nu => rho ∈ stripSet nu lam),
          stripWt sv (mu.length + 1) (fun i => mu.getD i 0) (fun i => lam.getD i 0) (fun i => nu.getD i 0) (z (n + 1)) *
          stripWt sv (mu.length + 1) (fun i => nu.getD i 0) (fun i => lam.getD i 0) (fun i => rho.getD i 0) (z n)) *
        W sv lam n rho z := by
    intro z
    rw [W_succ hl (n + 1) hm z (M := mu.length + 1) (by omega)]
    have : ∀ nu ∈ stripSet mu lam,
        stripWt sv (mu.length + 1) (fun i => mu.getD i 0) (fun i => lam.getD i 0) (fun i => nu.getD i 0) (z (n + 1)) *
          W sv lam (n + 1) nu z = ∑ rho ∈ stripSet nu lam,
        stripWt sv (mu.length + 1) (fun i => mu.getD i 0) (fun i => lam.getD i 0) (fun i => nu.getD i 0) (z (n + 1)) *
        stripWt sv (mu.length + 1) (fun i => nu.getD i 0) (fun i => lam.getD i 0) (fun i => rho.getD i 0) (z n) *
        W sv lam n rho z := by
      intro nu hnu
      obtain ⟨h1, _, _, h4, _⟩ := mem_stripSet_bounds hm hl hnu
      rw [W_succ hl n h1 z (M := mu.length + 1) (by omega), Finset.mul_sum]
      exact Finset.sum_congr rfl (fun rho _ => by ring)
    rw [Finset.sum_congr rfl this]
    rw [Finset.sum_comm' (s' := fun rho => (stripSet mu lam).filter (fun nu => rho ∈ stripSet nu lam))
      (t' := (stripSet mu lam).biUnion (fun nu => stripSet nu lam))]
    · exact Finset.sum_congr rfl (fun rho _ => by rw [Finset.sum_mul])
    · intro nu rho
      rw [Finset.mem_filter, Finset.mem_biUnion]
      constructor
      · rintro ⟨h1, h2⟩; exact ⟨⟨h1, h2⟩, nu, h1, h2⟩
      · rintro ⟨h1, _⟩; exact h1
  rw [key, key]
  refine Finset.sum_congr rfl (fun rho hrho => ?_)
  obtain ⟨nu, hnu, hrho⟩ := Finset.mem_biUnion.1 hrho
  obtain ⟨h1, h2, h3, h4, h0⟩ := mem_stripSet_bounds hm hl hnu
  obtain ⟨g1, g2, g3, g4, _⟩ := mem_stripSet_bounds h1 hl hrho
  congr 1
  · rw [twoStep hl hm g1 h0 g2 (fun i => (g3 i).trans (h3 i)) rfl,
      twoStep hl hm g1 h0 g2 (fun i => (g3 i).trans (h3 i)) rfl]
    simp only [Function.comp_apply, Equiv.swap_apply_left, Equiv.swap_apply_right]
    refine chain_symm sv (mu.length + 1) (fun i => mu.getD i 0) (fun i => lam.getD i 0) (fun i => rho.getD i 0)
      g2 ?_ ?_ _ _
    · exact List.getD_eq_default _ _ (by omega)
    · intro i hi
      exact List.getD_eq_default _ _ (by omega)
  · unfold W
    refine Finset.sum_congr rfl (fun T _ => Finset.prod_congr rfl (fun i hi => ?_))
    rw [Finset.mem_range] at hi
    rw [Function.comp_apply, Equiv.swap_apply_of_ne_of_ne (by omega) (by omega)]

/-- Adjacent letters can be exchanged. -/
theorem W_swap {sv : Bool} {lam : List Nat} (hl : IsPartition lam) (j n : Nat) (hj : j + 2 ≤ n) :
    ∀ {mu : List Nat}, IsPartition mu → ∀ y : Nat → A,
      W sv lam n mu y = W sv lam n mu (y ∘ Equiv.swap j (j + 1)) := by
  induction n, hj using Nat.le_induction with
  | base => intro mu hm y; exact W_swap_top hl j hm y
  | succ n hn ih =>
    intro mu hm y
    rw [W_succ hl n hm _ le_rfl, W_succ hl n hm _ le_rfl]
    refine Finset.sum_congr rfl (fun nu hnu => ?_)
    rw [← ih (mem_stripSet_bounds hm hl hnu).1 y, Function.comp_apply,
      Equiv.swap_apply_of_ne_of_ne (by omega) (by omega)]

/-- `alpha` as a finitely supported function on `0..n-1`. -/
noncomputable def expN (n : Nat) (alpha : Nat → Nat) : ℕ →₀ ℕ := ∑ i ∈ Finset.range n, Finsupp.single i (alpha i)

theorem expN_apply (n : Nat) (alpha : Nat → Nat) (i : Nat) : expN n alpha i = if i < n then alpha i else 0 := by
  rw [expN, Finsupp.finsetSum_apply]
  simp only [Finsupp.single_apply]
  rw [Finset.sum_ite_eq' (Finset.range n) i]
  simp

theorem coeff_W (sv : Bool) (lam : List Nat) (n : Nat) (mu : List Nat) (alpha : Nat → Nat) :
    MvPolynomial.coeff (expN n alpha) (W sv lam n mu (fun i => (MvPolynomial.X i : MvPolynomial ℕ ℤ))) =
      tabCount sv lam n mu alpha := by
  classical
  rw [W, MvPolynomial.coeff_sum, tabCount, Finset.card_filter]
  push_cast
  refine Finset.sum_congr rfl (fun T _ => ?_)
  have : ∏ i ∈ Finset.range n, (MvPolynomial.X i : MvPolynomial ℕ ℤ) ^ T.entries.count ((i : Int) + 1) =
      MvPolynomial.monomial (expN n (fun i => T.entries.count ((i : Int) + 1))) 1 := by
    rw [expN, MvPolynomial.monomial_sum_one]
    exact Finset.prod_congr rfl (fun i _ => by rw [MvPolynomial.X_pow_eq_monomial])
  rw [this, MvPolynomial.coeff_monomial]
  congr 1
  rw [eq_iff_iff, Finsupp.ext_iff]
  simp only [expN_apply]
  constructor
  · intro h i hi
    have := h i
    rwa [if_pos hi, if_pos hi] at this
  · intro h i
    by_cases hi : i < n
    · rw [if_pos hi, if_pos hi, h i hi]
    · rw [if_neg hi, if_neg hi]

/-- Adjacent parts of the content can be exchanged. -/
theorem tabCount_swap {sv : Bool} {lam : List Nat} (hl : IsPartition lam) {j n : Nat} (hj : j + 2 ≤ n)
    {mu : List Nat} (hm : IsPartition mu) (alpha : Nat → Nat) :
    tabCount sv lam n mu (alpha ∘ Equiv.swap j (j + 1)) = tabCount sv lam n mu alpha := by
  have hren : W sv lam n mu (fun i => (MvPolynomial.X i : MvPolynomial ℕ ℤ)) =
      MvPolynomial.rename (Equiv.swap j (j + 1)) (W sv lam n mu (fun i => (MvPolynomial.X i : MvPolynomial ℕ ℤ))) := by
    conv_lhs => rw [W_swap hl j n hj hm]
    unfold W
    simp [map_sum, map_prod]
  rw [← coeff_W, ← coeff_W]
  conv_lhs => rw [hren]
  rw [← MvPolynomial.coeff_rename_mapDomain (Equiv.swap j (j + 1)) (Equiv.injective _) _ (expN n alpha)]
  congr 1
  ext i
  obtain ⟨k, rfl⟩ := (Equiv.swap j (j + 1)).surjective i
  rw [Finsupp.mapDomain_apply (Equiv.injective _), expN_apply, expN_apply, Function.comp_apply, Equiv.swap_apply_self]
  by_cases hk : k < n
  · have : Equiv.swap j (j + 1) k < n := by
      rw [Equiv.swap_apply_def]; split_ifs <;> omega
    rw [if_pos hk, if_pos this]
  · have : Equiv.swap j (j + 1) k = k := Equiv.swap_apply_of_ne_of_ne (by omega) (by omega)
    rw [this]

/-- The number of tableaux only depends on the content up to order. -/
theorem tabCount_perm {sv : Bool} {lam : List Nat} (hl : IsPartition lam) {n : Nat} {mu : List Nat}
    (hm : IsPartition mu) {u u' : List Nat} (hp : u.Perm u') : ∀ p : List Nat, (p ++ u).length = n →
      tabCount sv lam n mu (fun i => (p ++ u).getD i 0) = tabCount sv lam n mu (fun i => (p ++ u').getD i 0) := by
  induction hp with
  | nil => intro p _; rfl
  | cons a _ ih =>
    intro p h
    have := ih (p ++ [a]) (by rw [List.append_assoc]; exact h)
    rw [List.append_assoc, List.append_assoc] at this
    exact this
  | swap a b l =>
    intro p h
    rw [← tabCount_swap hl (j := p.length) (by simp at h; omega) hm]
    congr 1
    funext i
    rw [Function.comp_apply, Equiv.swap_apply_def]
    split_ifs with h1 h2
    · subst h1
      rw [List.getD_append_right _ _ _ _ (by omega), List.getD_append_right _ _ _ _ (by omega)]
      simp [List.getD_cons_zero, List.getD_cons_succ]
    · subst h2
      rw [List.getD_append_right _ _ _ _ (by omega), List.getD_append_right _ _ _ _ (by omega)]
      simp [List.getD_cons_zero, List.getD_cons_succ]
    · by_cases hi : i < p.length
      · rw [List.getD_append _ _ _ _ hi, List.getD_append _ _ _ _ hi]
      · rw [List.getD_append_right _ _ _ _ (by omega), List.getD_append_right _ _ _ _ (by omega)]
        obtain ⟨k, hk⟩ : ∃ k, i - p.length = k + 2 := ⟨i - p.length - 2, by omega⟩
        rw [hk]
        simp [List.getD_cons_succ]
  | trans h1 _ ih1 ih2 =>
    intro p h
    rw [ih1 p h, ih2 p (by rw [← h]; simp [h1.length_eq])]

end Verif.Tableaux
