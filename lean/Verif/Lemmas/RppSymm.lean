import Verif.Lemmas.RppStrips
import Verif.Lemmas.Transfer

/-! Two consecutive steps of a reverse plane partition may be exchanged. -/

attribute [-simp] List.getD_eq_getElem?_getD
attribute [local simp] List.getD_cons_zero List.getD_cons_succ

namespace Verif.Tableaux

open Tab Verif.Part Partition Symm

variable {A : Type*} [CommRing A]

/-- The factor of one row: the row ends at `k` after the first step, `r ≤ k ≤ m`. -/
def rowFactor (x y : A) (m r k : Nat) : A := (if k < m then x else 1) * (if r < k then y else 1)

/-- The sum over all middle shapes, row by row; `t` bounds the first row. -/
def midSum (x y : A) : Nat → (Nat → Nat) → (Nat → Nat) → Nat → A
  | 0, _, _, _ => 1
  | N + 1, m, r, t => ∑ k ∈ Finset.Icc (r 0) (min (m 0) t),
      rowFactor x y (m 0) (r 0) k * midSum x y N (fun i => m (i + 1)) (fun i => r (i + 1)) k

/-- The invariant that makes the sum symmetric. -/
def MidInv (x y : A) (m r : Nat) (U U' : Nat → A) : Prop :=
  ∃ F : Nat → A, (∀ l ≥ m, F l = 0) ∧ ∀ t ≥ r, U t + y * F t = U' t + x * F t ∧
    U (t + 1) + y * F (t + 1) = U t + y * F t + x * y * F (t + 1)

theorem sum_Icc_succ' (f : Nat → A) {r t : Nat} (h : r ≤ t + 1) :
    ∑ k ∈ Finset.Icc r (t + 1), f k = ∑ k ∈ Finset.Icc r t, f k + f (t + 1) := by
  by_cases h' : r ≤ t
  · rw [← Finset.sum_Icc_succ_top h]
  · have : r = t + 1 := by omega
    subst this
    simp

theorem midInv_step {x y : A} {mL rL m r : Nat} {U U' : Nat → A} (h : MidInv x y mL rL U U') (hm : mL ≤ m)
    (hr : rL ≤ r) (hrm : r ≤ m) :
    MidInv x y m r (fun t => ∑ k ∈ Finset.Icc r (min m t), rowFactor x y m r k * U k)
      (fun t => ∑ k ∈ Finset.Icc r (min m t), rowFactor y x m r k * U' k) := by
  obtain ⟨F, hF0, hF⟩ := h
  -- the values of the sums
  have hstep : ∀ (x y : A) (U : Nat → A) t, r ≤ t → t < m →
      ∑ k ∈ Finset.Icc r (min m (t + 1)), rowFactor x y m r k * U k =
        ∑ k ∈ Finset.Icc r (min m t), rowFactor x y m r k * U k + (if t + 1 < m then x * y else y) * U (t + 1) := by
    intro x y U t h1 h2
    rw [min_eq_right (by omega : t + 1 ≤ m), min_eq_right (by omega : t ≤ m), sum_Icc_succ' _ (by omega)]
    congr 2
    unfold rowFactor
    rw [if_pos (by omega : r < t + 1)]
    split
    · rfl
    · rw [one_mul]
  have hconst : ∀ (x y : A) (U : Nat → A) t, m ≤ t →
      ∑ k ∈ Finset.Icc r (min m (t + 1)), rowFactor x y m r k * U k =
        ∑ k ∈ Finset.Icc r (min m t), rowFactor x y m r k * U k := by
    intro x y U t h1
    rw [min_eq_left (by omega : m ≤ t + 1), min_eq_left h1]
  have hstart : ∀ (x y : A) (U : Nat → A), ∑ k ∈ Finset.Icc r (min m r), rowFactor x y m r k * U k =
      (if r < m then x else 1) * U r := by
    intro x y U
    rw [min_eq_right hrm, Finset.Icc_self, Finset.sum_singleton, rowFactor, if_neg (lt_irrefl r), mul_one]
  by_cases hlt : r < m
  · let H : Nat → A := fun t => U t + y * F t
    have hU : ∀ t, U t = H t - y * F t := fun t => by simp [H]
    have hU' : ∀ t ≥ r, U' t = H t - x * F t := fun t ht => by
      have := (hF t (by omega)).1
      simp only [H]
      rw [this]; ring
    have hH : ∀ t ≥ r, H (t + 1) = H t + x * y * F (t + 1) := fun t ht => (hF t (by omega)).2
    have hFm : F m = 0 := hF0 m hm
    let G : Nat → A := fun t => if t < m then H t else 0
    -- the increments
    have hinc : ∀ t ≥ r, ∑ k ∈ Finset.Icc r (min m (t + 1)), rowFactor x y m r k * U k + y * G (t + 1) =
        ∑ k ∈ Finset.Icc r (min m t), rowFactor x y m r k * U k + y * G t + x * y * G (t + 1) := by
      intro t ht
      by_cases h1 : t < m
      · rw [hstep x y U t ht h1, hU]
        by_cases h2 : t + 1 < m
        · simp only [G, h1, h2, if_true]
          rw [hH t ht]; ring
        · obtain rfl : m = t + 1 := by omega
          simp only [G, lt_irrefl, h1, if_true, if_false]
          rw [hH t ht, hFm]; ring
      · rw [hconst x y U t (by omega)]
        simp only [G, h1, show ¬ (t + 1 < m) by omega, if_false]
        ring
    have hinc' : ∀ t ≥ r, ∑ k ∈ Finset.Icc r (min m (t + 1)), rowFactor y x m r k * U' k + x * G (t + 1) =
        ∑ k ∈ Finset.Icc r (min m t), rowFactor y x m r k * U' k + x * G t + x * y * G (t + 1) := by
      intro t ht
      by_cases h1 : t < m
      · rw [hstep y x U' t ht h1, hU' (t + 1) (by omega)]
        by_cases h2 : t + 1 < m
        · simp only [G, h1, h2, if_true]
          rw [hH t ht]; ring
        · obtain rfl : m = t + 1 := by omega
          simp only [G, lt_irrefl, h1, if_true, if_false]
          rw [hH t ht, hFm]; ring
      · rw [hconst y x U' t (by omega)]
        simp only [G, h1, show ¬ (t + 1 < m) by omega, if_false]
        ring
    have heq : ∀ t ≥ r, ∑ k ∈ Finset.Icc r (min m t), rowFactor x y m r k * U k + y * G t =
        ∑ k ∈ Finset.Icc r (min m t), rowFactor y x m r k * U' k + x * G t := by
      intro t ht
      induction t, ht using Nat.le_induction with
      | base =>
        rw [hstart, hstart, if_pos hlt, if_pos hlt, hU r, hU' r le_rfl]
        simp only [G, hlt, if_true]
        ring
      | succ t ht ih => rw [hinc t ht, hinc' t ht, ih]
    refine ⟨G, fun l hl => by simp only [G]; rw [if_neg (by omega)], fun t ht => ⟨heq t ht, hinc t ht⟩⟩
  · obtain rfl : r = m := by omega
    refine ⟨fun _ => 0, fun _ _ => rfl, fun t ht => ?_⟩
    simp only [mul_zero, add_zero, min_eq_left ht, min_eq_left (by omega : r ≤ t + 1), Finset.Icc_self,
      Finset.sum_singleton, rowFactor, lt_irrefl, if_false, one_mul, and_true]
    have := (hF r (by omega)).1
    rwa [hF0 r (by omega), mul_zero, mul_zero, add_zero, add_zero] at this

theorem midInv (x y : A) (N : Nat) (m r : Nat → Nat) (hm : Antitone m) (hr : Antitone r) (hrm : ∀ i, r i ≤ m i) :
    MidInv x y (m 0) (r 0) (midSum x y N m r) (midSum y x N m r) := by
  induction N generalizing m r with
  | zero => exact ⟨fun _ => 0, fun _ _ => rfl, fun t _ => by simp [midSum]⟩
  | succ N ih =>
    have h := ih (fun i => m (i + 1)) (fun i => r (i + 1)) (fun i j h => hm (by omega)) (fun i j h => hr (by omega))
      (fun i => hrm _)
    exact midInv_step h (hm (by omega)) (hr (by omega)) (hrm 0)

theorem midSum_symm (x y : A) (N : Nat) (m r : Nat → Nat) (hm : Antitone m) (hr : Antitone r) (hrm : ∀ i, r i ≤ m i) :
    midSum x y N m r (m 0) = midSum y x N m r (m 0) := by
  obtain ⟨F, h0, h⟩ := midInv x y N m r hm hr hrm
  have := (h (m 0) (hrm 0)).1
  rwa [h0 _ le_rfl, mul_zero, mul_zero, add_zero, add_zero] at this

/-- The middle shapes, as lists of `N` numbers. -/
def midSeqs : Nat → (Nat → Nat) → (Nat → Nat) → Nat → Finset (List Nat)
  | 0, _, _, _ => {[]}
  | N + 1, m, r, t => (Finset.Icc (r 0) (min (m 0) t)).biUnion (fun k =>
      (midSeqs N (fun i => m (i + 1)) (fun i => r (i + 1)) k).image (List.cons k))

theorem mem_midSeqs (N : Nat) (m r : Nat → Nat) (t : Nat) (v : List Nat) :
    v ∈ midSeqs N m r t ↔ v.length = N ∧ v.getD 0 0 ≤ t ∧ (∀ i < N, r i ≤ v.getD i 0 ∧ v.getD i 0 ≤ m i) ∧
      ∀ i, v.getD (i + 1) 0 ≤ v.getD i 0 := by
  induction N generalizing m r t v with
  | zero =>
    rw [midSeqs, Finset.mem_singleton]
    constructor
    · rintro rfl; simp
    · rintro ⟨h, _⟩; exact List.eq_nil_of_length_eq_zero h
  | succ N ih =>
    rw [midSeqs]
    simp only [Finset.mem_biUnion, Finset.mem_image, Finset.mem_Icc]
    constructor
    · rintro ⟨k, hk, v', hv', rfl⟩
      obtain ⟨h1, h2, h3, h4⟩ := (ih _ _ _ _).1 hv'
      refine ⟨by simp [h1], ?_, ?_, ?_⟩
      · rw [List.getD_cons_zero]; omega
      · intro i hi
        cases i with
        | zero => rw [List.getD_cons_zero]; omega
        | succ i => rw [List.getD_cons_succ]; exact h3 i (by omega)
      · intro i
        cases i with
        | zero => rw [List.getD_cons_succ, List.getD_cons_zero]; exact h2
        | succ i => rw [List.getD_cons_succ, List.getD_cons_succ]; exact h4 i
    · rintro ⟨h1, h2, h3, h4⟩
      cases v with
      | nil => simp at h1
      | cons k v' =>
        refine ⟨k, ?_, v', (ih _ _ _ _).2 ⟨by simpa using h1, ?_, ?_, ?_⟩, rfl⟩
        · have := h3 0 (by omega)
          rw [List.getD_cons_zero] at this h2
          omega
        · have := h4 0
          rwa [List.getD_cons_succ, List.getD_cons_zero] at this
        · intro i hi
          have := h3 (i + 1) (by omega)
          rwa [List.getD_cons_succ] at this
        · intro i
          have := h4 (i + 1)
          rwa [List.getD_cons_succ, List.getD_cons_succ] at this

theorem sum_midSeqs (x y : A) (N : Nat) (m r : Nat → Nat) (t : Nat) :
    ∑ v ∈ midSeqs N m r t, ∏ i ∈ Finset.range N, rowFactor x y (m i) (r i) (v.getD i 0) = midSum x y N m r t := by
  induction N generalizing m r t with
  | zero => simp [midSeqs, midSum]
  | succ N ih =>
    rw [midSeqs, midSum, Finset.sum_biUnion]
    · refine Finset.sum_congr rfl (fun k _ => ?_)
      rw [Finset.sum_image (fun a _ b _ h => (List.cons.inj h).2), ← ih, Finset.mul_sum]
      refine Finset.sum_congr rfl (fun v _ => ?_)
      rw [Finset.prod_range_succ', mul_comm]
      simp only [List.getD_cons_zero, List.getD_cons_succ]
    · intro a _ b _ hne
      rw [Function.onFun, Finset.disjoint_left]
      intro v hv hv'
      rw [Finset.mem_image] at hv hv'
      obtain ⟨u, _, rfl⟩ := hv
      obtain ⟨u', _, h⟩ := hv'
      exact hne (List.cons.inj h).1.symm

/-- The partitions between `lam` and `mu`. -/
def between (lam mu : List Nat) : Finset (List Nat) := ((rppHorizontalStrips mu lam).map Prod.fst).toFinset

theorem mem_between {lam mu nu : List Nat} (hm : IsPartition mu) (hl : IsPartition lam) :
    nu ∈ between lam mu ↔ IsPartition nu ∧ (∀ j, lam.getD j 0 ≤ nu.getD j 0) ∧ ∀ j, nu.getD j 0 ≤ mu.getD j 0 := by
  rw [between, List.mem_toFinset, List.mem_map]
  constructor
  · rintro ⟨s, hs, rfl⟩
    obtain ⟨h1, h2, h3, _⟩ := ((rppHorizontalStrips_spec hm hl).1 s).1 hs
    exact ⟨h1, h2, h3⟩
  · rintro ⟨h1, h2, h3⟩
    exact ⟨(nu, skew mu nu), ((rppHorizontalStrips_spec hm hl).1 _).2 ⟨h1, h2, h3, rfl⟩, rfl⟩

/-- The number of rows in which `mu` and `nu` differ. -/
def rowDiff (mu nu : List Nat) : Nat := ((Finset.range mu.length).filter (fun i => nu.getD i 0 < mu.getD i 0)).card

theorem rowDiff_eq {mu nu : List Nat} {M : Nat} (hM : mu.length ≤ M) :
    rowDiff mu nu = ((Finset.range M).filter (fun i => nu.getD i 0 < mu.getD i 0)).card := by
  rw [rowDiff]
  congr 1
  ext i
  simp only [Finset.mem_filter, Finset.mem_range]
  constructor
  · rintro ⟨h1, h2⟩; exact ⟨by omega, h2⟩
  · rintro ⟨h1, h2⟩
    refine ⟨?_, h2⟩
    by_contra hc
    rw [List.getD_eq_default mu _ (by omega)] at h2
    omega

theorem pow_rowDiff {mu nu : List Nat} {M : Nat} (hM : mu.length ≤ M) (x : A) :
    x ^ rowDiff mu nu = ∏ i ∈ Finset.range M, if nu.getD i 0 < mu.getD i 0 then x else 1 := by
  rw [rowDiff_eq hM, Finset.prod_ite]
  simp

/-- Two steps, in rows. -/
theorem sum_between {mu rho : List Nat} (hm : IsPartition mu) (hr : IsPartition rho)
    (hrm : ∀ i, rho.getD i 0 ≤ mu.getD i 0) (x y : A) :
    ∑ nu ∈ between rho mu, x ^ rowDiff mu nu * y ^ rowDiff nu rho =
      midSum x y mu.length (fun i => mu.getD i 0) (fun i => rho.getD i 0) (mu.getD 0 0) := by
  rw [← sum_midSeqs]
  symm
  have htrim : ∀ v : List Nat, (∀ i, v.getD (i + 1) 0 ≤ v.getD i 0) → IsPartition (trim v) := fun v h =>
    trim_isPartition (pairwise_ge_iff.2 h)
  refine Finset.sum_bij (fun v _ => trim v) ?_ ?_ ?_ ?_
  · intro v hv
    obtain ⟨h1, h2, h3, h4⟩ := (mem_midSeqs _ _ _ _ _).1 hv
    rw [mem_between hm hr]
    refine ⟨htrim v h4, fun j => ?_, fun j => ?_⟩
    · rw [getD_trim]
      by_cases hj : j < mu.length
      · exact (h3 j hj).1
      · have := hrm j
        rw [List.getD_eq_default mu _ (by omega)] at this
        omega
    · rw [getD_trim]
      by_cases hj : j < mu.length
      · exact (h3 j hj).2
      · rw [List.getD_eq_default v _ (by omega)]
        omega
  · intro v hv v' hv' he
    have h1 := ((mem_midSeqs _ _ _ _ _).1 hv).1
    have h1' := ((mem_midSeqs _ _ _ _ _).1 hv').1
    refine List.ext_getElem (by omega) (fun i hi hi' => ?_)
    rw [← List.getD_eq_getElem v 0 hi, ← List.getD_eq_getElem v' 0 hi', ← getD_trim v, ← getD_trim v', he]
  · intro nu hnu
    obtain ⟨h1, h2, h3⟩ := (mem_between hm hr).1 hnu
    have hlen : nu.length ≤ mu.length := by
      by_contra hc
      have := (getD_pos_iff h1.2 mu.length).2 (by omega)
      have h4 := h3 mu.length
      rw [List.getD_eq_default mu _ le_rfl] at h4
      omega
    obtain ⟨v, hv⟩ : ∃ v, v = (List.range mu.length).map (fun i => nu.getD i 0) := ⟨_, rfl⟩
    have hget : ∀ i, v.getD i 0 = nu.getD i 0 := by
      intro i
      by_cases hi : i < mu.length
      · rw [hv, List.getD_eq_getElem _ _ (by simpa using hi)]; simp
      · rw [hv, List.getD_eq_default _ _ (by simp; omega), List.getD_eq_default _ _ (by omega)]
    refine ⟨v, (mem_midSeqs _ _ _ _ _).2 ⟨by simp [hv], ?_, fun i _ => ?_, fun i => ?_⟩, ?_⟩
    · rw [hget]; exact h3 0
    · rw [hget]; exact ⟨h2 i, h3 i⟩
    · rw [hget, hget]; exact pairwise_ge_iff.1 h1.1 i
    · refine row_ext (htrim v (fun i => ?_)).2 h1.2 (fun i => ?_)
      · rw [hget, hget]; exact pairwise_ge_iff.1 h1.1 i
      · rw [getD_trim, hget]
  · intro v hv
    obtain ⟨h1, h2, h3, h4⟩ := (mem_midSeqs _ _ _ _ _).1 hv
    have hlen : (trim v).length ≤ mu.length := by
      by_contra hc
      have := (getD_pos_iff (htrim v h4).2 mu.length).2 (by omega)
      rw [getD_trim, List.getD_eq_default v _ (by omega)] at this
      omega
    rw [pow_rowDiff le_rfl, pow_rowDiff hlen, ← Finset.prod_mul_distrib]
    refine Finset.prod_congr rfl (fun i _ => ?_)
    rw [getD_trim, rowFactor]

/-- Two steps commute, in rows. -/
theorem between_symm {mu rho : List Nat} (hm : IsPartition mu) (hr : IsPartition rho) (x y : A) :
    ∑ nu ∈ between rho mu, x ^ rowDiff mu nu * y ^ rowDiff nu rho =
      ∑ nu ∈ between rho mu, y ^ rowDiff mu nu * x ^ rowDiff nu rho := by
  by_cases hrm : ∀ i, rho.getD i 0 ≤ mu.getD i 0
  · rw [sum_between hm hr hrm, sum_between hm hr hrm]
    exact midSum_symm x y _ _ _ (getD_antitone hm.1) (getD_antitone hr.1) hrm
  · have : between rho mu = ∅ := by
      rw [Finset.eq_empty_iff_forall_notMem]
      intro nu hnu
      obtain ⟨_, h2, h3⟩ := (mem_between hm hr).1 hnu
      exact hrm (fun i => (h2 i).trans (h3 i))
    rw [this, Finset.sum_empty, Finset.sum_empty]

end Verif.Tableaux
