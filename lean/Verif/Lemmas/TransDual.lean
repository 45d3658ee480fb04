import Verif.Lemmas.TransTab
import Verif.Lemmas.MrppPoly

/-! The sums over marked reverse plane partitions and the transposed sums over marked tableaux are inverse to each other. -/

attribute [-simp] List.getD_eq_getElem?_getD

namespace Verif.Symm

open Tableaux Verif.Part Partition Finset

section Field
variable {K : Type*} [Field K] {N : ℕ}

/-- The sums over marked reverse plane partitions. -/
noncomputable def rppMat (dn : Bool) (N n : ℕ) (y : ℕ → K) : Matrix (PSet N) (PSet N) K :=
  fun s t => WG (mrppGen dn (partsOf t.1) n (partsOf s.1)) n mrppWt y

/-- The sums over marked tableaux. -/
noncomputable def transMat (dn : Bool) (N n : ℕ) (y : ℕ → K) : Matrix (PSet N) (PSet N) K :=
  fun s t => transGen dn n (partsOf s.1) (partsOf t.1) y

theorem partsOf_inj {s t : PSet N} : partsOf s.1 = partsOf t.1 ↔ s = t := by
  constructor
  · intro h
    apply Subtype.ext
    rw [← toFinset_partsOf s.1, h, toFinset_partsOf]
  · rintro rfl
    rfl

theorem WG_mrpp_zero {A : Type*} [CommRing A] {dn : Bool} {lam mu : List Nat} (hl : IsStrict lam) (hm : IsStrict mu) (n : ℕ) (y : ℕ → A)
    (h : ¬ Leq lam mu) : WG (mrppGen dn lam n mu) n mrppWt y = 0 := by
  refine Finset.sum_eq_zero (fun T hT => ?_)
  exact absurd (leq_iff_subset.2 ((isTab_mrppGen hl n hm).1 hT).sub) h

theorem rppMat_zero (dn : Bool) (y : ℕ → K) : rppMat dn N 0 y = 1 := by
  ext s t
  rw [rppMat, mrppGen, Matrix.one_apply]
  by_cases h : s = t
  · rw [if_pos h, if_pos (partsOf_inj.2 h)]
    simp [WG]
  · rw [if_neg h, if_neg (fun h' => h (partsOf_inj.1 h'))]
    simp [WG]

theorem transMat_zero (dn : Bool) (y : ℕ → K) : transMat dn N 0 y = 1 := by
  ext s t
  rw [transMat, transGen, Nat.mul_zero, omGen_zero, Matrix.one_apply]
  by_cases h : s = t
  · rw [if_pos h, if_pos (partsOf_inj.2 h)]
  · rw [if_neg h, if_neg (fun h' => h (partsOf_inj.1 h'))]

theorem transMat_succ (dn : Bool) (n : ℕ) (y : ℕ → K) : transMat dn N (n + 1) y = matJ dn N (y n) * transMat dn N n y := by
  ext s t
  rw [transMat, transGen_succ (N := N) dn (isStrict_partsOf t.sub), Matrix.mul_apply]
  rfl

theorem rppMat_succ (dn : Bool) (n : ℕ) (y : ℕ → K) : rppMat dn N (n + 1) y = matP dn N (y n) * rppMat dn N n y := by
  ext s t
  have hs := isStrict_partsOf s.sub
  have ht := isStrict_partsOf t.sub
  rw [rppMat, mrpp_WG_succ ht n hs, innerAbove, Finset.sum_filter, sum_inner (N := N) hs (by rw [toFinset_partsOf]; exact s.sub),
    sum_pset, Matrix.mul_apply]
  refine Finset.sum_congr rfl (fun u _ => ?_)
  rw [matP_apply, rppMat]
  by_cases h : Leq (partsOf u.1) (partsOf s.1)
  · rw [if_pos h]
    by_cases h2 : Leq (partsOf t.1) (partsOf u.1)
    · rw [if_pos h2]
    · rw [if_neg h2, WG_mrpp_zero ht (isStrict_partsOf u.sub) _ _ h2, mul_zero]
  · rw [if_neg h, pstep_zero hs _ h, zero_mul]

theorem matP_matJ_comm (dn : Bool) {x z : K} (hx : x ≠ 0) (hz : z ≠ 0) : Commute (matP dn N x) (matJ dn N z) := by
  have h1 := matP_comm (N := N) dn hx (neg_ne_zero.2 hz)
  have h2 := matP_matJ (N := N) dn z
  have h3 := matJ_matP (N := N) dn z
  show matP dn N x * matJ dn N z = matJ dn N z * matP dn N x
  calc matP dn N x * matJ dn N z = (matJ dn N z * matP dn N (-z)) * (matP dn N x * matJ dn N z) := by rw [h3, Matrix.one_mul]
    _ = matJ dn N z * (matP dn N (-z) * matP dn N x) * matJ dn N z := by simp only [Matrix.mul_assoc]
    _ = matJ dn N z * (matP dn N x * matP dn N (-z)) * matJ dn N z := by rw [h1]
    _ = matJ dn N z * matP dn N x * (matP dn N (-z) * matJ dn N z) := by simp only [Matrix.mul_assoc]
    _ = matJ dn N z * matP dn N x := by rw [h2, Matrix.mul_one]

theorem rppMat_matJ_comm (dn : Bool) (n : ℕ) {y : ℕ → K} (hy : ∀ i, y i ≠ 0) {z : K} (hz : z ≠ 0) :
    Commute (rppMat dn N n y) (matJ dn N z) := by
  induction n with
  | zero => rw [rppMat_zero]; exact Commute.one_left _
  | succ n ih => rw [rppMat_succ]; exact (matP_matJ_comm dn (hy n) hz).mul_left ih

theorem rppMat_transMat (dn : Bool) (n : ℕ) {y : ℕ → K} (hy : ∀ i, y i ≠ 0) :
    rppMat dn N n (fun i => -y i) * transMat dn N n y = 1 := by
  induction n with
  | zero => rw [rppMat_zero, transMat_zero, Matrix.one_mul]
  | succ n ih =>
    have hc := rppMat_matJ_comm (N := N) dn n (y := fun i => -y i) (fun i => neg_ne_zero.2 (hy i)) (hy n)
    rw [rppMat_succ, transMat_succ, Matrix.mul_assoc, ← Matrix.mul_assoc (rppMat dn N n _), hc.eq, Matrix.mul_assoc, ih, Matrix.mul_one,
      matP_matJ]

theorem transMat_rppMat (dn : Bool) (n : ℕ) {y : ℕ → K} (hy : ∀ i, y i ≠ 0) :
    transMat dn N n y * rppMat dn N n (fun i => -y i) = 1 := mul_eq_one_comm.1 (rppMat_transMat dn n hy)

theorem sum_between {A : Type*} [AddCommMonoid A] {lam mu : List Nat} (hl : IsStrict lam) (hN : lam.toFinset ⊆ Icc 1 N)
    (F : List Nat → A) (h0 : ∀ k, IsStrict k → ¬ (Leq k lam ∧ Leq mu k) → F k = 0) :
    ∑ k ∈ innerAbove mu lam, F k = ∑ u : PSet N, F (partsOf u.1) := by
  rw [innerAbove, Finset.sum_filter, sum_inner (N := N) hl hN, sum_pset]
  refine Finset.sum_congr rfl (fun u _ => ?_)
  by_cases h : Leq (partsOf u.1) lam
  · rw [if_pos h]
    by_cases h2 : Leq mu (partsOf u.1)
    · rw [if_pos h2]
    · rw [if_neg h2, h0 _ (isStrict_partsOf u.sub) (fun h => h2 h.2)]
  · rw [if_neg h, h0 _ (isStrict_partsOf u.sub) (fun h' => h h'.1)]

theorem transGen_zero {A : Type*} [CommRing A] (dn : Bool) {lam mu : List Nat} (hl : IsStrict lam) (hm : IsStrict mu) (n : ℕ) (y : ℕ → A)
    (h : ¬ Leq lam mu) : transGen dn n mu lam y = 0 :=
  omGen_eq_zero (R := markRules true false dn) (markRules_inj true false dn) hl hm (fun h' => h (leq_iff_subset.2 h')) _ _

theorem exists_bound {lam mu : List Nat} (hl : IsStrict lam) (hm : IsStrict mu) :
    ∃ N, lam.toFinset ⊆ Icc 1 N ∧ mu.toFinset ⊆ Icc 1 N := by
  refine ⟨lam.sum + mu.sum, fun a ha => ?_, fun a ha => ?_⟩
  · have ha := List.mem_toFinset.1 ha
    have := hl.2 a ha
    have := List.le_sum_of_mem ha
    rw [mem_Icc]; omega
  · have ha := List.mem_toFinset.1 ha
    have := hm.2 a ha
    have := List.le_sum_of_mem ha
    rw [mem_Icc]; omega

theorem partsOf_toFinset {lam : List Nat} (hl : IsStrict lam) (hN : lam.toFinset ⊆ Icc 1 N) : partsOf lam.toFinset = lam :=
  isStrict_ext (isStrict_partsOf hN) hl (toFinset_partsOf _)

theorem dual_field (dn : Bool) (n : ℕ) {lam mu : List Nat} (hl : IsStrict lam) (hm : IsStrict mu) {y : ℕ → K}
    (hy : ∀ i, y i ≠ 0) :
    ∑ k ∈ innerAbove mu lam, WG (mrppGen dn k n lam) n mrppWt (fun i => -y i) * transGen dn n k mu y =
      (if lam = mu then 1 else 0) ∧
    ∑ k ∈ innerAbove mu lam, transGen dn n lam k y * WG (mrppGen dn mu n k) n mrppWt (fun i => -y i) =
      if lam = mu then 1 else 0 := by
  obtain ⟨N, h1, h2⟩ := exists_bound hl hm
  have e1 := partsOf_toFinset hl h1
  have e2 := partsOf_toFinset hm h2
  have hone : (1 : Matrix (PSet N) (PSet N) K) ⟨lam.toFinset, mem_powerset.2 h1⟩ ⟨mu.toFinset, mem_powerset.2 h2⟩ =
      if lam = mu then 1 else 0 := by
    rw [Matrix.one_apply]
    by_cases h : lam = mu
    · subst h
      rw [if_pos rfl, if_pos rfl]
    · rw [if_neg h, if_neg]
      intro h'
      apply h
      rw [← e1, ← e2]
      exact congrArg partsOf (congrArg Subtype.val h')
  constructor
  · rw [sum_between hl h1]
    · rw [← hone, ← rppMat_transMat dn n hy, Matrix.mul_apply]
      refine Finset.sum_congr rfl (fun u _ => ?_)
      rw [rppMat, transMat]
      simp only [e1, e2]
    · intro k hk h
      by_cases h' : Leq k lam
      · rw [transGen_zero dn hm hk _ _ (fun h2 => h ⟨h', h2⟩), mul_zero]
      · rw [WG_mrpp_zero hk hl _ _ h', zero_mul]
  · rw [sum_between hl h1]
    · rw [← hone, ← transMat_rppMat dn n hy, Matrix.mul_apply]
      refine Finset.sum_congr rfl (fun u _ => ?_)
      rw [rppMat, transMat]
      simp only [e1, e2]
    · intro k hk h
      by_cases h' : Leq k lam
      · rw [WG_mrpp_zero hm hk _ _ (fun h2 => h ⟨h', h2⟩), mul_zero]
      · rw [transGen_zero dn hk hl _ _ h', zero_mul]

end Field

/-- The generating function of the marked tableaux, with choices. -/
noncomputable def transWG {A : Type*} [CommRing A] (dn : Bool) (n : ℕ) (mu nu : List Nat) (y : ℕ → A) : A :=
  WG (choices (markedGen true false dn nu n mu) n restWt) n (chWt n lineWt) y

theorem transWG_eq {A : Type*} [CommRing A] (dn : Bool) (n : ℕ) {mu nu : List Nat} (hm : IsStrict mu) (hn : IsStrict nu) (y : ℕ → A) :
    transWG dn n mu nu y = transGen dn n mu nu y := by
  rw [transWG, WG_choices, transGen_eq dn hn hm]

theorem WG_neg_map {A B : Type*} [CommRing A] [CommRing B] (φ : A →+* B) (dn : Bool) (n : ℕ) (lam mu : List Nat) (y : ℕ → A) :
    φ (WG (mrppGen dn mu n lam) n mrppWt (fun i => -y i)) = WG (mrppGen dn mu n lam) n mrppWt (fun i => -φ (y i)) := by
  rw [WG_map]
  simp only [map_neg]

/-- The same over any commutative ring. -/
theorem dual_ring {A : Type*} [CommRing A] (dn : Bool) (n : ℕ) {lam mu : List Nat} (hl : IsStrict lam) (hm : IsStrict mu) (y : ℕ → A) :
    ∑ k ∈ innerAbove mu lam, WG (mrppGen dn k n lam) n mrppWt (fun i => -y i) * transWG dn n k mu y =
      (if lam = mu then 1 else 0) ∧
    ∑ k ∈ innerAbove mu lam, transWG dn n lam k y * WG (mrppGen dn mu n k) n mrppWt (fun i => -y i) =
      if lam = mu then 1 else 0 := by
  have h0 : ∀ i : ℕ, algebraMap (MvPolynomial ℕ ℤ) (FractionRing (MvPolynomial ℕ ℤ)) (MvPolynomial.X i) ≠ 0 := by
    intro i h
    rw [← map_zero (algebraMap (MvPolynomial ℕ ℤ) (FractionRing (MvPolynomial ℕ ℤ)))] at h
    exact MvPolynomial.X_ne_zero i (IsFractionRing.injective _ _ h)
  obtain ⟨f1, f2⟩ := dual_field dn n hl hm h0
  have hst : ∀ k ∈ innerAbove mu lam, IsStrict k := fun k hk => ((mem_innerAbove hl).1 hk).1
  have hev : ∀ i, (MvPolynomial.aeval (R := ℤ) y).toRingHom (MvPolynomial.X i : MvPolynomial ℕ ℤ) = y i := by
    intro i
    exact MvPolynomial.aeval_X y i
  constructor
  · have p1 : ∑ k ∈ innerAbove mu lam, WG (mrppGen dn k n lam) n mrppWt (fun i => -(MvPolynomial.X i : MvPolynomial ℕ ℤ)) *
        transWG dn n k mu (fun i => (MvPolynomial.X i : MvPolynomial ℕ ℤ)) = if lam = mu then 1 else 0 := by
      apply IsFractionRing.injective (MvPolynomial ℕ ℤ) (FractionRing (MvPolynomial ℕ ℤ))
      rw [map_sum, show algebraMap (MvPolynomial ℕ ℤ) (FractionRing (MvPolynomial ℕ ℤ)) (if lam = mu then 1 else 0) =
        if lam = mu then 1 else 0 by split <;> simp, ← f1]
      refine Finset.sum_congr rfl (fun k hk => ?_)
      rw [map_mul, WG_neg_map, transWG, WG_map, ← transWG_eq dn n (hst k hk) hm]
      rfl
    have h := congrArg (MvPolynomial.aeval (R := ℤ) y).toRingHom p1
    rw [map_sum, show (MvPolynomial.aeval (R := ℤ) y).toRingHom (if lam = mu then 1 else 0) = if lam = mu then 1 else 0 by
      split <;> simp] at h
    rw [← h]
    refine Finset.sum_congr rfl (fun k hk => ?_)
    rw [map_mul, WG_neg_map, transWG, transWG, WG_map]
    simp only [hev]
  · have p1 : ∑ k ∈ innerAbove mu lam, transWG dn n lam k (fun i => (MvPolynomial.X i : MvPolynomial ℕ ℤ)) *
        WG (mrppGen dn mu n k) n mrppWt (fun i => -(MvPolynomial.X i : MvPolynomial ℕ ℤ)) = if lam = mu then 1 else 0 := by
      apply IsFractionRing.injective (MvPolynomial ℕ ℤ) (FractionRing (MvPolynomial ℕ ℤ))
      rw [map_sum, show algebraMap (MvPolynomial ℕ ℤ) (FractionRing (MvPolynomial ℕ ℤ)) (if lam = mu then 1 else 0) =
        if lam = mu then 1 else 0 by split <;> simp, ← f2]
      refine Finset.sum_congr rfl (fun k hk => ?_)
      rw [map_mul, WG_neg_map, transWG, WG_map, ← transWG_eq dn n hl (hst k hk)]
      rfl
    have h := congrArg (MvPolynomial.aeval (R := ℤ) y).toRingHom p1
    rw [map_sum, show (MvPolynomial.aeval (R := ℤ) y).toRingHom (if lam = mu then 1 else 0) = if lam = mu then 1 else 0 by
      split <;> simp] at h
    rw [← h]
    refine Finset.sum_congr rfl (fun k hk => ?_)
    rw [map_mul, WG_neg_map, transWG, transWG, WG_map]
    simp only [hev]

/-! ### with the powers of `β` -/

theorem mrpp_scale (dn : Bool) (n : ℕ) {lam k : List Nat} (hl : IsStrict lam) (hk : IsStrict k) {b c : Laurent} (hbc : c * b = 1) (x : ℕ → Laurent) :
    b ^ (lam.sum - k.sum) * WG (mrppGen dn k n lam) n mrppWt (fun i => -(x i * c)) =
      (-1) ^ (lam.sum - k.sum) * ∑ T ∈ mrppGen dn k n lam, (-b) ^ (lam.sum - k.sum - ∑ i ∈ range n, mrppWt T i) *
        ∏ i ∈ range n, x i ^ mrppWt T i := by
  rw [WG, Finset.mul_sum, Finset.mul_sum]
  refine Finset.sum_congr rfl (fun T hT => ?_)
  have hle : ∑ i ∈ range n, mrppWt T i + k.sum ≤ lam.sum := sum_mrppWt_le ((isTab_mrppGen hk n hl).1 hT)
  obtain ⟨W, hW⟩ : ∃ W, ∑ i ∈ range n, mrppWt T i = W := ⟨_, rfl⟩
  have hprod : ∏ i ∈ range n, (-(x i * c)) ^ mrppWt T i = (-1) ^ W * c ^ W * ∏ i ∈ range n, x i ^ mrppWt T i := by
    rw [← hW, ← Finset.prod_pow_eq_pow_sum, ← Finset.prod_pow_eq_pow_sum, ← Finset.prod_mul_distrib, ← Finset.prod_mul_distrib]
    refine Finset.prod_congr rfl (fun i _ => ?_)
    rw [neg_pow, mul_pow]
    ring
  rw [hprod, hW]
  obtain ⟨t, ht⟩ : ∃ t, lam.sum - k.sum = W + t := ⟨lam.sum - k.sum - W, by omega⟩
  rw [ht, Nat.add_sub_cancel_left, neg_pow b t]
  have h1 : b ^ (W + t) * c ^ W = b ^ t := by
    rw [pow_add, mul_right_comm, ← mul_pow, mul_comm b c, hbc, one_pow, one_mul]
  have h2 : ((-1 : Laurent)) ^ (W + t) * (-1) ^ t = (-1) ^ W := by
    rw [pow_add, mul_assoc, ← mul_pow]
    simp
  calc b ^ (W + t) * ((-1) ^ W * c ^ W * ∏ i ∈ range n, x i ^ mrppWt T i) =
      (-1) ^ W * (b ^ (W + t) * c ^ W) * ∏ i ∈ range n, x i ^ mrppWt T i := by ring
    _ = ((-1) ^ (W + t) * (-1) ^ t) * b ^ t * ∏ i ∈ range n, x i ^ mrppWt T i := by rw [h1, h2]
    _ = _ := by ring

theorem trans_scale (dn : Bool) (n : ℕ) {k mu : List Nat} (hk : IsStrict k) (hm : IsStrict mu) {b c : Laurent} (hbc : c * b = 1) (x : ℕ → Laurent) :
    b ^ (k.sum - mu.sum) * transWG dn n k mu (fun i => x i * c) =
      ∑ T ∈ markedGen true false dn mu n k, ∏ i ∈ range n, (x i ^ lineWt T i * (x i + b) ^ restWt T i) := by
  rw [transWG, WG_choices, Finset.mul_sum]
  refine Finset.sum_congr rfl (fun T hT => ?_)
  have h := markedGen_count dn hm hk n T hT
  rw [show k.sum - mu.sum = ∑ i ∈ range n, (lineWt T i + restWt T i) by omega, ← Finset.prod_pow_eq_pow_sum,
    ← Finset.prod_mul_distrib]
  refine Finset.prod_congr rfl (fun i _ => ?_)
  obtain ⟨z, hz⟩ : ∃ z, x i * c = z := ⟨_, rfl⟩
  have h1 : x i = b * z := by rw [← hz, mul_left_comm, mul_comm b c, hbc, mul_one]
  have h2 : b * z + b = b * (z + 1) := by ring
  rw [hz, h1, h2, mul_pow, mul_pow, pow_add]
  ring

end Verif.Symm
