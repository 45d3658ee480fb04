import Verif.Lemmas.MrppLink
import Mathlib.Algebra.MvPolynomial.CommRing
import Mathlib.Algebra.MvPolynomial.Eval
import Mathlib.RingTheory.Localization.FractionRing
import Mathlib.RingTheory.MvPolynomial.Basic

/-! The letters `i'` and `i` of marked reverse plane partitions: the steps for different variables commute. -/

attribute [-simp] List.getD_eq_getElem?_getD

namespace Verif.Tableaux

open Tab Verif.Part Partition Verif.Vertex Finset

/-- The strict partitions inside `mu`. -/
def inner (mu : List Nat) : Finset (List Nat) := (((shiftedRppHorizontalStrips mu).getD []).map Prod.fst).toFinset

theorem mem_inner {mu nu : List Nat} (hm : IsStrict mu) :
    nu ∈ inner mu ↔ IsStrict nu ∧ ∀ j, nu.getD j 0 ≤ mu.getD j 0 := by
  obtain ⟨l, h1, h2, _⟩ := shiftedRppHorizontalStrips_spec hm
  rw [inner, h1, Option.getD_some, List.mem_toFinset, List.mem_map]
  constructor
  · rintro ⟨s, hs, rfl⟩
    have := (h2 s).1 hs
    exact ⟨this.1, this.2.1⟩
  · rintro ⟨h3, h4⟩
    exact ⟨(nu, skew mu nu true), (h2 _).2 ⟨h3, h4, rfl⟩, rfl⟩

def colsOf (mu nu : List Nat) : ℕ := ((skew mu nu true).toFinset.image Prod.snd).card

def rowsOf (mu nu : List Nat) : ℕ := ((skew mu nu true).toFinset.image Prod.fst).card

/-- No box of `mu/nu` on the diagonal, unless this is allowed. -/
def DiagOk (dn : Bool) (mu nu : List Nat) : Prop := dn = true ∨ ∀ b ∈ (skew mu nu true).toFinset, b.1 ≠ b.2

instance (dn : Bool) (mu nu : List Nat) : Decidable (DiagOk dn mu nu) := by unfold DiagOk; infer_instance

/-- Containment. -/
def Leq (nu mu : List Nat) : Prop := ∀ j < nu.length, nu.getD j 0 ≤ mu.getD j 0

instance (nu mu : List Nat) : Decidable (Leq nu mu) := by unfold Leq; infer_instance

theorem leq_iff {nu mu : List Nat} : Leq nu mu ↔ ∀ j, nu.getD j 0 ≤ mu.getD j 0 := by
  constructor
  · intro h j
    by_cases hj : j < nu.length
    · exact h j hj
    · rw [List.getD_eq_default _ _ (by omega)]; omega
  · intro h j _
    exact h j

/-- The letters `i'` and `i` together. -/
def pstep {A : Type*} [CommRing A] (dn : Bool) (mu rho : List Nat) (x : A) : A :=
  ∑ nu ∈ inner mu, if Leq rho nu ∧ DiagOk dn mu nu then x ^ (colsOf mu nu + rowsOf nu rho) else 0

theorem pstep_zero {A : Type*} [CommRing A] {dn : Bool} {mu rho : List Nat} (hm : IsStrict mu) (x : A)
    (h : ¬ Leq rho mu) : pstep dn mu rho x = 0 := by
  refine sum_eq_zero (fun nu hnu => if_neg (fun h' => h ?_))
  have h1 := (mem_inner hm).1 hnu
  have h2 := leq_iff.1 h'.1
  exact leq_iff.2 (fun j => (h2 j).trans (h1.2 j))

theorem mem_skewF {mu nu : List Nat} (b : Nat × Nat) :
    b ∈ (skew mu nu true).toFinset ↔ b ∈ shapeSet true mu ∧ b ∉ shapeSet true nu := by
  rw [List.mem_toFinset, mem_skew_shape]

section Field
variable {K : Type*} [Field K] {N : ℕ} {mu nu : List Nat}

theorem cn_le_all (hm : IsStrict mu) (hn : IsStrict nu) (hN : nu.toFinset ⊆ Icc 1 N) :
    (∀ q < N, cn nu.toFinset q ≤ cn mu.toFinset q) ↔ Leq nu mu := by
  rw [leq_iff, le_iff_cn hm hn]
  constructor
  · intro h d
    by_cases hd : d < N
    · exact h d hd
    · rw [cn_large hN (p := d) (by omega)]; omega
  · intro h q _; exact h q

theorem line_R (hm : IsStrict mu) (hn : IsStrict nu) (hMN : mu.toFinset ⊆ Icc 1 N) (hN : nu.toFinset ⊆ Icc 1 N) (x : K) :
    lineVal (wR x) mu.toFinset nu.toFinset (x ^ ·) N 0 = if Leq nu mu then x ^ rowsOf mu nu else 0 := by
  have h := lineVal_R x mu.toFinset nu.toFinset (x ^ ·) N (fun q hq => by rw [cn_large hN hq]; omega)
  rw [cn_large hMN le_rfl, cn_large hN le_rfl] at h
  rw [h]
  simp only [cn_le_all hm hn hN]
  split_ifs with h1
  · rw [rowsOf, card_rows hm hn (leq_iff.1 h1) hMN mem_skewF, pow_add]
  · rfl

theorem line_C (hm : IsStrict mu) (hn : IsStrict nu) (hMN : mu.toFinset ⊆ Icc 1 N) (hN : nu.toFinset ⊆ Icc 1 N) (x : K)
    (dn : Bool) :
    lineVal (wC x) mu.toFinset nu.toFinset (if dn = true then (x ^ ·) else dlt) N 0 =
      if Leq nu mu ∧ DiagOk dn mu nu then x ^ colsOf mu nu else 0 := by
  have h := lineVal_C x mu.toFinset nu.toFinset (if dn = true then (x ^ ·) else dlt) N
    (fun q hq => by rw [cn_large hN hq]; omega)
  rw [cn_large hMN le_rfl, cn_large hN le_rfl] at h
  rw [h]
  simp only [cn_le_all hm hn hN]
  by_cases h1 : Leq nu mu
  · rw [if_pos h1]
    cases dn with
    | true =>
      rw [if_pos rfl, if_pos (show Leq nu mu ∧ DiagOk true mu nu from ⟨h1, Or.inl rfl⟩), colsOf, card_cols hm hn (leq_iff.1 h1) hMN mem_skewF, pow_add]
    | false =>
      have hiff : DiagOk false mu nu ↔ cn mu.toFinset 0 - cn nu.toFinset 0 = 0 := by
        rw [← no_diag_iff hm hn (leq_iff.1 h1) mem_skewF]
        simp [DiagOk]
      rw [if_neg (by simp), dlt]
      by_cases h2 : cn mu.toFinset 0 - cn nu.toFinset 0 = 0
      · rw [if_pos h2, if_pos ⟨h1, hiff.2 h2⟩, colsOf, card_cols hm hn (leq_iff.1 h1) hMN mem_skewF, h2, mul_one, add_zero]
      · rw [if_neg h2, if_neg (fun h => h2 (hiff.1 h.2)), mul_zero]
  · rw [if_neg h1, if_neg (fun h => h1 h.1)]

end Field

theorem sum_inner {A : Type*} [AddCommMonoid A] {N : ℕ} {mu : List Nat} (hm : IsStrict mu) (hN : mu.toFinset ⊆ Icc 1 N)
    (h : List Nat → A) :
    ∑ nu ∈ inner mu, h nu = ∑ u ∈ (Icc 1 N).powerset, if Leq (partsOf u) mu then h (partsOf u) else 0 := by
  rw [← sum_filter]
  have hinv : ∀ nu ∈ inner mu, partsOf nu.toFinset = nu ∧ nu.toFinset ⊆ Icc 1 N := by
    intro nu hnu
    obtain ⟨h1, h2⟩ := (mem_inner hm).1 hnu
    have h3 : nu.toFinset ⊆ Icc 1 N := by
      intro a ha
      have ha' := List.mem_toFinset.1 ha
      rw [mem_Icc]
      refine ⟨h1.2 a ha', ?_⟩
      by_contra hc
      have h4 := (le_iff_cn hm h1).1 h2 N
      rw [cn_large hN le_rfl] at h4
      have : a ∈ nu.toFinset.filter (N < ·) := mem_filter.2 ⟨ha, by omega⟩
      have := card_pos.2 ⟨a, this⟩
      unfold cn at h4
      omega
    exact ⟨isStrict_ext (isStrict_partsOf h3) h1 (toFinset_partsOf _), h3⟩
  refine sum_bij' (fun nu _ => nu.toFinset) (fun u _ => partsOf u) ?_ ?_ ?_ ?_ ?_
  · intro nu hnu
    obtain ⟨h1, h2⟩ := hinv nu hnu
    rw [mem_filter, mem_powerset, h1]
    exact ⟨h2, leq_iff.2 ((mem_inner hm).1 hnu).2⟩
  · intro u hu
    rw [mem_filter, mem_powerset] at hu
    exact (mem_inner hm).2 ⟨isStrict_partsOf hu.1, leq_iff.1 hu.2⟩
  · intro nu hnu
    exact (hinv nu hnu).1
  · intro u _
    exact toFinset_partsOf u
  · intro nu hnu
    rw [(hinv nu hnu).1]

section Field
variable {K : Type*} [Field K] {N : ℕ} {mu rho : List Nat}

theorem pstep_field (dn : Bool) (hm : IsStrict mu) (hr : IsStrict rho) (hMN : mu.toFinset ⊆ Icc 1 N)
    (hN : rho.toFinset ⊆ Icc 1 N) (x : K) :
    pstep dn mu rho x = ∑ u ∈ (Icc 1 N).powerset,
      lineVal (wC x) mu.toFinset u (if dn = true then (x ^ ·) else dlt) N 0 *
        lineVal (wR x) u rho.toFinset (x ^ ·) N 0 := by
  rw [pstep, sum_inner hm hMN]
  refine sum_congr rfl (fun u hu => ?_)
  have hu := mem_powerset.1 hu
  have hs := isStrict_partsOf hu
  have e := toFinset_partsOf u
  have h1 := line_C hm hs hMN (by rw [e]; exact hu) x dn
  have h2 := line_R hs hr (by rw [e]; exact hu) hN x
  rw [e] at h1 h2
  rw [h1, h2]
  by_cases g1 : Leq (partsOf u) mu
  · rw [if_pos g1]
    by_cases g2 : Leq rho (partsOf u)
    · by_cases g3 : DiagOk dn mu (partsOf u)
      · rw [if_pos ⟨g2, g3⟩, if_pos ⟨g1, g3⟩, if_pos g2, pow_add]
      · rw [if_neg (fun h => g3 h.2), if_neg (fun h => g3 h.2), zero_mul]
    · rw [if_neg (fun h => g2 h.1), if_neg g2, mul_zero]
  · rw [if_neg g1, if_neg (fun h => g1 h.1), zero_mul]

/-- Two steps. -/
def pstep2 {A : Type*} [CommRing A] (dn : Bool) (mu rho : List Nat) (x y : A) : A :=
  ∑ nu ∈ inner mu, pstep dn mu nu x * pstep dn nu rho y

theorem pstep2_field (dn : Bool) (hm : IsStrict mu) (hr : IsStrict rho) {x y : K} (hx : x ≠ 0) (hy : y ≠ 0) :
    pstep2 dn mu rho x y = pstep2 dn mu rho y x := by
  obtain ⟨N, hMN, hN⟩ : ∃ N, mu.toFinset ⊆ Icc 1 N ∧ rho.toFinset ⊆ Icc 1 N := by
    refine ⟨mu.sum + rho.sum, fun a ha => ?_, fun a ha => ?_⟩
    · have ha := List.mem_toFinset.1 ha
      have := hm.2 a ha
      have := List.le_sum_of_mem ha
      rw [mem_Icc]; omega
    · have ha := List.mem_toFinset.1 ha
      have := hr.2 a ha
      have := List.le_sum_of_mem ha
      rw [mem_Icc]; omega
  have key : ∀ x y : K, pstep2 dn mu rho x y = ∑ u1 ∈ (Icc 1 N).powerset, ∑ u2 ∈ (Icc 1 N).powerset,
      ∑ u3 ∈ (Icc 1 N).powerset, lineVal (wC x) mu.toFinset u1 (if dn = true then (x ^ ·) else dlt) N 0 *
        lineVal (wR x) u1 u2 (x ^ ·) N 0 * lineVal (wC y) u2 u3 (if dn = true then (y ^ ·) else dlt) N 0 *
        lineVal (wR y) u3 rho.toFinset (y ^ ·) N 0 := by
    intro x y
    rw [pstep2, sum_inner hm hMN, sum_comm]
    refine sum_congr rfl (fun u2 hu2 => ?_)
    have hu2 := mem_powerset.1 hu2
    have hs := isStrict_partsOf hu2
    have e := toFinset_partsOf u2
    have e1 : (if Leq (partsOf u2) mu then pstep dn mu (partsOf u2) x * pstep dn (partsOf u2) rho y else 0) =
        pstep dn mu (partsOf u2) x * pstep dn (partsOf u2) rho y := by
      by_cases h : Leq (partsOf u2) mu
      · rw [if_pos h]
      · rw [if_neg h, pstep_zero hm x h, zero_mul]
    rw [e1, pstep_field dn hm hs hMN (by rw [e]; exact hu2), pstep_field dn hs hr (by rw [e]; exact hu2) hN, e,
      sum_mul_sum]
    refine sum_congr rfl (fun u1 _ => sum_congr rfl (fun u3 _ => ?_))
    ring
  rw [key, key]
  cases dn with
  | true => exact vertex_q _ _ N hx hy
  | false => exact vertex_p _ _ N hx hy

end Field

theorem pstep_map {A B : Type*} [CommRing A] [CommRing B] (φ : A →+* B) (dn : Bool) (mu rho : List Nat) (x : A) :
    φ (pstep dn mu rho x) = pstep dn mu rho (φ x) := by
  simp only [pstep, map_sum, apply_ite φ, map_pow, map_zero]

theorem pstep2_map {A B : Type*} [CommRing A] [CommRing B] (φ : A →+* B) (dn : Bool) (mu rho : List Nat) (x y : A) :
    φ (pstep2 dn mu rho x y) = pstep2 dn mu rho (φ x) (φ y) := by
  simp only [pstep2, map_sum, map_mul, pstep_map]

/-- The steps for two variables commute. -/
theorem pstep2_comm {A : Type*} [CommRing A] (dn : Bool) {mu rho : List Nat} (hm : IsStrict mu) (hr : IsStrict rho)
    (x y : A) : pstep2 dn mu rho x y = pstep2 dn mu rho y x := by
  have hP : pstep2 dn mu rho (MvPolynomial.X 0 : MvPolynomial ℕ ℤ) (MvPolynomial.X 1) =
      pstep2 dn mu rho (MvPolynomial.X 1) (MvPolynomial.X 0) := by
    have hinj := IsFractionRing.injective (MvPolynomial ℕ ℤ) (FractionRing (MvPolynomial ℕ ℤ))
    apply hinj
    rw [pstep2_map, pstep2_map]
    apply pstep2_field dn hm hr
    · rw [Ne, map_eq_zero_iff _ hinj]; exact MvPolynomial.X_ne_zero _
    · rw [Ne, map_eq_zero_iff _ hinj]; exact MvPolynomial.X_ne_zero _
  have := congrArg (MvPolynomial.eval₂Hom (Int.castRingHom A) (fun i => if i = 0 then x else y)) hP
  rw [pstep2_map, pstep2_map] at this
  simpa using this

end Verif.Tableaux
