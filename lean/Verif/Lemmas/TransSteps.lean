import Verif.Lemmas.TransLine
import Verif.Lemmas.Doublebar
import Mathlib.LinearAlgebra.Matrix.ToLin

/-! The sums over shifted marked tableaux behind the transposed dual functions: letter by letter, inverses, symmetry. -/

attribute [-simp] List.getD_eq_getElem?_getD

namespace Verif.Tableaux

open Tab Verif.Part Partition Verif.Vertex Finset Symm

/-! ### sums of products over the letters -/

section Gen
variable {A : Type*} [CommRing A] {R : Rules} {lam : List Nat}

variable (R) in
/-- The sum over all tableaux of the product over the letters of `om` of the boxes with this letter. -/
noncomputable def omGen (om : Nat → Finset (Nat × Nat) → A) (K : Nat) (mu lam : List Nat) : A :=
  ∑ T ∈ allTabs R lam K mu, ∏ k ∈ range K, om (k + 1) (boxesWith T (R.val (k + 1)))

theorem omGen_succ (hinj : Function.Injective R.val) (hlam : IsShape R.sh lam) (om : Nat → Finset (Nat × Nat) → A)
    (k : Nat) {mu : List Nat} (hm : IsShape R.sh mu) :
    omGen R om (k + 1) mu lam = ∑ m ∈ moveFin R lam (k + 1) mu, om (k + 1) m.2 * omGen R om k m.1 lam := by
  classical
  have hmv : ∀ k mu, IsShape R.sh mu → ListsMoves R lam (k + 1) mu (allMoves R lam (k + 1) mu) :=
    fun k mu _ => allMoves_lists (k + 1) mu
  have h1 : omGen R om (k + 1) mu lam = ∑ m ∈ (allMoves R lam (k + 1) mu).toFinset,
      om (k + 1) m.2.toFinset * omGen R om k m.1 lam := by
    rw [omGen, allTabs, sum_genTabs hinj hlam hmv k hm]
    refine sum_congr rfl (fun m hmm => ?_)
    rw [List.mem_toFinset] at hmm
    obtain ⟨hnd, hmove⟩ := (hmv k mu hm).sound m hmm
    rw [omGen, mul_sum]
    refine sum_congr rfl (fun T hT => ?_)
    have hT := (mem_genTabs hinj hlam hmv k hmove.shape).1 hT
    rw [prod_range_succ, mul_comm]
    congr 1
    · rw [boxesWith_addAll hinj hnd hT, if_pos rfl]
    · refine prod_congr rfl (fun i hi => ?_)
      rw [boxesWith_addAll hinj hnd hT, if_neg (by have := mem_range.1 hi; omega)]
  rw [h1]
  refine (sum_bij (fun m _ => (m.1, m.2.toList)) ?_ ?_ ?_ ?_).symm
  · intro m hm
    rw [List.mem_toFinset, allMoves]
    exact List.mem_map.2 ⟨m, mem_toList.2 hm, rfl⟩
  · intro a _ b _ hab
    obtain ⟨h1, h2⟩ := Prod.mk.inj hab
    refine Prod.ext h1 (Finset.ext (fun c => ?_))
    rw [← mem_toList, h2, mem_toList]
  · intro b hb
    rw [List.mem_toFinset, allMoves] at hb
    obtain ⟨m, h1, h2⟩ := List.mem_map.1 hb
    exact ⟨m, mem_toList.1 h1, h2⟩
  · intro m _
    rw [toList_toFinset]

theorem omGen_eq_zero (hinj : Function.Injective R.val) {mu lam : List Nat} (hl : IsShape R.sh lam)
    (hm : IsShape R.sh mu) (h : ¬ shapeSet R.sh lam ⊆ shapeSet R.sh mu) (om : Nat → Finset (Nat × Nat) → A) (K : Nat) :
    omGen R om K mu lam = 0 := by
  rw [omGen, sum_eq_zero]
  intro T hT
  exact absurd ((mem_allTabs hinj hl K hm).1 hT).sub h

theorem omGen_zero {mu lam : List Nat} (om : Nat → Finset (Nat × Nat) → A) :
    omGen R om 0 mu lam = if mu = lam then 1 else 0 := by
  rw [omGen, allTabs, genTabs]
  split <;> simp

theorem omGen_congr {mu lam : List Nat} {om om' : Nat → Finset (Nat × Nat) → A} {K : Nat}
    (h : ∀ k < K, om (k + 1) = om' (k + 1)) : omGen R om K mu lam = omGen R om' K mu lam := by
  rw [omGen, omGen]
  refine sum_congr rfl (fun T _ => prod_congr rfl (fun k hk => ?_))
  rw [h k (mem_range.1 hk)]

end Gen

/-! ### moves of shifted marked tableaux -/

theorem leq_iff_subset {mu nu : List Nat} : Leq nu mu ↔ shapeSet true nu ⊆ shapeSet true mu := by
  rw [leq_iff]
  exact shapeSet_subset.symm

/-- The conditions on letter `k` of a marked tableau. -/
def StepOk (dp : Bool) (k : Nat) (mu nu : List Nat) : Prop := if k % 2 = 0 then HOk mu nu else VOk dp mu nu

instance (dp : Bool) (k : Nat) (mu nu : List Nat) : Decidable (StepOk dp k mu nu) := by unfold StepOk; infer_instance

theorem isMove_shifted (dp : Bool) {lam mu nu : List Nat} {k : Nat} (S : Finset (Nat × Nat)) :
    IsMove (markRules true false dp) lam k mu nu (· ∈ S) ↔ IsStrict nu ∧ shapeSet true lam ⊆ shapeSet true nu ∧ Leq nu mu ∧
      StepOk dp k mu nu ∧ S = (skew mu nu true).toFinset := by
  constructor
  · intro h
    have hs : IsStrict nu := h.shape
    have hS : S = (skew mu nu true).toFinset := by
      ext b
      rw [mem_skewF]
      constructor
      · intro hb
        refine ⟨(h.inside b hb).1, fun hb' => ?_⟩
        have := (h.corner b.1 b.2 hb hb').1
        simp [markRules] at this
      · rintro ⟨h1, h2⟩
        exact h.diff b h1 h2
    refine ⟨hs, h.sub1, leq_iff_subset.2 h.sub2, ?_, hS⟩
    subst hS
    rw [StepOk]
    split_ifs with hk
    · intro b hb hb'
      have h1 := (mem_skewF _).1 hb'
      have := h.col b.1 b.2 hb h1.1 h1.2
      simp only [markRules] at this
      omega
    · refine ⟨fun b hb hb' => ?_, ?_⟩
      · have h1 := (mem_skewF _).1 hb'
        have := h.row b.1 b.2 hb h1.1 h1.2
        simp only [markRules] at this
        omega
      · rw [DiagOk]
        by_cases hdp : dp = true
        · exact Or.inl hdp
        · right
          rintro ⟨i, j⟩ hb hij
          simp only at hij
          subst hij
          have := h.diag i hb
          simp only [markRules] at this
          rcases this with h1 | h1
          · exact hdp h1
          · exact hk h1
  · rintro ⟨hs, h1, h2, h3, rfl⟩
    refine ⟨hs, h1, leq_iff_subset.1 h2, fun b hb hb' => (mem_skewF b).2 ⟨hb, hb'⟩,
      fun b hb => ⟨((mem_skewF b).1 hb).1, fun hb' => ((mem_skewF b).1 hb).2 (h1 hb')⟩,
      fun i j hb hb' => absurd hb' ((mem_skewF _).1 hb).2, ?_, ?_, ?_⟩
    · intro i j hb hm1 hm2
      rw [StepOk] at h3
      split_ifs at h3 with hk
      · exact hk
      · exact absurd ((mem_skewF _).2 ⟨hm1, hm2⟩) (h3.1 _ hb)
    · intro i j hb hm1 hm2
      rw [StepOk] at h3
      split_ifs at h3 with hk
      · exact absurd ((mem_skewF _).2 ⟨hm1, hm2⟩) (h3 _ hb)
      · show k % 2 = 1
        omega
    · intro i hb
      show dp = true ∨ k % 2 = 0
      rw [StepOk] at h3
      split_ifs at h3 with hk
      · exact Or.inr hk
      · rcases h3.2 with h4 | h4
        · exact Or.inl h4
        · exact absurd rfl (h4 _ hb)

/-- The weight of a letter: `x` for each row with `i` and each column with `i'`, and `x + 1` for every further box. -/
def transOm {A : Type*} [CommRing A] (y : Nat → A) (k : Nat) (S : Finset (Nat × Nat)) : A :=
  if k % 2 = 0 then y ((k - 1) / 2) ^ (S.image Prod.fst).card * (y ((k - 1) / 2) + 1) ^ (S.card - (S.image Prod.fst).card)
  else y ((k - 1) / 2) ^ (S.image Prod.snd).card * (y ((k - 1) / 2) + 1) ^ (S.card - (S.image Prod.snd).card)

/-- The sum over all shifted marked tableaux behind the transposed dual functions, in `n` variables. -/
noncomputable def transGen {A : Type*} [CommRing A] (dp : Bool) (n : Nat) (mu lam : List Nat) (y : Nat → A) : A :=
  omGen (markRules true false dp) (transOm y) (2 * n) mu lam

section Field
variable {K : Type*} [Field K] {N : ℕ}

/-- The row of the vertex model for letter `k`. -/
noncomputable def lineOf (dp : Bool) (N : ℕ) (k : Nat) (x : K) (s t : Finset ℕ) : K :=
  if k % 2 = 0 then lineVal (wH x) s t (x ^ ·) N 0 else lineVal (wV x) s t (if dp = true then (x ^ ·) else dlt) N 0

theorem omGen_line (dp : Bool) {lam mu : List Nat} (hl : IsStrict lam) (hm : IsStrict mu) (hMN : mu.toFinset ⊆ Icc 1 N)
    (y : Nat → K) (k : Nat) :
    omGen (markRules true false dp) (transOm y) (k + 1) mu lam = ∑ u ∈ (Icc 1 N).powerset,
      lineOf dp N (k + 1) (y (k / 2)) mu.toFinset u * omGen (markRules true false dp) (transOm y) k (partsOf u) lam := by
  classical
  rw [omGen_succ (markRules_inj true false dp) (R := markRules true false dp) hl (transOm y) k hm]
  have e1 : ∑ m ∈ moveFin (markRules true false dp) lam (k + 1) mu, transOm y (k + 1) m.2 *
      omGen (markRules true false dp) (transOm y) k m.1 lam =
      ∑ nu ∈ inner mu, if StepOk dp (k + 1) mu nu then transOm y (k + 1) (skew mu nu true).toFinset *
        omGen (markRules true false dp) (transOm y) k nu lam else 0 := by
    have hz : ∀ nu, IsStrict nu → ¬ shapeSet true lam ⊆ shapeSet true nu →
        omGen (markRules true false dp) (transOm y) k nu lam = 0 := fun nu hn h =>
      omGen_eq_zero (markRules_inj true false dp) (R := markRules true false dp) hl hn h _ _
    rw [← sum_filter]
    have : ∑ nu ∈ (inner mu).filter (fun nu => StepOk dp (k + 1) mu nu), transOm y (k + 1) (skew mu nu true).toFinset *
        omGen (markRules true false dp) (transOm y) k nu lam =
        ∑ nu ∈ (inner mu).filter (fun nu => StepOk dp (k + 1) mu nu ∧ shapeSet true lam ⊆ shapeSet true nu),
          transOm y (k + 1) (skew mu nu true).toFinset * omGen (markRules true false dp) (transOm y) k nu lam := by
      refine (sum_subset ?_ ?_).symm
      · intro nu h
        rw [mem_filter] at h ⊢
        exact ⟨h.1, h.2.1⟩
      · intro nu h1 h2
        rw [mem_filter] at h1 h2
        rw [hz nu ((mem_inner hm).1 h1.1).1 (fun h => h2 ⟨h1.1, h1.2, h⟩), mul_zero]
    rw [this]
    refine sum_bij (fun m _ => m.1) ?_ ?_ ?_ ?_
    · intro m h
      obtain ⟨h1, h2, h3, h4, h5⟩ := (isMove_shifted dp m.2).1 (mem_moveFin.1 h)
      rw [mem_filter, mem_inner hm]
      exact ⟨⟨h1, leq_iff.1 h3⟩, h4, h2⟩
    · intro m h m' h' he
      obtain ⟨_, _, _, _, h5⟩ := (isMove_shifted dp m.2).1 (mem_moveFin.1 h)
      obtain ⟨_, _, _, _, h5'⟩ := (isMove_shifted dp m'.2).1 (mem_moveFin.1 h')
      refine Prod.ext he ?_
      rw [h5, h5', he]
    · intro nu h
      rw [mem_filter, mem_inner hm] at h
      exact ⟨(nu, (skew mu nu true).toFinset), mem_moveFin.2 ((isMove_shifted dp _).2
        ⟨h.1.1, h.2.2, leq_iff.2 h.1.2, h.2.1, rfl⟩), rfl⟩
    · intro m h
      obtain ⟨_, _, _, _, h5⟩ := (isMove_shifted dp m.2).1 (mem_moveFin.1 h)
      rw [h5]
  rw [e1, sum_inner hm hMN]
  refine sum_congr rfl (fun u hu => ?_)
  have hu := mem_powerset.1 hu
  have hs := isStrict_partsOf hu
  have e := toFinset_partsOf u
  have h1 := line_H hm hs hMN (by rw [e]; exact hu) (y (k / 2))
  have h2 := line_V hm hs hMN (by rw [e]; exact hu) (y (k / 2)) dp
  rw [e] at h1 h2
  simp only [lineOf, StepOk, transOm, Nat.add_sub_cancel]
  by_cases hk : (k + 1) % 2 = 0
  · simp only [if_pos hk]
    rw [h1]
    by_cases g1 : Leq (partsOf u) mu
    · rw [if_pos g1]
      by_cases g2 : HOk mu (partsOf u)
      · rw [if_pos g2, if_pos ⟨g1, g2⟩]; rfl
      · rw [if_neg g2, if_neg (fun h => g2 h.2), zero_mul]
    · rw [if_neg g1, if_neg (fun h => g1 h.1), zero_mul]
  · simp only [if_neg hk]
    rw [h2]
    by_cases g1 : Leq (partsOf u) mu
    · rw [if_pos g1]
      by_cases g2 : VOk dp mu (partsOf u)
      · rw [if_pos g2, if_pos ⟨g1, g2⟩]; rfl
      · rw [if_neg g2, if_neg (fun h => g2 h.2), zero_mul]
    · rw [if_neg g1, if_neg (fun h => g1 h.1), zero_mul]

/-! ### matrices -/

/-- Sets of parts up to `N`. -/
abbrev PSet (N : ℕ) := {u : Finset ℕ // u ∈ (Icc 1 N).powerset}

theorem sum_pset {A : Type*} [AddCommMonoid A] (f : Finset ℕ → A) :
    ∑ u ∈ (Icc 1 N).powerset, f u = ∑ u : PSet N, f u.1 := (sum_coe_sort _ _).symm

theorem PSet.sub (u : PSet N) : u.1 ⊆ Icc 1 N := mem_powerset.1 u.2

noncomputable def matC (dn : Bool) (N : ℕ) (x : K) : Matrix (PSet N) (PSet N) K :=
  fun s t => lineVal (wC x) s.1 t.1 (if dn = true then (x ^ ·) else dlt) N 0

noncomputable def matR (N : ℕ) (x : K) : Matrix (PSet N) (PSet N) K := fun s t => lineVal (wR x) s.1 t.1 (x ^ ·) N 0

noncomputable def matV (dn : Bool) (N : ℕ) (x : K) : Matrix (PSet N) (PSet N) K :=
  fun s t => lineVal (wV x) s.1 t.1 (if dn = true then (x ^ ·) else dlt) N 0

noncomputable def matH (N : ℕ) (x : K) : Matrix (PSet N) (PSet N) K := fun s t => lineVal (wH x) s.1 t.1 (x ^ ·) N 0

theorem matC_matV (dn : Bool) (x : K) : matC dn N (-x) * matV dn N x = 1 := by
  ext s t
  rw [Matrix.mul_apply, Matrix.one_apply]
  have := sum_CV x dn s.sub t.sub
  rw [sum_pset] at this
  simp only [matC, matV]
  rw [this]
  simp only [Subtype.ext_iff]

theorem matR_matH (x : K) : matR N (-x) * matH N x = 1 := by
  ext s t
  rw [Matrix.mul_apply, Matrix.one_apply]
  have := sum_RH x s.sub t.sub
  rw [sum_pset] at this
  simp only [matR, matH]
  rw [this]
  simp only [Subtype.ext_iff]

/-- The letters `i'` and `i` of a marked reverse plane partition. -/
noncomputable def matP (dn : Bool) (N : ℕ) (x : K) : Matrix (PSet N) (PSet N) K := matC dn N x * matR N x

/-- The letters `i'` and `i` of a marked tableau. -/
noncomputable def matJ (dn : Bool) (N : ℕ) (x : K) : Matrix (PSet N) (PSet N) K := matH N x * matV dn N x

theorem matP_matJ (dn : Bool) (x : K) : matP dn N (-x) * matJ dn N x = 1 := by
  rw [matP, matJ, Matrix.mul_assoc, ← Matrix.mul_assoc (matR N (-x)), matR_matH, Matrix.one_mul, matC_matV]

theorem matJ_matP (dn : Bool) (x : K) : matJ dn N x * matP dn N (-x) = 1 := mul_eq_one_comm.1 (matP_matJ dn x)

theorem matP_apply (dn : Bool) (x : K) (s t : PSet N) : matP dn N x s t = pstep dn (partsOf s.1) (partsOf t.1) x := by
  rw [pstep_field (N := N) dn (isStrict_partsOf s.sub) (isStrict_partsOf t.sub) (by rw [toFinset_partsOf]; exact s.sub)
    (by rw [toFinset_partsOf]; exact t.sub), toFinset_partsOf, toFinset_partsOf, sum_pset, matP, Matrix.mul_apply]
  rfl

theorem matP_comm (dn : Bool) {x y : K} (hx : x ≠ 0) (hy : y ≠ 0) :
    matP dn N x * matP dn N y = matP dn N y * matP dn N x := by
  have key : ∀ x y : K, ∀ s t : PSet N, (matP dn N x * matP dn N y) s t =
      pstep2 dn (partsOf s.1) (partsOf t.1) x y := by
    intro x y s t
    have hs := isStrict_partsOf s.sub
    rw [pstep2, sum_inner (N := N) hs (by rw [toFinset_partsOf]; exact s.sub), sum_pset, Matrix.mul_apply]
    refine sum_congr rfl (fun u _ => ?_)
    rw [matP_apply, matP_apply]
    by_cases h : Leq (partsOf u.1) (partsOf s.1)
    · rw [if_pos h]
    · rw [if_neg h, pstep_zero hs x h, zero_mul]
  ext s t
  rw [key, key, pstep2_field dn (isStrict_partsOf s.sub) (isStrict_partsOf t.sub) hx hy]

theorem matJ_comm (dn : Bool) {x y : K} (hx : x ≠ 0) (hy : y ≠ 0) :
    matJ dn N x * matJ dn N y = matJ dn N y * matJ dn N x := by
  obtain ⟨u, hu⟩ : ∃ u : (Matrix (PSet N) (PSet N) K)ˣ, u = ⟨matP dn N (-x), matJ dn N x, matP_matJ dn x, matJ_matP dn x⟩ :=
    ⟨_, rfl⟩
  obtain ⟨v, hv⟩ : ∃ u : (Matrix (PSet N) (PSet N) K)ˣ, u = ⟨matP dn N (-y), matJ dn N y, matP_matJ dn y, matJ_matP dn y⟩ :=
    ⟨_, rfl⟩
  have h : u * v = v * u := by
    apply Units.ext
    rw [Units.val_mul, Units.val_mul, hu, hv]
    exact matP_comm dn (neg_ne_zero.2 hx) (neg_ne_zero.2 hy)
  have h2 : u⁻¹ * v⁻¹ = v⁻¹ * u⁻¹ := by
    rw [← mul_inv_rev, ← mul_inv_rev, h]
  have h3 := congrArg Units.val h2
  rw [Units.val_mul, Units.val_mul, hu, hv] at h3
  exact h3

/-- One variable more. -/
theorem transGen_succ (dp : Bool) {lam : List Nat} (hl : IsStrict lam) (n : Nat) (y : Nat → K) (s : PSet N) :
    transGen dp (n + 1) (partsOf s.1) lam y =
      ∑ u : PSet N, matJ dp N (y n) s u * transGen dp n (partsOf u.1) lam y := by
  rw [transGen, show 2 * (n + 1) = 2 * n + 1 + 1 by ring, omGen_line (N := N) dp hl (isStrict_partsOf s.sub)
    (by rw [toFinset_partsOf]; exact s.sub), sum_pset, toFinset_partsOf]
  have e1 : ∀ u : PSet N, lineOf dp N (2 * n + 1 + 1) (y ((2 * n + 1) / 2)) s.1 u.1 *
      omGen (markRules true false dp) (transOm y) (2 * n + 1) (partsOf u.1) lam =
      ∑ t : PSet N, matH N (y n) s u * matV dp N (y n) u t * transGen dp n (partsOf t.1) lam y := by
    intro u
    rw [omGen_line (N := N) dp hl (isStrict_partsOf u.sub) (by rw [toFinset_partsOf]; exact u.sub), sum_pset, toFinset_partsOf,
      lineOf, if_pos (by omega), mul_sum]
    refine sum_congr rfl (fun t _ => ?_)
    rw [lineOf, if_neg (by omega), show (2 * n + 1) / 2 = n by omega, show 2 * n / 2 = n by omega, mul_assoc]
    rfl
  rw [sum_congr rfl (fun u _ => e1 u), sum_comm]
  refine sum_congr rfl (fun t _ => ?_)
  rw [matJ, Matrix.mul_apply, sum_mul]

/-- Neighbouring variables may be exchanged. -/
theorem transGen_swap (dp : Bool) {lam mu : List Nat} (hl : IsStrict lam) (hm : IsStrict mu) (n j : Nat) (hj : j + 2 ≤ n)
    (y : Nat → K) (h1 : y j ≠ 0) (h2 : y (j + 1) ≠ 0) :
    transGen dp n mu lam y = transGen dp n mu lam (y ∘ Equiv.swap j (j + 1)) := by
  obtain ⟨N, hN⟩ : ∃ N, mu.toFinset ⊆ Icc 1 N := by
    refine ⟨mu.sum, fun a ha => ?_⟩
    have ha := List.mem_toFinset.1 ha
    have := hm.2 a ha
    have := List.le_sum_of_mem ha
    rw [mem_Icc]; omega
  have key := swap_of_ops (K := K) (σ := PSet N) (fun _ => True) (fun x => (matJ dp N x).mulVecLin)
    (fun k s y => transGen dp k (partsOf s.1) lam y) (fun x f g h mu _ => by
      have : f = g := funext (fun s => h s trivial)
      rw [this]) (fun k s _ y => by
      rw [transGen_succ dp hl]
      rfl) (fun k s y y' h => by
      rw [transGen, transGen]
      refine omGen_congr (fun i hi => ?_)
      funext S
      simp only [transOm, Nat.add_sub_cancel]
      rw [h (i / 2) (by omega)]) j n hj y (by
      rw [Module.End.mul_eq_comp, Module.End.mul_eq_comp, ← Matrix.mulVecLin_mul, ← Matrix.mulVecLin_mul,
        matJ_comm dp h1 h2]) ⟨mu.toFinset, mem_powerset.2 hN⟩ trivial
  have e : partsOf mu.toFinset = mu := isStrict_ext (isStrict_partsOf hN) hm (toFinset_partsOf _)
  simpa only [e] using key

end Field

end Verif.Tableaux
