import Verif.Lemmas.FpfGrassmannian
import Verif.Props.Grassmannian

/-! # C68, C69: involutions and fixed-point-free involutions of Grassmannian shape -/

namespace Verif.Perm

open Verif.Part Verif.Partition

attribute [-simp] List.getD_eq_getElem?_getD
attribute [local irreducible] mul s inverse identity len

theorem rowE_zero_eq (y : SPerm) : (fun i : Nat => ((rowSet y i).filter (fun x : Int => x ≤ i)).card) = rowE y 0 := by
  funext i
  rw [rowE]
  congr 1
  exact Finset.filter_congr (fun x _ => by push_cast; omega)

theorem rowE_one_eq (y : SPerm) : (fun i : Nat => ((rowSet y i).filter (fun x : Int => x < i)).card) = rowE y 1 := by
  funext i
  rw [rowE]
  congr 1

/-- C68: the shape of an involution without signs is a strict partition, and so is the fpf shape of a fixed-point-free one. -/
theorem C68_shape_strict {w : SPerm} (h : isUnsigned w = true) :
    (isInvolution w = true → ∃ mu, involutionShape w = some mu ∧ IsStrict mu) ∧
    (isFpfInvolution w = true → ∃ mu, fpfInvolutionShape w = some mu ∧ IsStrict mu) := by
  constructor
  · intro hw
    obtain ⟨mu, c, h1, h2, h3, h4, -⟩ := (C66_involution_shape h).1 hw
    rw [involutionCode_eq h hw, rowE_zero_eq, Option.some.injEq] at h2
    refine ⟨mu, h1, strict_of_code (involution_inverse hw) (Nat.zero_le 1) h3 (fun k => ?_)⟩
    rw [h2]; exact h4 k
  · intro hw
    obtain ⟨mu, c, h1, h2, h3, h4, -⟩ := (C66_involution_shape h).2 hw
    have hi : isInvolution w = true := isInvolution_iff.2 (isFpf_iff.1 ⟨hw, h⟩).inv
    rw [fpfInvolutionCode_eq h hw, rowE_one_eq, Option.some.injEq] at h2
    refine ⟨mu, h1, strict_of_code (involution_inverse hi) le_rfl h3 (fun k => ?_)⟩
    rw [h2]; exact h4 k

example : (construct [4, 3, 2, 1]).map involutionShape = some (some [3, 1]) := by decide +kernel

theorem IsInvGr.shape {y : SPerm} {mu : List Nat} (h : IsInvGr y 0 mu) (hmu : IsStrict mu) : involutionShape y = some mu := by
  have hi : isInvolution y = true := isInvolution_iff.2 h.inv
  obtain ⟨nu, c, h1, h2, h3, h4, -⟩ := (C66_involution_shape h.pos).1 hi
  rw [involutionCode_eq h.pos hi, rowE_zero_eq, Option.some.injEq] at h2
  rw [h1]
  congr 1
  refine partition_ext h3 (isStrict_isPartition hmu) (fun k => ?_)
  rw [h4, ← h2, countP_codeList, h.count hmu (by omega)]

theorem IsInvGr.fpfShape {y : SPerm} {mu : List Nat} (h : IsInvGr y 1 mu) (hmu : IsStrict mu) (hf : isFpfInvolution y = true) :
    fpfInvolutionShape y = some mu := by
  obtain ⟨nu, c, h1, h2, h3, h4, -⟩ := (C66_involution_shape h.pos).2 hf
  rw [fpfInvolutionCode_eq h.pos hf, rowE_one_eq, Option.some.injEq] at h2
  rw [h1]
  congr 1
  refine partition_ext h3 (isStrict_isPartition hmu) (fun k => ?_)
  rw [h4, ← h2, countP_codeList, h.count hmu le_rfl]

theorem IsInvGr.fixed {y : SPerm} {mu : List Nat} (h : IsInvGr y 0 mu) {x : Int} (hx : (mu.length : Int) < x) :
    y.call x = x ∨ y.call x ≤ mu.length := by
  by_contra hc
  push Not at hc
  obtain ⟨h1, h2⟩ := hc
  rcases lt_or_gt_of_ne h1 with h3 | h3
  · obtain ⟨k, hk, e⟩ := h.rest (y.call x) (y.call x) h2 (by omega) (by rw [h.inv]; exact h3)
    have := h.val' hk
    rw [← e, h.inv] at this
    omega
  · obtain ⟨k, hk, e⟩ := h.rest x x hx (by omega) h3
    have := h.val' hk
    rw [← e] at this
    omega

theorem IsInvGr.unique {y z : SPerm} {mu : List Nat} (h : IsInvGr y 0 mu) (h' : IsInvGr z 0 mu) : y = z := by
  apply ext_pos
  intro x hx
  by_cases h1 : x ≤ mu.length
  · obtain ⟨k, hk, rfl, e1⟩ := h.low (x := x) (by omega) h1
    rw [e1, h'.val k hk]
  · by_cases h2 : ∃ k < mu.length, x = mu.length + (0 : Nat) + mu.getD k 0
    · obtain ⟨k, hk, rfl⟩ := h2
      rw [h.val' hk, h'.val' hk]
    · have key : ∀ {y : SPerm}, IsInvGr y 0 mu → y.call x = x := by
        intro y h
        rcases h.fixed (x := x) (by omega) with h3 | h3
        · exact h3
        · exfalso
          have hp := isUnsigned_iff.1 h.pos x hx
          obtain ⟨k, hk, -, e1⟩ := h.low (x := y.call x) (by omega) h3
          rw [h.inv] at e1
          exact h2 ⟨k, hk, e1⟩
      rw [key h, key h']

/-- C68: for a strict partition `mu` with `r` parts, `get_inv_grassmannian(*mu)` is the involution that exchanges `r - k` and
`r + mu_(k + 1)` for `0 ≤ k < r` and fixes the other numbers; its rank is `r + mu_1`, its involution shape is `mu`, and its
involution length is the size of `mu`.  For arguments that do not decrease strictly the assertion fails. -/
theorem C68_get_inv_grassmannian (mu : List Nat) : (IsStrict mu → ∃ y, getInvGrassmannian mu = some y ∧
      isUnsigned y = true ∧ isInvolution y = true ∧
      (∀ k < mu.length, y.call ((mu.length : Int) - k) = mu.length + mu.getD k 0) ∧
      (∀ x : Int, (mu.length : Int) < x → (∀ k < mu.length, x ≠ mu.length + mu.getD k 0) → y.call x = x) ∧
      y.rank = mu.length + mu.headD 0 ∧ involutionShape y = some mu ∧ involutionLength y = mu.sum) ∧
    (¬ mu.Pairwise (· > ·) → getInvGrassmannian mu = none) := by
  constructor
  · intro hmu
    obtain ⟨y, h1, h2, h3⟩ := getInvGrassmannian_spec hmu
    have hi : isInvolution y = true := isInvolution_iff.2 h2.inv
    have hs := h2.shape hmu
    refine ⟨y, h1, h2.pos, hi, fun k hk => ?_, fun x hx hne => ?_, h3, hs, ?_⟩
    · rw [h2.val k hk]; push_cast; omega
    · rcases h2.fixed hx with h4 | h4
      · exact h4
      · exfalso
        have hp := isUnsigned_iff.1 h2.pos x (by omega)
        obtain ⟨k, hk, -, e1⟩ := h2.low (x := y.call x) (by omega) h4
        rw [h2.inv] at e1
        exact hne k hk (by omega)
    · obtain ⟨nu, c, h4, -, -, -, h5⟩ := (C66_involution_shape h2.pos).1 hi
      rw [hs, Option.some.injEq] at h4
      rw [h4, h5]
  · intro h
    rw [getInvGrassmannian, if_neg (fun hc => h ((isStrictPartition_iff mu).1 hc))]

example : (getInvGrassmannian [3, 1]).map (fun y => y.oneline) = some [3, 5, 1, 4, 2] := by decide +kernel

/-- C68: `is_inv_grassmannian` accepts exactly the involutions without signs for which some `r` has the property that
`r < w(1) < ... < w(r)` and that every other arc is trivial, that is `w(x) = x` or `w(x) ≤ r` for all `x > r`.  It raises
exactly when `w` has signs or is no involution. -/
theorem C68_is_inv_grassmannian (w : SPerm) :
    (isInvGrassmannian w = some true ↔ isUnsigned w = true ∧ isInvolution w = true ∧
      ∃ r : Nat, (∀ i : Int, 1 ≤ i → i ≤ r → (r : Int) < w.call i ∧ (i < r → w.call i < w.call (i + 1))) ∧
        ∀ x : Int, (r : Int) < x → w.call x = x ∨ w.call x ≤ r) ∧
    (isInvGrassmannian w = none ↔ ¬ (isUnsigned w = true ∧ isInvolution w = true)) := by
  have hnone : ¬ (isUnsigned w = true ∧ isInvolution w = true) → isInvGrassmannian w = none := by
    intro h
    rw [isInvGrassmannian, involutionShape]
    by_cases h1 : isInvolution w = true
    · rw [if_pos h1, (C66_involution_code w).2 h]
      rfl
    · rw [if_neg h1]
      rfl
  have hsome : isUnsigned w = true ∧ isInvolution w = true → ∃ mu y, involutionShape w = some mu ∧ IsStrict mu ∧
      getInvGrassmannian mu = some y ∧ IsInvGr y 0 mu ∧ isInvGrassmannian w = some (decide (y = w)) := by
    rintro ⟨h1, h2⟩
    obtain ⟨mu, h3, h4⟩ := (C68_shape_strict h1).1 h2
    obtain ⟨y, h5, h6, -⟩ := getInvGrassmannian_spec h4
    refine ⟨mu, y, h3, h4, h5, h6, ?_⟩
    rw [isInvGrassmannian, h3, Option.bind_some, h5]
    rfl
  constructor
  · constructor
    · intro h
      have hw : isUnsigned w = true ∧ isInvolution w = true := by
        by_contra hc
        rw [hnone hc] at h
        cases h
      obtain ⟨mu, y, h1, h2, h3, h4, h5⟩ := hsome hw
      rw [h5, Option.some.injEq, decide_eq_true_iff] at h
      subst h
      refine ⟨hw.1, hw.2, mu.length, fun i hi1 hi2 => ?_, fun x hx => h4.fixed hx⟩
      obtain ⟨k, hk, rfl, e1⟩ := h4.low hi1 hi2
      have := strict_pos h2 hk
      refine ⟨by omega, fun hlt => ?_⟩
      have e2 := h4.val (k - 1) (by omega)
      rw [show (mu.length : Int) - (k - 1 : Nat) = mu.length - k + 1 by omega] at e2
      have := strict_getD h2 (j := k - 1) (k := k) (by omega) hk
      omega
    · rintro ⟨h1, h2, r, h3, h4⟩
      obtain ⟨nu, hnu⟩ : ∃ nu : List Nat, (List.range r).map (fun k : Nat => (w.call ((r : Int) - k) - r).toNat) = nu := ⟨_, rfl⟩
      have hlen : nu.length = r := by rw [← hnu]; simp
      have hval : ∀ k < r, nu.getD k 0 = (w.call ((r : Int) - k) - r).toNat := by
        intro k hk
        rw [List.getD_eq_getElem _ _ (by omega)]
        simp [← hnu]
      have hmono : ∀ (d : Nat) (i : Int), 1 ≤ i → i + d + 1 ≤ r → w.call i < w.call (i + d + 1) := by
        intro d
        induction d with
        | zero =>
          intro i hi1 hi2
          have := (h3 i hi1 (by omega)).2 (by omega)
          push_cast
          rwa [add_zero]
        | succ d ih =>
          intro i hi1 hi2
          have e1 := ih i hi1 (by omega)
          have e2 := (h3 (i + d + 1) (by omega) (by omega)).2 (by omega)
          push_cast
          rw [← add_assoc i (d : Int) 1]
          omega
      have hst : IsStrict nu := by
        constructor
        · rw [List.pairwise_iff_getElem]
          intro i j hi hj hij
          rw [← List.getD_eq_getElem _ 0 hi, ← List.getD_eq_getElem _ 0 hj, hval i (by omega), hval j (by omega)]
          have e1 := (h3 ((r : Int) - i) (by omega) (by omega)).1
          have e2 := (h3 ((r : Int) - j) (by omega) (by omega)).1
          have e3 := hmono (j - i - 1) ((r : Int) - j) (by omega) (by omega)
          rw [show (r : Int) - j + (j - i - 1 : Nat) + 1 = r - i by omega] at e3
          omega
        · intro a ha
          rw [← hnu, List.mem_map] at ha
          obtain ⟨k, hk, rfl⟩ := ha
          rw [List.mem_range] at hk
          have := (h3 ((r : Int) - k) (by omega) (by omega)).1
          omega
      have hgr : IsInvGr w 0 nu := by
        refine ⟨h1, isInvolution_iff.1 h2, fun k hk => ?_, fun x i hx hxi hi => ?_⟩
        · rw [hlen] at hk ⊢
          have := (h3 ((r : Int) - k) (by omega) (by omega)).1
          rw [hval k hk]
          push_cast
          omega
        · exfalso
          rw [hlen] at hx
          rcases h4 x hx with h | h <;> omega
      obtain ⟨mu, y, h5, h6, h7, h8, h9⟩ := hsome ⟨h1, h2⟩
      rw [hgr.shape hst, Option.some.injEq] at h5
      subst h5
      rw [h9, h8.unique hgr]
      simp
  · constructor
    · intro h hc
      obtain ⟨mu, y, -, -, -, -, h9⟩ := hsome hc
      rw [h] at h9
      cases h9
    · exact hnone

example : (construct [3, 5, 1, 4, 2]).map isInvGrassmannian = some (some true) := by decide +kernel
example : (construct [2, 1, 4, 3]).map isInvGrassmannian = some (some false) := by decide +kernel

theorem downRange_two (top : Nat) : downRange top 2 = (List.range ((top + 1) / 2)).map (fun k => top - 2 * k) := by
  have key : ∀ n : Nat, (List.range n).filter (fun k => decide (k % 2 = 0)) = (List.range ((n + 1) / 2)).map (fun k => 2 * k) := by
    intro n
    induction n with
    | zero => rfl
    | succ n ih =>
      rw [List.range_succ, List.filter_append, ih]
      by_cases h : n % 2 = 0
      · rw [show (n + 1 + 1) / 2 = (n + 1) / 2 + 1 by omega, List.range_succ, List.map_append]
        simp [h]
        omega
      · rw [show (n + 1 + 1) / 2 = (n + 1) / 2 by omega]
        simp [h]
  rw [downRange, key, List.map_map]
  rfl

theorem getD_downRange_two (top k : Nat) : (downRange top 2).getD k 0 = top - 2 * k := by
  rw [downRange_two]
  by_cases hk : k < (top + 1) / 2
  · rw [List.getD_eq_getElem _ _ (by simpa using hk)]
    simp
  · rw [List.getD_eq_default _ _ (by simpa using hk)]
    omega

theorem mem_strict_sub (top : Nat) (lam : List Nat) : lam ∈ subpartitions (downRange top 2) [] true ↔
    IsStrict lam ∧ ∀ k, lam.getD k 0 ≤ top - 2 * k := by
  have hsub := C19_subpartitions_partial (mu := downRange top 2) (nu := []) true (isPartition_downRange _ _)
    ⟨List.Pairwise.nil, by simp⟩ (by simp)
  rw [hsub.2, diagram_subset, diagram_subset]
  simp only [getD_downRange_two]
  constructor
  · rintro ⟨h1, -, h2, h3⟩
    exact ⟨⟨h3 trivial, h1.2⟩, h2⟩
  · rintro ⟨h1, h2⟩
    exact ⟨isStrict_isPartition h1, fun i => by rw [List.getD_nil]; omega, h2, fun _ => h1.1⟩

theorem nodup_strict_sub (top : Nat) : (subpartitions (downRange top 2) [] true).Nodup :=
  (C19_subpartitions_partial (mu := downRange top 2) (nu := []) true (isPartition_downRange _ _)
    ⟨List.Pairwise.nil, by simp⟩ (by simp)).1

/-- C68: `inv_grassmannians(n)` lists without repetitions the involutions accepted by `is_inv_grassmannian` whose shape `mu`
satisfies `mu_(k + 1) ≤ n - 1 - 2k` for all `k`. -/
theorem C68_inv_grassmannians (n : Nat) : ∃ L, invGrassmannians n = some L ∧ L.Nodup ∧ ∀ w, w ∈ L ↔
    isInvGrassmannian w = some true ∧ ∃ mu, involutionShape w = some mu ∧ ∀ k, mu.getD k 0 ≤ n - 1 - 2 * k := by
  refine ⟨_, mapM_option _ _ (fun mu => (getInvGrassmannian mu).getD identity) (fun mu hm => ?_), ?_, fun w => ?_⟩
  · obtain ⟨v, h3, -⟩ := getInvGrassmannian_spec ((mem_strict_sub _ mu).1 hm).1
    rw [h3]
    rfl
  · refine (nodup_strict_sub _).map_on (fun mu hm nu hn he => ?_)
    have hm' := ((mem_strict_sub _ mu).1 hm).1
    have hn' := ((mem_strict_sub _ nu).1 hn).1
    obtain ⟨v, h3, h4, -⟩ := getInvGrassmannian_spec hm'
    obtain ⟨u, h5, h6, -⟩ := getInvGrassmannian_spec hn'
    rw [h3, h5] at he
    simp only [Option.getD_some] at he
    have := h4.shape hm'
    rw [he, h6.shape hn', Option.some.injEq] at this
    exact this.symm
  · rw [List.mem_map]
    constructor
    · rintro ⟨mu, hm, rfl⟩
      obtain ⟨h1, h2⟩ := (mem_strict_sub _ mu).1 hm
      obtain ⟨v, h3, h4, -⟩ := getInvGrassmannian_spec h1
      rw [h3]
      simp only [Option.getD_some]
      have := h4.shape h1
      refine ⟨?_, mu, this, h2⟩
      rw [isInvGrassmannian, this, Option.bind_some, h3]
      simp
    · rintro ⟨h1, mu, h2, h3⟩
      have hw : isUnsigned w = true ∧ isInvolution w = true := ((C68_is_inv_grassmannian w).1.1 h1).imp_right (fun h => h.1)
      obtain ⟨nu, h4, h5⟩ := (C68_shape_strict hw.1).1 hw.2
      rw [h2, Option.some.injEq] at h4
      subst h4
      obtain ⟨v, h6, -⟩ := getInvGrassmannian_spec h5
      rw [isInvGrassmannian, h2, Option.bind_some, h6, Option.map_some, Option.some.injEq, decide_eq_true_iff] at h1
      exact ⟨mu, (mem_strict_sub _ mu).2 ⟨h5, h3⟩, by rw [h6, Option.getD_some]; exact h1⟩

/-- C68 (the argument does not bound the rank): `inv_grassmannians(4)` yields an involution of rank 5. -/
theorem C68_inv_grassmannians_rank : ∃ L, invGrassmannians 4 = some L ∧ ∃ w ∈ L, w.rank = 5 :=
  ⟨(invGrassmannians 4).getD [], by decide +kernel, (construct [3, 5, 1, 4, 2]).getD identity, by decide +kernel, by decide +kernel⟩

/-! ### fixed-point-free involutions -/

/-- C69: for a strict partition `mu` with `r` parts, `get_fpf_grassmannian(*mu)` ends without exception with the
fixed-point-free involution `y` that exchanges `r - k` and `r + 1 + mu_(k + 1)` for `0 ≤ k < r` and pairs off the other numbers
up to its rank in their order; the rank is `r + 1 + mu_1`, or one more if this is odd.  Its fpf involution shape is `mu`, its
fpf involution length is the size of `mu`.  For arguments that do not decrease strictly the assertion fails. -/
theorem C69_get_fpf_grassmannian (mu : List Nat) : (IsStrict mu → ∃ y, getFpfGrassmannian mu = some y ∧
      isUnsigned y = true ∧ isFpfInvolution y = true ∧
      (∀ k < mu.length, y.call ((mu.length : Int) - k) = mu.length + 1 + mu.getD k 0) ∧
      (∀ x i : Int, (mu.length : Int) < x → x < i → i < y.call x → ∃ k < mu.length, i = mu.length + 1 + mu.getD k 0) ∧
      y.rank = (if mu = [] then 0 else 2 * ((mu.length + mu.headD 0 + 2) / 2)) ∧
      fpfInvolutionShape y = some mu ∧ fpfInvolutionLength y = mu.sum) ∧
    (¬ mu.Pairwise (· > ·) → getFpfGrassmannian mu = none) := by
  constructor
  · intro hmu
    obtain ⟨y, h1, h2, h3, h4⟩ := getFpfGrassmannian_spec hmu
    have hs := h2.fpfShape hmu h3
    refine ⟨y, h1, h2.pos, h3, fun k hk => ?_, fun x i hx hxi hi => ?_, h4, hs, ?_⟩
    · rw [h2.val k hk]; push_cast; omega
    · obtain ⟨k, hk, e⟩ := h2.rest x i hx (by push_cast; omega) hi
      exact ⟨k, hk, by rw [e]; push_cast; omega⟩
    · obtain ⟨nu, c, h5, -, -, -, h6⟩ := (C66_involution_shape h2.pos).2 h3
      rw [hs, Option.some.injEq] at h5
      rw [h5, h6]
  · intro h
    rw [getFpfGrassmannian, if_neg (fun hc => h ((isStrictPartition_iff mu).1 hc))]

example : (getFpfGrassmannian [4, 2]).map (fun y => y.oneline) = some [5, 7, 4, 3, 1, 8, 2, 6] := by decide +kernel

/-- C69: for even `n`, `fpf_grassmannians(n)` lists without repetitions the values of `get_fpf_grassmannian` at the strict
partitions with `mu_(k + 1) ≤ n - 2 - 2k` for all `k`; for odd `n` the assertion fails. -/
theorem C69_fpf_grassmannians (n : Nat) : (n % 2 = 0 → ∃ L, fpfGrassmannians n = some L ∧ L.Nodup ∧ ∀ w, w ∈ L ↔
      ∃ mu, IsStrict mu ∧ (∀ k, mu.getD k 0 ≤ n - 2 - 2 * k) ∧ getFpfGrassmannian mu = some w) ∧
    (n % 2 ≠ 0 → fpfGrassmannians n = none) := by
  constructor
  · intro hn
    rw [fpfGrassmannians, if_pos hn]
    refine ⟨_, mapM_option _ _ (fun mu => (getFpfGrassmannian mu).getD identity) (fun mu hm => ?_), ?_, fun w => ?_⟩
    · obtain ⟨v, h3, -⟩ := getFpfGrassmannian_spec ((mem_strict_sub _ mu).1 hm).1
      rw [h3]
      rfl
    · refine (nodup_strict_sub _).map_on (fun mu hm nu hn he => ?_)
      have hm' := ((mem_strict_sub _ mu).1 hm).1
      have hn' := ((mem_strict_sub _ nu).1 hn).1
      obtain ⟨v, h3, h4, h4', -⟩ := getFpfGrassmannian_spec hm'
      obtain ⟨u, h5, h6, h6', -⟩ := getFpfGrassmannian_spec hn'
      rw [h3, h5] at he
      simp only [Option.getD_some] at he
      have := h4.fpfShape hm' h4'
      rw [he, h6.fpfShape hn' h6', Option.some.injEq] at this
      exact this.symm
    · rw [List.mem_map]
      constructor
      · rintro ⟨mu, hm, rfl⟩
        obtain ⟨h1, h2⟩ := (mem_strict_sub _ mu).1 hm
        obtain ⟨v, h3, -⟩ := getFpfGrassmannian_spec h1
        exact ⟨mu, h1, h2, by rw [h3]; rfl⟩
      · rintro ⟨mu, h1, h2, h3⟩
        exact ⟨mu, (mem_strict_sub _ mu).2 ⟨h1, h2⟩, by rw [h3]; rfl⟩
  · intro hn
    rw [fpfGrassmannians, if_neg hn]

example : (fpfGrassmannians 4).map (fun L => L.map SPerm.oneline) = some [[], [3, 4, 1, 2], [4, 3, 2, 1]] := by
  decide +kernel

/-- C69 (the argument does not bound the rank): `fpf_grassmannians(6)` yields an involution of rank 8. -/
theorem C69_fpf_grassmannians_rank : ∃ L, fpfGrassmannians 6 = some L ∧ ∃ w ∈ L, w.rank = 8 :=
  ⟨(fpfGrassmannians 6).getD [], by decide +kernel, (getFpfGrassmannian [4, 2]).getD identity, by decide +kernel, by decide +kernel⟩

/-- `a` is the left end of an arc of `w` in which another arc ends. -/
def IsEntered (w : SPerm) (a : Int) : Prop :=
  a < w.call a ∧ ∃ c : Int, 1 ≤ c ∧ c ≤ w.rank ∧ c < w.call c ∧ a < w.call c ∧ w.call c < w.call a

open Classical in
/-- The arcs of `w` in which another arc ends, by their left ends. -/
noncomputable def entered (w : SPerm) : Finset Int :=
  (Finset.Icc 1 (w.rank : Int)).filter (fun a => IsEntered w a)

open Classical in
theorem mem_entered {w : SPerm} {a : Int} : a ∈ entered w ↔ (1 ≤ a ∧ a ≤ w.rank) ∧ IsEntered w a := by
  rw [entered, Finset.mem_filter, Finset.mem_Icc]

theorem card_lt_getElem {l : List Int} (h : l.Pairwise (· < ·)) {i : Nat} (hi : i < l.length) :
    (l.toFinset.filter (fun b => b < l[i])).card = i := by
  have : l.toFinset.filter (fun b => b < l[i]) = (Finset.range i).image (fun k => l.getD k 0) := by
    ext b
    rw [Finset.mem_filter, List.mem_toFinset, Finset.mem_image]
    constructor
    · rintro ⟨h1, h2⟩
      obtain ⟨k, hk, rfl⟩ := List.mem_iff_getElem.1 h1
      refine ⟨k, ?_, List.getD_eq_getElem _ _ hk⟩
      rw [Finset.mem_range]
      by_contra hc
      rcases lt_or_eq_of_le (not_lt.1 hc) with h3 | h3
      · have := List.pairwise_iff_getElem.1 h i k hi hk h3; omega
      · subst h3; omega
    · rintro ⟨k, hk, rfl⟩
      rw [Finset.mem_range] at hk
      rw [List.getD_eq_getElem _ _ (by omega)]
      exact ⟨List.getElem_mem _, List.pairwise_iff_getElem.1 h k i (by omega) hi hk⟩
  rw [this, Finset.card_image_of_injOn, Finset.card_range]
  intro a ha b hb hab
  rw [Finset.coe_range, Set.mem_Iio] at ha hb
  simp only at hab
  rw [List.getD_eq_getElem _ _ (by omega), List.getD_eq_getElem _ _ (by omega)] at hab
  rcases lt_trichotomy a b with h1 | h1 | h1
  · have := List.pairwise_iff_getElem.1 h a b (by omega) (by omega) h1; omega
  · exact h1
  · have := List.pairwise_iff_getElem.1 h b a (by omega) (by omega) h1; omega

theorem mem_upPairs {w : SPerm} {p : Int × Int} : p ∈ upPairs w ↔ 1 ≤ p.1 ∧ p.1 ≤ w.rank ∧ p.1 < w.call p.1 ∧ p.2 = w.call p.1 := by
  rw [upPairs, List.mem_map]
  constructor
  · rintro ⟨a, ha, rfl⟩
    rw [List.mem_filter, mem_pyRange, decide_eq_true_iff] at ha
    exact ⟨by simp only; omega, by simp only; omega, ha.2, rfl⟩
  · rintro ⟨h1, h2, h3, h4⟩
    refine ⟨p.1.toNat, ?_, ?_⟩
    · rw [List.mem_filter, mem_pyRange, decide_eq_true_iff, show ((p.1.toNat : Nat) : Int) = p.1 by omega]
      exact ⟨by omega, h3⟩
    · rw [show ((p.1.toNat : Nat) : Int) = p.1 by omega, ← h4]

/-- C69: what `is_fpf_grassmannian` checks.  Leave out the arcs of `w` in which no other arc ends; the value is true if and only
if the right ends of the remaining arcs are `n + 1, n + 2, ...` in the order of their left ends, and all left ends are at most `n`,
for some `n`.  Of the other two conditions in the name only "not both signed and fixed-point-free" is checked. -/
theorem C69_is_fpf_grassmannian (w : SPerm) : isFpfGrassmannian w = true ↔
    ¬ (isUnsigned w = false ∧ isFpfInvolution w = true) ∧
    ∃ n : Int, ∀ a ∈ entered w, a ≤ n ∧ w.call a = n + 1 + ((entered w).filter (fun b => b < a)).card := by
  rw [isFpfGrassmannian]
  by_cases h0 : isUnsigned w = false ∧ isFpfInvolution w = true
  · rw [if_pos (by rw [h0.1, h0.2]; rfl)]
    exact ⟨fun h => (by cases h), fun h => absurd h0 h.1⟩
  · rw [if_neg (by
      rw [Bool.and_eq_true, Bool.not_eq_true']
      exact h0)]
    have hx : ¬ (isUnsigned w = false ∧ isFpfInvolution w = true) := h0
    simp only [hx, not_false_eq_true, true_and]
    obtain ⟨F, hF⟩ : ∃ F, ((upPairs w).filter (fun p => (upPairs w).any (fun q => decide (q.1 < p.2 ∧ p.1 < q.2 ∧ q.2 < p.2)))).insertionSort boxLe = F :=
      ⟨_, rfl⟩
    have hperm : F.Perm ((upPairs w).filter (fun p => (upPairs w).any (fun q => decide (q.1 < p.2 ∧ p.1 < q.2 ∧ q.2 < p.2)))) :=
      hF ▸ List.perm_insertionSort _ _
    have hmem : ∀ p : Int × Int, p ∈ F ↔ p.1 ∈ entered w ∧ p.2 = w.call p.1 := by
      intro p
      rw [hperm.mem_iff, List.mem_filter, List.any_eq_true, mem_upPairs, mem_entered, IsEntered]
      constructor
      · rintro ⟨⟨h1, h2, h3, h4⟩, q, hq, h5⟩
        rw [mem_upPairs] at hq
        rw [decide_eq_true_iff] at h5
        exact ⟨⟨⟨h1, h2⟩, h3, q.1, hq.1, hq.2.1, by omega, by omega, by omega⟩, h4⟩
      · rintro ⟨⟨h1, h3, c, hc, hc', h5⟩, h4⟩
        refine ⟨⟨h1.1, h1.2, h3, h4⟩, (c, w.call c), mem_upPairs.2 ⟨hc, hc', h5.1, rfl⟩, ?_⟩
        rw [decide_eq_true_iff]
        simp only
        omega
    have hnd : F.Nodup := by
      refine hperm.nodup_iff.2 (List.Nodup.filter _ ?_)
      rw [upPairs]
      refine ((nodup_pyRange _ _).filter _).map_on (fun a _ b _ hab => ?_)
      have := congrArg Prod.fst hab
      simp only at this
      omega
    have hsort : (F.map Prod.fst).Pairwise (· < ·) := by
      rw [List.pairwise_map]
      have h1 : F.Pairwise boxLe := hF ▸ List.pairwise_insertionSort boxLe _
      refine ((h1.and hnd).imp_of_mem (fun {a b} ha hb hab => ?_))
      obtain ⟨h2, h3⟩ := hab
      unfold boxLe at h2
      by_contra hc
      refine h3 (Prod.ext (by omega) ?_)
      rw [((hmem a).1 ha).2, ((hmem b).1 hb).2, show a.1 = b.1 by omega]
    have hset : (F.map Prod.fst).toFinset = entered w := by
      ext a
      rw [List.mem_toFinset, List.mem_map]
      constructor
      · rintro ⟨p, hp, rfl⟩
        exact ((hmem p).1 hp).1
      · intro ha
        exact ⟨(a, w.call a), (hmem _).2 ⟨ha, rfl⟩, rfl⟩
    have hcard : ∀ (i : Nat) (hi : i < F.length), ((entered w).filter (fun b => b < F[i].1)).card = i := by
      intro i hi
      have := card_lt_getElem hsort (i := i) (by rw [List.length_map]; exact hi)
      rwa [hset, List.getElem_map] at this
    rw [fpfGrassmannianShape]
    simp only
    rw [hF]
    by_cases hnil : F = []
    · rw [if_pos hnil]
      refine ⟨fun _ => ⟨0, fun a ha => ?_⟩, fun _ => rfl⟩
      rw [← hset, hnil] at ha
      simp at ha
    · rw [if_neg hnil]
      have hl := List.length_pos_iff.2 hnil
      have htop : ((F.map Prod.snd).headD 0) = w.call F[0].1 := by
        rw [← ((hmem _).1 (List.getElem_mem hl)).2]
        cases F with
        | nil => simp at hl
        | cons a l => rfl
      have hlast : (F.map Prod.fst).getLastD 0 = F[F.length - 1].1 := by
        rw [List.getLastD_eq_getLast?, List.getLast?_eq_getElem?, List.getElem?_eq_getElem (by rw [List.length_map]; omega)]
        simp
      rw [htop, hlast]
      constructor
      · intro h
        have h1 : ¬ (F[F.length - 1].1 ≥ w.call F[0].1 - 1 + 1 ∨
            List.map Prod.snd F ≠ List.map (fun i : Nat => w.call F[0].1 - 1 + ↑i + 1) (List.range F.length)) := by
          intro hc
          rw [if_pos hc] at h
          cases h
        push Not at h1
        refine ⟨w.call F[0].1 - 1, fun a ha => ?_⟩
        obtain ⟨i, hi, he⟩ := List.mem_iff_getElem.1 ((hmem (a, w.call a)).2 ⟨ha, rfl⟩)
        have ha' : F[i].1 = a := by rw [he]
        have h2 := congrArg (fun l => l[i]?) h1.2
        simp only [List.getElem?_map] at h2
        rw [List.getElem?_eq_getElem hi, List.getElem?_range hi] at h2
        simp only [Option.map_some, Option.some.injEq] at h2
        have h3 := hcard i hi
        rw [ha'] at h3
        rw [h3]
        rw [((hmem _).1 (List.getElem_mem hi)).2, ha'] at h2
        refine ⟨?_, by omega⟩
        have h4 : F[i].1 ≤ F[F.length - 1].1 := by
          rcases lt_or_eq_of_le (show i ≤ F.length - 1 by omega) with h5 | h5
          · have := List.pairwise_iff_getElem.1 hsort i (F.length - 1) (by rw [List.length_map]; omega) (by rw [List.length_map]; omega) h5
            rw [List.getElem_map, List.getElem_map] at this
            omega
          · subst h5; exact le_rfl
        omega
      · rintro ⟨n, hn⟩
        have hval : ∀ (i : Nat) (hi : i < F.length), F[i].1 ≤ n ∧ F[i].2 = n + 1 + i := by
          intro i hi
          have h1 := (hmem _).1 (List.getElem_mem hi)
          have h2 := hn _ h1.1
          rw [hcard i hi] at h2
          exact ⟨h2.1, by rw [h1.2, h2.2]⟩
        have h0 := hval 0 hl
        have hw0 := ((hmem _).1 (List.getElem_mem hl)).2
        rw [if_neg]
        · rfl
        · push Not
          constructor
          · have := (hval (F.length - 1) (by omega)).1
            push_cast at h0
            omega
          · refine List.ext_getElem (by simp) (fun i h1 h2 => ?_)
            rw [List.length_map] at h1
            simp only [List.getElem_map, List.getElem_range]
            have := (hval i h1).2
            push_cast at h0
            omega

example : (construct [4, 5, 6, 1, 2, 3]).map isFpfGrassmannian = some true := by decide +kernel

/-- C69 (violated by the code): `is_fpf_grassmannian` rejects `get_fpf_grassmannian(3, 1)`, although its fpf shape is `(3, 1)`; and
it accepts permutations that are no involutions, and involutions with fixed points. -/
theorem C69_is_fpf_grassmannian_fails :
    (∃ y, getFpfGrassmannian [3, 1] = some y ∧ fpfInvolutionShape y = some [3, 1] ∧ isFpfGrassmannian y = false) ∧
    (∃ w, isUnsigned w = true ∧ isInvolution w = false ∧ isFpfGrassmannian w = true) ∧
    (∃ w, isUnsigned w = true ∧ isInvolution w = true ∧ isFpfInvolution w = false ∧ isFpfGrassmannian w = true) :=
  ⟨⟨(getFpfGrassmannian [3, 1]).getD identity, by decide +kernel, by decide +kernel, by decide +kernel⟩,
    ⟨(construct [2, 3, 1]).getD identity, by decide +kernel, by decide +kernel, by decide +kernel⟩,
    ⟨s 2, by decide +kernel, by decide +kernel, by decide +kernel, by decide +kernel⟩⟩

end Verif.Perm
