import Verif.Lemmas.FpfBruhat
import Verif.Lemmas.LittleFpf
import Verif.Lemmas.InvGrassmannian

/-! # C111: the transitions of fixed-point-free involutions -/

namespace Verif.Perm
open Verif.PermSpec
attribute [-simp] List.getD_eq_getElem?_getD
attribute [local irreducible] mul s inverse identity len mod act SPerm.call sFun invStep

/-- `z` covers `y` in the Bruhat order on the fixed-point-free involutions of a given rank. -/
def FpfCovers (y z : SPerm) : Prop := FpfInvolution y ∧ FpfInvolution z ∧ z.rank = y.rank ∧ BruhatLE y z ∧ y ≠ z ∧
  ∀ u, FpfInvolution u → u.rank = y.rank → BruhatLE y u → BruhatLE u z → u = y ∨ u = z

theorem fpf_spec_of {N : Nat} {w : SPerm} (h : Fpf N w) : FpfInvolution w := fpf_iff_spec.2 (by rw [h.rank]; exact h)

theorem flen_ilen {N : Nat} {y z : SPerm} (hy : Fpf N y) (hz : Fpf N z) :
    fpfInvolutionLength z = fpfInvolutionLength y + 1 ↔ involutionLength z = involutionLength y + 1 := by
  unfold fpfInvolutionLength
  rw [hy.rank, hz.rank]
  omega

theorem fpfCovers_iff {N : Nat} {y z : SPerm} (hy : Fpf N y) (hz : Fpf N z) :
    FpfCovers y z ↔ BruhatLE y z ∧ involutionLength z = involutionLength y + 1 := by
  constructor
  · rintro ⟨-, -, -, h1, h2, h3⟩
    obtain ⟨u, hu, h4, h5, h6⟩ := fpf_chain hy hz h1 h2
    refine ⟨h1, ?_⟩
    rcases h3 u (fpf_spec_of hu) (by rw [hu.rank, hy.rank]) h4 h5 with rfl | rfl
    · omega
    · exact h6
  · rintro ⟨h1, h2⟩
    refine ⟨fpf_spec_of hy, fpf_spec_of hz, by rw [hy.rank, hz.rank], h1, fun h => by rw [h] at h2; omega, fun u hu hr h3 h4 => ?_⟩
    have hu' := fpf_iff_spec.1 hu
    have g1 := ilen_mono hy.inv hu'.inv h3
    have g2 := ilen_mono hu'.inv hz.inv h4
    rcases Nat.lt_or_ge (involutionLength y) (involutionLength u) with h5 | h5
    · exact .inr (g2.2 (by omega))
    · exact .inl (g1.2 (by omega)).symm

/-- C111: the fixed-point-free involutions that cover `y` in the Bruhat order on those of the same rank are its conjugates by
transpositions, of length one more. -/
theorem C111_covers {y z : SPerm} (hy : FpfInvolution y) (hz : FpfInvolution z) (hr : z.rank = y.rank) :
    FpfCovers y z ↔ fpfInvolutionLength z = fpfInvolutionLength y + 1 ∧
      ∃ i j, 1 ≤ i ∧ i < j ∧ j ≤ y.rank ∧ z = mul (mul (reflectionT i j) y) (reflectionT i j) := by
  have hy' := fpf_iff_spec.1 hy
  have hz' := fpf_iff_spec.1 hz
  rw [hr] at hz'
  rw [fpfCovers_iff hy' hz', flen_ilen hy' hz']
  constructor
  · rintro ⟨h1, h2⟩
    exact ⟨h2, fpf_cov hy' hz' (cov_of_covers hy'.inv hz'.inv hy'.pos hz'.pos h1 h2)⟩
  · rintro ⟨h1, i, j, hi, hij, hj, rfl⟩
    exact ⟨fpf_conjT_le hy' hi hij hj h1, h1⟩

theorem conj_covers {N : Nat} {y : SPerm} (hy : Fpf N y) {i j : Nat} (hi : 1 ≤ i) (hij : i < j) (hj : j ≤ N) :
    FpfCovers y (mul (mul (reflectionT i j) y) (reflectionT i j)) ↔
      fpfInvolutionLength (mul (mul (reflectionT i j) y) (reflectionT i j)) = fpfInvolutionLength y + 1 := by
  have hz := fpf_conjT hy hi hij hj
  unfold conjT at hz
  rw [fpfCovers_iff hy hz, flen_ilen hy hz]
  exact ⟨fun h => h.2, fun h => ⟨fpf_conjT_le hy hi hij hj h, h⟩⟩

/-- C111: `lower_fpf_involution_transitions(r)`, for `r` up to the rank, yields in increasing order the `i < r` for which the conjugate by
the transposition of `i` and `r` covers. -/
theorem C111_lower {w : SPerm} (hw : FpfInvolution w) {r : Nat} (hr : r ≤ w.rank) :
    ∃ L, lowerFpfTransitions w r = .ok L ∧ L.Pairwise (· < ·) ∧
      ∀ i, i ∈ L ↔ 1 ≤ i ∧ i < r ∧ FpfCovers w (mul (mul (reflectionT i r) w) (reflectionT i r)) := by
  have hw' := fpf_iff_spec.1 hw
  refine ⟨_, by unfold lowerFpfTransitions; rw [if_pos hw'.checks.1],
    List.Pairwise.sublist (List.filter_sublist.trans List.filter_sublist) List.pairwise_lt_range, fun i => ?_⟩
  rw [List.mem_filter, List.mem_filter, List.mem_range, decide_eq_true_eq, decide_eq_true_eq]
  constructor
  · rintro ⟨⟨h1, h2⟩, h3⟩
    exact ⟨h2, h1, (conj_covers hw' h2 h1 hr).2 h3⟩
  · rintro ⟨h1, h2, h3⟩
    exact ⟨⟨h2, h1⟩, (conj_covers hw' h1 h2 hr).1 h3⟩

theorem flen_tail {N : Nat} {y : SPerm} (h : Fpf N y) : fpfInvolutionLength (mul y (s (N + 1))) = fpfInvolutionLength y := by
  have h1 := h.fpfLength
  have h2 := h.mul_tail.fpfLength
  have h3 : len (mul y (s (N + 1))) = len y + 1 := len_mul_s_of_not (by
    rw [desc_iff_lt (by omega), h.odd.out _ (by omega), h.odd.out _ (by omega)]
    omega)
  have := h.even.2
  omega

/-- The transitions of `y` and of `y` with one more cycle at the end. -/
theorem covers_tail {N : Nat} {y : SPerm} (h : Fpf N y) {i j : Nat} (hi : 1 ≤ i) (hij : i < j) (hj : j ≤ N) :
    FpfCovers (mul y (s (N + 1))) (mul (mul (reflectionT i j) (mul y (s (N + 1)))) (reflectionT i j)) ↔
      FpfCovers y (mul (mul (reflectionT i j) y) (reflectionT i j)) := by
  have hz := fpf_conjT h hi hij hj
  unfold conjT at hz
  have hc : mul (mul (reflectionT i j) (mul y (s (N + 1)))) (reflectionT i j) = mul (mul (mul (reflectionT i j) y) (reflectionT i j)) (s (N + 1)) := by
    have h1 : mul (s (N + 1)) (reflectionT i j) = mul (reflectionT i j) (s (N + 1)) := by
      refine comm_tail ((call_odd _).mono (rank_le_of_fix (fun x hx => ?_)))
      rw [call_reflectionT hi (by omega), tFun_of (by omega) (by omega) (by omega)]
    rw [← mul_assoc', mul_assoc' _ (s (N + 1)), h1, ← mul_assoc']
  rw [conj_covers h.mul_tail hi hij (by omega), conj_covers h hi hij hj, hc, flen_tail hz, flen_tail h]

/-- Beyond the first cycle at the end there are no transitions. -/
theorem no_far {n m : Nat} {w y : SPerm} (hw : Fpf n w) (hy : Fpf m y) (he : FpfExtends w y) {r j : Nat} (hr : 1 ≤ r) (hrn : r ≤ n)
    (hj : n + 2 < j) (hjm : j ≤ m) : ¬ FpfCovers y (mul (mul (reflectionT r j) y) (reflectionT r j)) := by
  intro h
  have hz := fpf_conjT hy hr (q := j) (by omega) hjm
  obtain ⟨h1, h2⟩ := (fpfCovers_iff hy hz).1 h
  have hev := hw.even.2
  have hev' := hy.even.2
  have hval : ∀ x : Nat, n < x → x ≤ m → y.call x = if x % 2 = 1 then (x + 1 : Nat) else (x - 1 : Nat) := by
    intro x hx hxm
    rw [he.2 x (by omega), if_neg (by rw [hw.rank]; omega), if_pos (by rw [hy.rank]; omega)]
    (repeat' split) <;> omega
  have hyr : y.call r = w.call r := by rw [he.2 r (by omega), if_pos (by rw [hw.rank]; omega)]
  have hwr := hw.le (a := r) (by omega) (by omega)
  have hyr2 : y.call r ≤ n := by rw [hyr]; exact hwr.2
  have hyr1 := hy.pos r (by omega)
  obtain ⟨k, hk1, hk2, hk3⟩ : ∃ k, k % 2 = 0 ∧ n + 2 ≤ k ∧ (j = k + 1 ∨ j = k + 2) := by
    rcases Nat.mod_two_eq_zero_or_one j with h | h
    · exact ⟨j - 2, by omega, by omega, by omega⟩
    · exact ⟨j - 1, by omega, by omega, by omega⟩
  have y0 : y.call k = (k - 1 : Nat) := by rw [hval k (by omega) (by omega), if_neg (by omega)]
  have y1 : y.call (k + 1 : Nat) = (k + 2 : Nat) := by rw [hval (k + 1) (by omega) (by omega), if_pos (by omega)]
  have y2 : y.call (k + 2 : Nat) = (k + 1 : Nat) := by rw [hval (k + 2) (by omega) (by omega), if_neg (by omega)]; rfl
  have z0 : (conjT y r j).call k = (k - 1 : Nat) := by
    rw [conjT_call hr (by omega), tFun_of (x := (k : Int)) (by omega) (by omega) (by omega), y0, tFun_of (by omega) (by omega) (by omega)]
  have z1 : (conjT y r j).call (k + 1 : Nat) ≤ n := by
    rw [conjT_call hr (by omega)]
    rcases hk3 with rfl | rfl
    · rw [tFun_right, tFun_of (by omega) (hy.ne r (by omega) (by omega)) (by omega)]; exact hyr2
    · rw [tFun_of (x := ((k + 1 : Nat) : Int)) (by omega) (by omega) (by omega), y1, tFun_right]; omega
  have hd1 : ¬ Desc y.call k := (not_desc_iff (by omega)).2 (by rw [y0, y1]; omega)
  have hd2 : Desc (conjT y r j).call k := (desc_iff_lt (by omega)).2 (by rw [z0]; omega)
  have h3 := (raise_le_of_desc hy.inv hz.inv h1 hd1 hd2).1
  have h4 := (ilen_mono hy.inv (invStep_involution hz.inv _) h3).2 (by
    have := ilen_lower hz.inv hd2
    unfold conjT at *
    omega)
  have h5 := (raise_call hy.pos (k := k) (by omega) ((not_desc_iff (by omega)).1 hd1)).2 (fun h => by rw [y0] at h; omega)
  rw [h4, invStep_invStep] at h5
  rw [h5, conjT_call (by omega) (by omega), tFun_right, ← h4, y0, tFun_of (by omega) (by omega) (by omega)] at z1
  omega

theorem ext_covers {n : Nat} {w : SPerm} (hw : Fpf n w) {r j : Nat} (hr : 1 ≤ r) (hrj : r < j) (hj : j ≤ n + 2) (d : Nat) :
    ∀ {y : SPerm}, Fpf (n + 2 + 2 * d) y → FpfExtends w y → (FpfCovers y (mul (mul (reflectionT r j) y) (reflectionT r j)) ↔
      FpfCovers (mul w (s (n + 1))) (mul (mul (reflectionT r j) (mul w (s (n + 1)))) (reflectionT r j))) := by
  have hev := hw.even.2
  induction d with
  | zero =>
    intro y hy he
    have h1 : y = mul w (s (n + 1)) := by
      refine ext_pos (fun x hx => ?_)
      rw [he.2 x hx, call_mul_tail hw.odd, hw.rank, hy.rank]
      obtain ⟨g1, g2, g3⟩ := sFun_nat (k := n + 1) (by omega)
      by_cases h1 : x ≤ n
      · rw [if_pos h1, if_pos (by omega)]
      rw [if_neg h1, if_neg (show ¬ x.natAbs ≤ n by omega)]
      by_cases h2 : x = (n + 1 : Nat)
      · rw [h2, g1, if_pos (by omega), if_pos (by omega)]; omega
      by_cases h3 : x = (n + 1 + 1 : Nat)
      · rw [h3, g2, if_pos (by omega), if_neg (by omega)]; omega
      have := g3 x.toNat (by omega) (by omega)
      rw [Int.toNat_of_nonneg (by omega)] at this
      rw [this, if_neg (by omega)]
    rw [h1]
  | succ d ih =>
    intro y hy he
    obtain ⟨k, hk⟩ : ∃ k, n + 2 + 2 * d = k := ⟨_, rfl⟩
    have hk2 : n + 2 + 2 * (d + 1) = k + 2 := by omega
    rw [hk] at ih
    rw [hk2] at hy
    have hval : ∀ x : Int, 0 < x → y.call x = if x ≤ n then w.call x else if x ≤ (k + 2 : Nat) then (if x % 2 = 1 then x + 1 else x - 1) else x :=
      fun x hx => by rw [he.2 x hx, hw.rank, hy.rank]
    have ht : y.call (k + 1 : Nat) = (k + 2 : Nat) := by
      rw [hval _ (by omega), if_neg (by omega), if_pos (by omega), if_pos (by omega)]; omega
    have ht2 : y.call (k + 1 + 1 : Nat) = (k + 1 : Nat) := by
      rw [hval _ (by omega), if_neg (by omega), if_pos (by omega), if_neg (by omega)]; omega
    have hy' := hy.of_tail ht
    obtain ⟨g1, g2, g3⟩ := sFun_nat (k := k + 1) (by omega)
    have he' : FpfExtends w (mul y (s (k + 1))) := by
      refine ⟨by rw [hw.rank, hy'.rank]; omega, fun x hx => ?_⟩
      rw [hw.rank, hy'.rank, call_mul, call_s]
      by_cases h2 : x = (k + 1 : Nat)
      · rw [h2, g1, ht2, if_neg (by omega), if_neg (by omega)]
      by_cases h3 : x = (k + 1 + 1 : Nat)
      · rw [h3, g2, ht, if_neg (by omega), if_neg (by omega)]
      have := g3 x.toNat (by omega) (by omega)
      rw [Int.toNat_of_nonneg (by omega)] at this
      rw [this, hval x hx]
      (repeat' split) <;> omega
    rw [← ih hy' he', ← covers_tail hy' hr hrj (by omega), mul_s_s]

/-- C111: `upper_fpf_involution_transitions(r)`, for `r` up to the rank, yields in increasing order the `j > r` for which the conjugate by
the transposition of `r` and `j` covers; here `w` may be continued by any positive number of cycles `(n + 1, n + 2), (n + 3, n + 4), ...`. -/
theorem C111_upper {w : SPerm} (hw : FpfInvolution w) {r : Nat} (hr : 1 ≤ r) (hrn : r ≤ w.rank) :
    ∃ L, upperFpfTransitions w r = .ok L ∧ L.Pairwise (· < ·) ∧
      ∀ y, FpfInvolution y → FpfExtends w y → w.rank < y.rank →
        ∀ j, j ∈ L ↔ r < j ∧ j ≤ y.rank ∧ FpfCovers y (mul (mul (reflectionT r j) y) (reflectionT r j)) := by
  have hw' := fpf_iff_spec.1 hw
  refine ⟨_, by unfold upperFpfTransitions; rw [if_pos hw'.checks.1],
    List.Pairwise.sublist (List.filter_sublist.trans List.filter_sublist) List.pairwise_lt_range, fun y hy he hlt j => ?_⟩
  have hy' := fpf_iff_spec.1 hy
  have hev := hw'.even.2
  have hev' := hy'.even.2
  obtain ⟨d, hd⟩ : ∃ d, y.rank = w.rank + 2 + 2 * d := ⟨(y.rank - w.rank - 2) / 2, by omega⟩
  rw [List.mem_filter, List.mem_filter, List.mem_range, decide_eq_true_eq, decide_eq_true_eq]
  constructor
  · rintro ⟨⟨h1, h2⟩, h3⟩
    refine ⟨by omega, by omega, (ext_covers hw' hr (by omega) (by omega) d (by rw [← hd]; exact hy') he).2 ?_⟩
    exact (conj_covers hw'.mul_tail hr (by omega) (by omega)).2 h3
  · rintro ⟨h1, h2, h3⟩
    have h4 : j ≤ w.rank + 2 := by
      by_contra hc
      exact no_far hw' hy' he hr hrn (by omega) h2 h3
    refine ⟨⟨by omega, by omega⟩, ?_⟩
    have h5 := (ext_covers hw' hr h1 h4 d (by rw [← hd]; exact hy') he).1 h3
    exact (conj_covers hw'.mul_tail hr h1 h4).1 h5

/-- The involution `(1, 3)(2, 4)`. -/
example : (construct [3, 4, 1, 2]).map (fun y => isFpfInvolution y && isUnsigned y) = some true ∧
    (construct [3, 4, 1, 2]).map (fun y => [1, 2, 3, 4].map (fun r => (upperFpfTransitions y r).toOption)) =
      some [some [2], some [6], some [4], some [5]] ∧
    (construct [3, 4, 1, 2]).map (fun y => [1, 2, 3, 4].map (fun r => (lowerFpfTransitions y r).toOption)) =
      some [some [], some [1], some [], some [3]] := by
  refine ⟨?_, ?_, ?_⟩ <;> decide +kernel

/-- C111: other permutations fail the assertion. -/
theorem C111_assertion {w : SPerm} (hw : isFpfInvolution w = false) (r : Nat) :
    upperFpfTransitions w r = .error .assertion ∧ lowerFpfTransitions w r = .error .assertion := by
  unfold upperFpfTransitions lowerFpfTransitions
  rw [hw]
  exact ⟨rfl, rfl⟩

end Verif.Perm
