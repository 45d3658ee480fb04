import Verif.Lemmas.TransitionsRaise
import Verif.Lemmas.AtomsCode

/-! # C110: the transitions of involutions -/

namespace Verif.Perm
open Verif.PermSpec
attribute [-simp] List.getD_eq_getElem?_getD
attribute [local irreducible] mul s inverse identity len mod act SPerm.call sFun invStep

/-- C110: `tau(i, j)` of an unsigned involution is an unsigned involution above it in the Bruhat order. -/
theorem C110_tau {y : SPerm} (hy : isInvolution y = true) (hu : isUnsigned y = true) {i j : Nat} (hi : 1 ≤ i) (hij : i < j) :
    ∃ z, tau? y i j = .ok z ∧ isInvolution z = true ∧ isUnsigned z = true ∧ BruhatLE y z := by
  obtain ⟨z, h1, h2⟩ := tau_case (isInvolution_iff.1 hy) (isUnsigned_iff.1 hu) hi hij
  obtain ⟨h3, h4, h5⟩ := tau_up (isInvolution_iff.1 hy) (isUnsigned_iff.1 hu) hi hij h2
  exact ⟨z, h1, isInvolution_iff.2 h3, isUnsigned_iff.2 h4, h5⟩

/-- The involution `2, 1, 4, 3` and the pairs of numbers up to 5. -/
example : (construct [2, 1, 4, 3]).map (fun y => ([(1, 2), (1, 3), (1, 4), (2, 3), (3, 4), (4, 5)].map (fun p => (tau? y p.1 p.2).toOption.map
    SPerm.oneline))) = some [some [2, 1, 4, 3], some [4, 2, 3, 1], some [4, 2, 3, 1], some [3, 4, 1, 2], some [2, 1, 4, 3],
      some [2, 1, 5, 4, 3]] := by decide +kernel

/-- C110: the involutions that cover `y` in the Bruhat order on involutions are the involutions `tau(i, j)` of length one more. -/
theorem C110_covers {y z : SPerm} (hy : isInvolution y = true) (hyu : isUnsigned y = true) (hz : isInvolution z = true)
    (hzu : isUnsigned z = true) :
    InvolCovers y z ↔ involutionLength z = involutionLength y + 1 ∧ ∃ i j, 1 ≤ i ∧ i < j ∧ tau? y i j = .ok z := by
  have hy' := isInvolution_iff.1 hy
  have hz' := isInvolution_iff.1 hz
  constructor
  · intro h
    have hl := (involCovers_iff hy' hz' h.2.2.1).1 h
    exact ⟨hl, (cov_of_covers hy' hz' (isUnsigned_iff.1 hyu) (isUnsigned_iff.1 hzu) h.2.2.1 hl).tau hy' hz' (isUnsigned_iff.1 hyu)⟩
  · rintro ⟨hl, i, j, hi, hij, ht⟩
    obtain ⟨z', h1, h2, h3, h4⟩ := C110_tau hy hyu hi hij
    rw [ht] at h1
    cases h1
    exact (involCovers_iff hy' hz' h4).2 hl

theorem listTransitions_spec {w : SPerm} {f : Nat → Except Raised SPerm} {l : List Nat} (h : ∀ i ∈ l, ∃ z, f i = .ok z) :
    ∃ L, listTransitions w f l = .ok L ∧ L.Sublist l ∧
      ∀ i, i ∈ L ↔ i ∈ l ∧ ∃ z, f i = .ok z ∧ involutionLength z = involutionLength w + 1 := by
  induction l with
  | nil => exact ⟨[], rfl, List.Sublist.refl _, by simp⟩
  | cons a l ih =>
    obtain ⟨z, hz⟩ := h a (by simp)
    obtain ⟨L, h1, h2, h3⟩ := ih (fun i hi => h i (by simp [hi]))
    unfold listTransitions at h1 ⊢
    rw [List.mapM_cons, hz]
    cases hm : l.mapM (fun i => (f i).map (fun z => (i, z))) with
    | error e =>
      rw [hm] at h1
      cases h1
    | ok zs =>
      rw [hm] at h1
      have h1' : (zs.filter (fun p => decide (involutionLength p.2 = involutionLength w + 1))).map Prod.fst = L := Except.ok.inj h1
      by_cases hc : involutionLength z = involutionLength w + 1
      · refine ⟨a :: L, ?_, h2.cons_cons a, fun i => ?_⟩
        · change Except.ok _ = _
          rw [List.filter_cons_of_pos (by simpa using hc), List.map_cons, h1']
        · rw [List.mem_cons, List.mem_cons, h3]
          constructor
          · rintro (rfl | ⟨h4, h5⟩)
            · exact ⟨.inl rfl, z, hz, hc⟩
            · exact ⟨.inr h4, h5⟩
          · rintro ⟨rfl | h4, h5⟩
            · exact .inl rfl
            · exact .inr ⟨h4, h5⟩
      · refine ⟨L, ?_, h2.cons a, fun i => ?_⟩
        · change Except.ok _ = _
          rw [List.filter_cons_of_neg (by simpa using hc), h1']
        · rw [List.mem_cons, h3]
          constructor
          · rintro ⟨h4, h5⟩
            exact ⟨.inr h4, h5⟩
          · rintro ⟨rfl | h4, z', h5, h6⟩
            · rw [hz] at h5
              cases h5
              exact absurd h6 hc
            · exact ⟨h4, z', h5, h6⟩

theorem tau_covers {w z : SPerm} (hw : isInvolution w = true) (hu : isUnsigned w = true) {i j : Nat} (hi : 1 ≤ i) (hij : i < j)
    (h : tau? w i j = .ok z) : InvolCovers w z ↔ involutionLength z = involutionLength w + 1 := by
  obtain ⟨z', h1, h2, h3, h4⟩ := C110_tau hw hu hi hij
  rw [h] at h1
  cases h1
  exact involCovers_iff (isInvolution_iff.1 hw) (isInvolution_iff.1 h2) h4

/-- C110: `lower_involution_transitions(r)` yields, in increasing order, the `i < r` for which `tau(i, r)` covers the unsigned involution
in the Bruhat order on involutions. -/
theorem C110_lower {w : SPerm} (hw : isInvolution w = true) (hu : isUnsigned w = true) (r : Nat) :
    ∃ L, lowerInvolutionTransitions w r = .ok L ∧ L.Pairwise (· < ·) ∧
      ∀ i, i ∈ L ↔ 1 ≤ i ∧ i < r ∧ ∃ z, tau? w i r = .ok z ∧ InvolCovers w z := by
  have hmem : ∀ i, i ∈ (List.range r).filter (fun i => decide (1 ≤ i)) ↔ i < r ∧ 1 ≤ i := fun i => by
    rw [List.mem_filter, List.mem_range, decide_eq_true_eq]
  obtain ⟨L, h1, h2, h3⟩ := listTransitions_spec (w := w) (f := fun i => tau? w i r) (l := (List.range r).filter (fun i => decide (1 ≤ i)))
    (fun i hi => by
      obtain ⟨h4, h5⟩ := (hmem i).1 hi
      obtain ⟨z, h6, -⟩ := C110_tau hw hu h5 h4
      exact ⟨z, h6⟩)
  refine ⟨L, ?_, List.Pairwise.sublist (h2.trans List.filter_sublist) List.pairwise_lt_range, fun i => ?_⟩
  · unfold lowerInvolutionTransitions
    rw [if_pos hw, h1]
  · rw [h3, hmem]
    constructor
    · rintro ⟨⟨h4, h5⟩, z, h6, h7⟩
      exact ⟨h5, h4, z, h6, (tau_covers hw hu h5 h4 h6).2 h7⟩
    · rintro ⟨h4, h5, z, h6, h7⟩
      exact ⟨⟨h5, h4⟩, z, h6, (tau_covers hw hu h4 h5 h6).1 h7⟩

/-- C110: `upper_involution_transitions(r)` yields, in increasing order, the `j > r` up to the rank for which `tau(r, j)` covers the
unsigned involution in the Bruhat order on involutions. -/
theorem C110_upper {w : SPerm} (hw : isInvolution w = true) (hu : isUnsigned w = true) {r : Nat} (hr : 1 ≤ r) :
    ∃ L, upperInvolutionTransitions w r = .ok L ∧ L.Pairwise (· < ·) ∧
      ∀ j, j ∈ L ↔ r < j ∧ j ≤ w.rank ∧ ∃ z, tau? w r j = .ok z ∧ InvolCovers w z := by
  have hmem : ∀ i, i ∈ (List.range (w.rank + 1)).filter (fun i => decide (r + 1 ≤ i)) ↔ i < w.rank + 1 ∧ r + 1 ≤ i := fun i => by
    rw [List.mem_filter, List.mem_range, decide_eq_true_eq]
  obtain ⟨L, h1, h2, h3⟩ := listTransitions_spec (w := w) (f := fun i => tau? w r i)
    (l := (List.range (w.rank + 1)).filter (fun i => decide (r + 1 ≤ i)))
    (fun i hi => by
      obtain ⟨h4, h5⟩ := (hmem i).1 hi
      obtain ⟨z, h6, -⟩ := C110_tau hw hu hr (j := i) (by omega)
      exact ⟨z, h6⟩)
  refine ⟨L, ?_, List.Pairwise.sublist (h2.trans List.filter_sublist) List.pairwise_lt_range, fun i => ?_⟩
  · unfold upperInvolutionTransitions
    rw [if_pos hw, h1]
  · rw [h3, hmem]
    constructor
    · rintro ⟨⟨h4, h5⟩, z, h6, h7⟩
      exact ⟨by omega, by omega, z, h6, (tau_covers hw hu hr (by omega) h6).2 h7⟩
    · rintro ⟨h4, h5, z, h6, h7⟩
      exact ⟨⟨by omega, by omega⟩, z, h6, (tau_covers hw hu hr h4 h6).1 h7⟩

theorem tau_far {w z : SPerm} (hy : Invol w) (hpos : ∀ a : Int, 0 < a → 0 < w.call a) {r j : Nat} (hr : 1 ≤ r) (h1 : w.rank + 1 < j) (h2 : r + 1 < j)
    (h : tau? w r j = .ok z) : z.call j ≤ r ∧ z.call (j - 1 : Nat) = (j - 1 : Nat) := by
  have ho := call_odd w
  have e1 : w.call j = j := ho.out j (by omega)
  have e2 : w.call (j - 1 : Nat) = (j - 1 : Nat) := ho.out _ (by omega)
  obtain ⟨a, ha⟩ : ∃ a : Nat, w.call r = a := ⟨(w.call r).toNat, by have := hpos r (by omega); omega⟩
  have ha' : w.call a = r := by rw [← ha, hy]
  have ha1 := hpos r (by omega)
  rw [ha] at ha1
  have haj : a < j - 1 := by
    by_cases hc : r ≤ w.rank
    · have := ho.bound r (by omega)
      omega
    · have := ho.out r (by omega)
      omega
  unfold tau? at h
  rw [if_pos ⟨hr, by omega⟩, ha, e1] at h
  dsimp only at h
  have hconj : ∀ p : Nat, 1 ≤ p → p < j - 1 → w.call p ≤ r → w.call p ≠ p → z = conjT w p j →
      z.call j ≤ r ∧ z.call (j - 1 : Nat) = (j - 1 : Nat) := by
    intro p hp hpj hle hne he
    have := hpos p (by omega)
    rw [he]
    constructor
    · rw [conjT_call hp (by omega), tFun_right, tFun_of (by omega) hne (by omega)]; exact hle
    · rw [conjT_call hp (by omega), tFun_of (x := ((j - 1 : Nat) : Int)) (by omega) (by omega) (by omega), e2,
        tFun_of (by omega) (by omega) (by omega)]
  rcases lt_trichotomy a r with h3 | h3 | h3
  · rw [if_pos (by omega), (tauT_nat hr (q := j) (by omega)).1] at h
    exact hconj r hr (by omega) (by omega) (by omega) (Except.ok.inj h).symm
  · rw [if_neg (by omega), if_neg (by omega), if_neg (by omega), if_neg (by omega), if_neg (by omega), if_neg (by omega), if_neg (by omega),
      if_pos (by omega), (tauT_nat hr (q := j) (by omega)).1] at h
    rw [← Except.ok.inj h]
    constructor
    · rw [call_mul, e1, call_reflectionT hr (by omega), tFun_right]
    · rw [call_mul, e2, call_reflectionT hr (by omega), tFun_of (by omega) (by omega) (by omega)]
  · rw [if_neg (by omega), if_neg (by omega), if_pos (by omega), (tauT_nat (p := a) (q := j) (by omega) (by omega)).1] at h
    exact hconj a (by omega) (by omega) (by omega) (by omega) (Except.ok.inj h).symm

/-- C110: beyond `j = n + 1`, for a number `n` that is at least the rank and at least `r`, there are no transitions. -/
theorem C110_upper_bound {w z : SPerm} (hw : isInvolution w = true) (hu : isUnsigned w = true) {r j : Nat} (hr : 1 ≤ r) (hj : r < j)
    (h : tau? w r j = .ok z) (hc : InvolCovers w z) : j ≤ max w.rank r + 1 := by
  by_contra hn
  have hy := isInvolution_iff.1 hw
  have hz := isInvolution_iff.1 hc.2.1
  obtain ⟨h1, h2⟩ := tau_far hy (isUnsigned_iff.1 hu) hr (by omega) (by omega) h
  have ho := call_odd w
  have e1 : w.call (j - 1 + 1 : Nat) = (j - 1 + 1 : Nat) := ho.out _ (by omega)
  have e2 : w.call (j - 1 : Nat) = (j - 1 : Nat) := ho.out _ (by omega)
  have hk : 1 ≤ j - 1 := by omega
  have hj1 : j - 1 + 1 = j := by omega
  have d1 : ¬ Desc w.call (j - 1) := (not_desc_iff hk).2 (by rw [e1, e2]; omega)
  have d2 : Desc z.call (j - 1) := by
    by_contra hd
    rw [not_desc_iff hk, h2, hj1] at hd
    omega
  have h3 := (raise_le_of_desc hy hz hc.2.2.1 d1 d2).1
  have h4 := (ilen_mono hy (invStep_involution hz _) h3).2 (by
    have := ilen_lower hz d2
    have := (involCovers_iff hy hz hc.2.2.1).1 hc
    omega)
  have h5 := (raise_call (isUnsigned_iff.1 hu) hk (by rw [e1, e2]; omega)).1 ⟨e2, e1⟩ (j - 1 + 1 : Nat)
  rw [tFun_right, e2, h4, invStep_invStep, hj1] at h5
  omega

/-- C110: the transition `j = n + 1` is left out, against the docstring: for the involution `2, 1` the involution `tau(2, 3)` covers, but
`upper_involution_transitions(2)` yields nothing. -/
theorem C110_upper_misses : ∃ w z : SPerm, isInvolution w = true ∧ isUnsigned w = true ∧ tau? w 2 3 = .ok z ∧ InvolCovers w z ∧
    upperInvolutionTransitions w 2 = .ok [] := by
  obtain ⟨z, h1, -⟩ := C110_tau (y := s 1) (by decide +kernel) (by decide +kernel) (i := 2) (j := 3) (by omega) (by omega)
  refine ⟨s 1, z, by decide +kernel, by decide +kernel, h1, ?_, by decide +kernel⟩
  rw [tau_covers (by decide +kernel) (by decide +kernel) (by omega) (by omega) h1]
  have h2 : (tau? (s 1) 2 3).toOption.map involutionLength = some (involutionLength (s 1) + 1) := by decide +kernel
  rw [h1] at h2
  exact Option.some.inj h2

/-- The involution `2, 1, 4, 3, 5, 7, 6`. -/
example : (construct [2, 1, 4, 3, 5, 7, 6]).map (fun y => (isInvolution y && isUnsigned y, (upperInvolutionTransitions y 2).toOption,
    (lowerInvolutionTransitions y 5).toOption)) = some (true, some [3, 4], some [3, 4]) := by decide +kernel

/-- C110: for other permutations the assertions fail. -/
theorem C110_assertion {w : SPerm} (hw : isInvolution w = false) (r : Nat) :
    upperInvolutionTransitions w r = .error .assertion ∧ lowerInvolutionTransitions w r = .error .assertion := by
  unfold upperInvolutionTransitions lowerInvolutionTransitions
  rw [hw]
  exact ⟨rfl, rfl⟩

end Verif.Perm
