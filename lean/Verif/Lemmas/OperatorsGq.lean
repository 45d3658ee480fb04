import Verif.Lemmas.OperatorsMoves

/-! The operators AL and AR give the functions GQ. -/

attribute [-simp] List.getD_eq_getElem?_getD

namespace Verif.Operators

open Verif.Part Partition Dualops Tab Tableaux Symm

section

variable {R A : Type*} [CommRing R] [DecidableEq R] [CommRing A]

theorem operatorAL_spec (φ : R →+* A) (beta y : R) (k n : Nat) (hk : k % 2 = 0) {v : Vec (List Nat) R} (hv : StrictKeys v)
    (hz : Vec.NoZero v) : ∃ w, operatorAL beta n y (.res (some v)) = some (some w) ∧ StrictKeys w ∧ Vec.NoZero w ∧
      ∀ nu, IsStrict nu → nu.headD 0 ≤ n + 1 → scaled φ beta w.get nu =
        ∑ m ∈ barMoves qRules k nu, φ (beta * y) ^ m.2.card * scaled φ beta v.get m.1 := by
  obtain ⟨w, h1, h2⟩ := addLoop_all φ beta y k n (l := List.range (n + 1))
    (by rw [List.range_eq_range']; exact okList_up hk _ 0 _ (fun j h => absurd h (by simp)))
    (fun j => by rw [List.mem_range]; omega) hv hz
  refine ⟨w, ?_, h2⟩
  change ((List.range (n + 1)).foldlM (addLoopStep beta y) v).map some = _
  rw [h1]
  rfl

theorem operatorAR_spec (φ : R →+* A) (beta y : R) (k n : Nat) (hk : k % 2 = 1) {v : Vec (List Nat) R} (hv : StrictKeys v)
    (hz : Vec.NoZero v) : ∃ w, operatorAR beta n y (.res (some v)) = some (some w) ∧ StrictKeys w ∧ Vec.NoZero w ∧
      ∀ nu, IsStrict nu → nu.headD 0 ≤ n + 1 → scaled φ beta w.get nu =
        ∑ m ∈ barMoves qRules k nu, φ (beta * y) ^ m.2.card * scaled φ beta v.get m.1 := by
  obtain ⟨w, h1, h2⟩ := addLoop_all φ beta y k n (l := (List.range (n + 1)).reverse)
    (okList_down hk _ _ (fun j h => absurd h (by simp)))
    (fun j => by rw [List.mem_reverse, List.mem_range]; omega) hv hz
  refine ⟨w, ?_, h2⟩
  change (((List.range (n + 1)).reverse).foldlM (addLoopStep beta y) v).map some = _
  rw [h1]
  rfl

theorem headD_le {mu nu : List Nat} (h : ShiftedDiagram mu ⊆ ShiftedDiagram nu) : mu.headD 0 ≤ nu.headD 0 := by
  have := shiftedDiagram_subset.1 h 0
  have h0 : ∀ l : List Nat, l.getD 0 0 = l.headD 0 := fun l => by cases l <;> rfl
  rw [h0, h0] at this
  exact this

theorem strictKeys_single {mu : List Nat} (hm : IsStrict mu) (c : R) : StrictKeys (single mu c) := by
  refine strict_of_get (noZero_single mu c) (fun nu h => ?_)
  rw [get_single] at h
  by_cases he : mu = nu
  · rw [← he]
    exact hm
  · rw [if_neg he] at h
    exact absurd rfl h

/-- One variable after the others. -/
def applyA (beta : R) (n : Nat) (r : Res R) (y : R) : Option (Res R) :=
  (operatorAR beta n y (.res r)).bind (fun s => operatorAL beta n y (.res s))

theorem applyA_iter (φ : R →+* A) (beta : R) (n : Nat) {mu : List Nat} (hm : IsStrict mu) (y : Nat → R) (m : Nat) :
    ∃ w, ((List.range m).map y).foldlM (applyA beta n) (some (single mu 1)) = some (some w) ∧ StrictKeys w ∧
      Vec.NoZero w ∧ ∀ nu, IsStrict nu → nu.headD 0 ≤ n + 1 → scaled φ beta w.get nu =
        φ beta ^ mu.sum * barGen qRules (2 * m) nu mu (fun k => φ (beta * y (k / 2))) := by
  induction m with
  | zero =>
    refine ⟨_, rfl, strictKeys_single hm 1, noZero_single mu 1, fun nu hn _ => ?_⟩
    rw [Nat.mul_zero, barGen_zero (R := qRules) hn hm, scaled, get_single]
    by_cases h : mu = nu
    · rw [if_pos h, if_pos h.symm, h, map_one]
    · rw [if_neg h, if_neg (fun hc => h hc.symm), map_zero, mul_zero, mul_zero]
  | succ m ih =>
    obtain ⟨w, h1, h2, h3, h4⟩ := ih
    obtain ⟨u, u1, u2, u3, u4⟩ := operatorAR_spec φ beta (y m) (2 * m + 1) n (by omega) h2 h3
    obtain ⟨t, t1, t2, t3, t4⟩ := operatorAL_spec φ beta (y m) (2 * m + 2) n (by omega) u2 u3
    refine ⟨t, ?_, t2, t3, fun nu hn hle => ?_⟩
    · rw [List.range_succ, List.map_append, List.foldlM_append, h1]
      change List.foldlM (applyA beta n) (some w) [y m] = _
      rw [List.foldlM_cons, applyA, u1]
      change (operatorAL beta n (y m) (.res (some u))).bind _ = _
      rw [t1]
      rfl
    · rw [t4 nu hn hle, show 2 * (m + 1) = (2 * m + 1) + 1 by ring,
        barGen_succ (R := qRules) (markRules_inj _ _ _) rfl (2 * m + 1) hn hm, Finset.mul_sum]
      refine Finset.sum_congr rfl (fun b hb => ?_)
      have hb := mem_barMoves.1 hb
      have hb1 : IsStrict b.1 := hb.shape
      have hb2 : b.1.headD 0 ≤ n + 1 := (headD_le hb.sub).trans hle
      rw [u4 b.1 hb1 hb2, barGen_succ (R := qRules) (markRules_inj _ _ _) rfl (2 * m) hb1 hm, Finset.mul_sum, Finset.mul_sum,
        Finset.mul_sum]
      refine Finset.sum_congr rfl (fun c hc => ?_)
      have hc := mem_barMoves.1 hc
      rw [h4 c.1 hc.shape ((headD_le hc.sub).trans hb2)]
      rw [show (2 * m + 1) / 2 = m by omega, show 2 * m / 2 = m by omega]
      ring

end

theorem applyA_gq (n : Nat) {mu : List Nat} (hm : IsStrict mu) (x : Int → Poly) (m : Nat) :
    ∃ w, ((List.range m).map (fun i : Nat => PolyVal.mk (x ((i : Int) + 1)))).foldlM (applyA (PolyVal.mk Poly.beta) n)
        (some (single mu 1)) = some (some w) ∧ StrictKeys w ∧ Vec.NoZero w ∧
      ∀ nu, IsStrict nu → nu.headD 0 ≤ n + 1 → ∃ f, stableGrothendieckQDoublebar m nu mu none = some f ∧
        w.get nu = polynomial x m f := by
  obtain ⟨w, h1, h2, h3, h4⟩ := applyA_iter PolyVal.denHom (PolyVal.mk Poly.beta) n hm
    (fun i : Nat => PolyVal.mk (x ((i : Int) + 1))) m
  refine ⟨w, h1, h2, h3, fun nu hn hle => ?_⟩
  obtain ⟨f, hf, e⟩ := bar_den q_family isBar_q m hn hm
  refine ⟨f, hf, PolyVal.den_injective ?_⟩
  have h5 := h4 nu hn hle
  have hb : PolyVal.denHom (PolyVal.mk Poly.beta) = Laurent.xpow 0 1 := den_beta
  have hfun : (fun k => PolyVal.denHom (PolyVal.mk Poly.beta * PolyVal.mk (x (((k / 2 : Nat) : Int) + 1)))) =
      fun k => Laurent.xpow 0 1 * xden x (k / 2 + 1) := by
    funext k
    rw [map_mul, hb, xden]
    push_cast
    rfl
  rw [scaled, hb, ← xpow_nat, ← xpow_nat, hfun] at h5
  rw [e x]
  have h6 := congrArg (fun t => Laurent.xpow 0 (-(nu.sum : Int)) * t) h5
  rw [← mul_assoc, ← mul_assoc, xpow_zero_add, xpow_zero_add, neg_add_cancel, show -(nu.sum : Int) + mu.sum = mu.sum - nu.sum by ring]
    at h6
  rw [← h6]
  have h0 : Laurent.xpow 0 0 = 1 := by
    have := xpow_nat 0
    rw [pow_zero] at this
    exact this
  rw [h0, one_mul]
  rfl

end Verif.Operators
