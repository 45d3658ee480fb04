import Verif.Lemmas.MrppComm
import Mathlib.LinearAlgebra.Matrix.NonsingularInverse

/-!
Rows of the vertex model that are inverse to those of reverse plane partitions: they belong to vertical and horizontal
strips.
-/

attribute [-simp] List.getD_eq_getElem?_getD

namespace Verif.Vertex

open Finset

variable {K : Type*} [Field K]

/-- The weights of a vertical strip: `x` for the last box of a column, `x + 1` for the others. -/
def wV (x : K) (a b : Bool) (k : ℕ) : K :=
  if k ≤ b.toNat then (if 0 < k then (if a = true then x + 1 else x) else 1) else 0

/-- The weights of a horizontal strip: `x` for the first box of a row, `x + 1` for the others. -/
def wH (x : K) (a b : Bool) (k : ℕ) : K :=
  if k + a.toNat ≤ 1 then (if 0 < k then (if b = true then x else x + 1) else 1) else 0

/-- What makes the two rows inverse to each other. -/
def InvPair (v : ℕ → ℕ → K) : Prop := ∀ n, v (n + 1) 0 + v n 1 = 0

theorem inv_CV (x : K) (a b : Bool) {v : ℕ → ℕ → K} (hv : InvPair v) :
    InvPair (pairStep (wC (-x)) (wV x) a b v) ∧
      pairStep (wC (-x)) (wV x) a b v 0 0 = if a = b then v 0 0 else 0 := by
  constructor
  · intro n
    have h0 := hv n
    have h1 := hv (n + 1)
    cases a <;> cases b <;> cases n <;> simp [pairStep, wC, wV] at h0 h1 ⊢
    · linear_combination (-x) * h0
    · linear_combination (-x) * h0
    · rename_i n
      have h2 := hv n
      linear_combination (-x) * (x + 1) * h2
    · linear_combination h1
    · linear_combination h1
    · linear_combination (x + 1) * h0
    · linear_combination (x + 1) * h0
  · have h0 := hv 0
    cases a <;> cases b <;> simp [pairStep, wC, wV] at h0 ⊢
    exact h0

theorem inv_RH (x : K) (a b : Bool) {v : ℕ → ℕ → K} (hv : InvPair v) :
    InvPair (pairStep (wR (-x)) (wH x) a b v) ∧
      pairStep (wR (-x)) (wH x) a b v 0 0 = if a = b then v 0 0 else 0 := by
  constructor
  · intro n
    have h0 := hv n
    have h1 := hv (n + 1)
    cases a <;> cases b <;> simp [pairStep, wR, wH] at h0 h1 ⊢
    · linear_combination h0
    · linear_combination h1
  · have h0 := hv 0
    cases a <;> cases b <;> simp [pairStep, wR, wH] at h0 ⊢
    exact h0

theorem lineVal_congr (w : Bool → Bool → ℕ → K) {s t s' t' : Finset ℕ} (f : ℕ → K) {N : ℕ}
    (hs : ∀ q ≤ N, q ∈ s ↔ q ∈ s') (ht : ∀ q ≤ N, q ∈ t ↔ q ∈ t') (k : ℕ) :
    lineVal w s t f N k = lineVal w s' t' f N k := by
  induction N generalizing k with
  | zero => rfl
  | succ N ih =>
    have e1 : decide (N + 1 ∈ s) = decide (N + 1 ∈ s') := by simp [hs (N + 1) le_rfl]
    have e2 : decide (N + 1 ∈ t) = decide (N + 1 ∈ t') := by simp [ht (N + 1) le_rfl]
    rw [lineVal, lineVal, e1, e2, ih (fun q hq => hs q (by omega)) (fun q hq => ht q (by omega))]

/-- Two rows, site by site. -/
def pairVal (P Q : Bool → Bool → ℕ → K) (s t : Finset ℕ) (f g : ℕ → K) : ℕ → ℕ → ℕ → K
  | 0 => fun i m => f i * g m
  | N + 1 => pairStep P Q (decide (N + 1 ∈ s)) (decide (N + 1 ∈ t)) (pairVal P Q s t f g N)

theorem sum_pair (P Q : Bool → Bool → ℕ → K) (s t : Finset ℕ) (f g : ℕ → K) (N : ℕ) (i m : ℕ) :
    ∑ u ∈ (Icc 1 N).powerset, lineVal P s u f N i * lineVal Q u t g N m = pairVal P Q s t f g N i m := by
  induction N generalizing i m with
  | zero => simp [lineVal, pairVal]
  | succ N ih =>
    have hI : Icc 1 (N + 1) = insert (N + 1) (Icc 1 N) := by
      ext a; simp only [mem_Icc, mem_insert]; omega
    have hnot : N + 1 ∉ Icc 1 N := by simp
    rw [hI, sum_powerset_insert hnot, pairVal, pairStep]
    congr 1
    · have e : ∀ u ∈ (Icc 1 N).powerset, lineVal P s u f (N + 1) i * lineVal Q u t g (N + 1) m =
          if (decide (N + 1 ∈ t)).toNat ≤ m then P (decide (N + 1 ∈ s)) false i * Q false (decide (N + 1 ∈ t)) m *
            (lineVal P s u f N (i + (decide (N + 1 ∈ s)).toNat) *
              lineVal Q u t g N (m - (decide (N + 1 ∈ t)).toNat)) else 0 := by
        intro u hu
        have hu' : N + 1 ∉ u := fun h => hnot (mem_powerset.1 hu h)
        rw [lineVal, lineVal]
        simp only [hu', decide_false, Bool.toNat_false, Nat.zero_le, if_true, Nat.sub_zero, Nat.add_zero]
        split_ifs
        · ring
        · ring
      rw [sum_congr rfl e]
      split_ifs
      · rw [← mul_sum, ih]
      · simp
    · have e : ∀ u ∈ (Icc 1 N).powerset, lineVal P s (insert (N + 1) u) f (N + 1) i *
          lineVal Q (insert (N + 1) u) t g (N + 1) m =
          if 1 ≤ i + (decide (N + 1 ∈ s)).toNat then P (decide (N + 1 ∈ s)) true i * Q true (decide (N + 1 ∈ t)) m *
            (lineVal P s u f N (i + (decide (N + 1 ∈ s)).toNat - 1) *
              lineVal Q u t g N (m + 1 - (decide (N + 1 ∈ t)).toNat)) else 0 := by
        intro u hu
        have hc : ∀ q ≤ N, q ∈ insert (N + 1) u ↔ q ∈ u := by
          intro q hq
          rw [mem_insert]
          constructor
          · rintro (rfl | h)
            · omega
            · exact h
          · exact Or.inr
        rw [lineVal, lineVal]
        have ht := Bool.toNat_le (decide (N + 1 ∈ t))
        simp only [mem_insert_self, decide_true, Bool.toNat_true]
        rw [if_pos (show (decide (N + 1 ∈ t)).toNat ≤ m + 1 by omega),
          lineVal_congr P f (fun _ _ => Iff.rfl) hc, lineVal_congr Q g hc (fun _ _ => Iff.rfl)]
        split_ifs
        · ring
        · ring
      rw [sum_congr rfl e]
      split_ifs
      · rw [← mul_sum, ih]
      · simp

open scoped Classical in
theorem pairVal_inv {P Q : Bool → Bool → ℕ → K} (hPQ : ∀ a b v, InvPair v → InvPair (pairStep P Q a b v) ∧
      pairStep P Q a b v 0 0 = if a = b then v 0 0 else 0) (s t : Finset ℕ) {f g : ℕ → K}
    (hfg : InvPair (fun i m => f i * g m)) (h0 : f 0 * g 0 = 1) (N : ℕ) :
    InvPair (pairVal P Q s t f g N) ∧
      pairVal P Q s t f g N 0 0 = if ∀ q ∈ Icc 1 N, (q ∈ s ↔ q ∈ t) then 1 else 0 := by
  induction N with
  | zero => exact ⟨hfg, by simpa [pairVal] using h0⟩
  | succ N ih =>
    obtain ⟨h1, h2⟩ := hPQ (decide (N + 1 ∈ s)) (decide (N + 1 ∈ t)) _ ih.1
    refine ⟨h1, ?_⟩
    rw [pairVal, h2, ih.2]
    have hiff : (∀ q ∈ Icc 1 (N + 1), (q ∈ s ↔ q ∈ t)) ↔ ((N + 1 ∈ s ↔ N + 1 ∈ t) ∧ ∀ q ∈ Icc 1 N, (q ∈ s ↔ q ∈ t)) := by
      constructor
      · intro h
        exact ⟨h _ (by simp), fun q hq => h q (by rw [mem_Icc] at hq ⊢; omega)⟩
      · rintro ⟨h3, h4⟩ q hq
        by_cases hqN : q = N + 1
        · rw [hqN]; exact h3
        · exact h4 q (by rw [mem_Icc] at hq ⊢; omega)
    by_cases h3 : (N + 1 ∈ s ↔ N + 1 ∈ t)
    · rw [if_pos (by simpa using h3)]
      by_cases h4 : ∀ q ∈ Icc 1 N, (q ∈ s ↔ q ∈ t)
      · rw [if_pos h4, if_pos (hiff.2 ⟨h3, h4⟩)]
      · rw [if_neg h4, if_neg (fun h => h4 (hiff.1 h).2)]
    · rw [if_neg (by simpa using h3), if_neg (fun h => h3 (hiff.1 h).1)]

theorem invPair_pow (x : K) : InvPair (fun i m => (-x) ^ i * x ^ m) := by
  intro n
  simp only [pow_succ, pow_zero]
  ring

theorem invPair_dlt : InvPair (fun i m => (dlt i : K) * dlt m) := by
  intro n
  simp [dlt]

theorem sum_CV (x : K) (dn : Bool) {s t : Finset ℕ} {N : ℕ} (hs : s ⊆ Icc 1 N) (ht : t ⊆ Icc 1 N) :
    ∑ u ∈ (Icc 1 N).powerset, lineVal (wC (-x)) s u (if dn = true then ((-x) ^ ·) else dlt) N 0 *
      lineVal (wV x) u t (if dn = true then (x ^ ·) else dlt) N 0 = if s = t then 1 else 0 := by
  rw [sum_pair, (pairVal_inv (fun a b v hv => inv_CV x a b hv) s t ?_ ?_ N).2]
  · have : (∀ q ∈ Icc 1 N, (q ∈ s ↔ q ∈ t)) ↔ s = t := by
      constructor
      · intro h
        ext q
        by_cases hq : q ∈ Icc 1 N
        · exact h q hq
        · exact ⟨fun h' => absurd (hs h') hq, fun h' => absurd (ht h') hq⟩
      · rintro rfl q _; exact Iff.rfl
    simp only [this]
  · cases dn
    · simpa using invPair_dlt
    · simpa using invPair_pow x
  · cases dn <;> simp [dlt]

theorem sum_RH (x : K) {s t : Finset ℕ} {N : ℕ} (hs : s ⊆ Icc 1 N) (ht : t ⊆ Icc 1 N) :
    ∑ u ∈ (Icc 1 N).powerset, lineVal (wR (-x)) s u ((-x) ^ ·) N 0 * lineVal (wH x) u t (x ^ ·) N 0 =
      if s = t then 1 else 0 := by
  rw [sum_pair, (pairVal_inv (fun a b v hv => inv_RH x a b hv) s t (invPair_pow x) (by simp) N).2]
  have : (∀ q ∈ Icc 1 N, (q ∈ s ↔ q ∈ t)) ↔ s = t := by
    constructor
    · intro h
      ext q
      by_cases hq : q ∈ Icc 1 N
      · exact h q hq
      · exact ⟨fun h' => absurd (hs h') hq, fun h' => absurd (ht h') hq⟩
    · rintro rfl q _; exact Iff.rfl
  simp only [this]

end Verif.Vertex
