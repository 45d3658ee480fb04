import Verif.Lemmas.Rref
import Mathlib.Algebra.BigOperators.Fin
import Mathlib.Algebra.BigOperators.Ring.Finset
import Mathlib.Tactic.LinearCombination

/-! `Vector.is_expressable` decides membership in the rational span. -/

attribute [-simp] List.getD_eq_getElem?_getD

namespace Verif.Rref

open Verif.LinAlg Finset

/-- The dot product of the first `n` entries. -/
def dot (n : Nat) (r x : ℕ → ℚ) : ℚ := ∑ c ∈ range n, r c * x c

theorem dot_zero_of_span {n : Nat} {M N : ℕ → ℕ → ℤ} (h : rowSpan M = rowSpan N) {x : ℕ → ℚ}
    (hN : ∀ t, dot n (fun j => (N t j : ℚ)) x = 0) (t : ℕ) : dot n (fun j => (M t j : ℚ)) x = 0 := by
  have hm : (fun j => (M t j : ℚ)) ∈ rowSpan N := h ▸ mem_rowSpan M t
  rw [rowSpan] at hm
  refine Submodule.span_induction (p := fun r _ => dot n r x = 0) ?_ ?_ ?_ ?_ hm
  · rintro _ ⟨s, rfl⟩; exact hN s
  · simp [dot]
  · intro r s _ _ hr hs
    simp only [dot, Pi.add_apply, add_mul, sum_add_distrib] at *
    rw [hr, hs, add_zero]
  · intro a r _ hr
    simp only [dot, Pi.smul_apply, smul_eq_mul, mul_assoc] at *
    rw [← mul_sum, hr, mul_zero]

/-- Back substitution. -/
theorem back_substitution {n k : Nat} {M : ℕ → ℕ → ℤ} {p : ℕ → ℕ} (hm : ∀ s t, s < t → t < k → p s < p t)
    (hp : ∀ t, t < k → p t < n) (hl : ∀ t, t < k → 0 < M t (p t) ∧ ∀ c, c < p t → M t c = 0) :
    ∀ d, d ≤ k → ∃ x : ℕ → ℚ, x n = -1 ∧ ∀ t, k - d ≤ t → t < k → dot (n + 1) (fun j => (M t j : ℚ)) x = 0
  | 0, _ => ⟨fun _ => -1, rfl, by omega⟩
  | d + 1, hd => by
    obtain ⟨x, hx, h⟩ := back_substitution hm hp hl d (by omega)
    obtain ⟨s, hs⟩ : ∃ s, k - (d + 1) = s := ⟨_, rfl⟩
    have hsk : s < k := by omega
    have hps := hp s hsk
    have hpos : (M s (p s) : ℚ) ≠ 0 := by exact_mod_cast (hl s hsk).1.ne'
    obtain ⟨y, hy⟩ : ∃ y : ℚ, y = x (p s) - dot (n + 1) (fun j => (M s j : ℚ)) x / M s (p s) := ⟨_, rfl⟩
    have hdot : ∀ r : ℕ → ℚ, dot (n + 1) r (Function.update x (p s) y) =
        dot (n + 1) r x + r (p s) * (y - x (p s)) := by
      intro r
      rw [dot, dot, ← Finset.add_sum_erase _ _ (mem_range.2 (by omega : p s < n + 1)),
        ← Finset.add_sum_erase (range (n + 1)) (fun c => r c * x c) (mem_range.2 (by omega : p s < n + 1))]
      have : ∑ c ∈ (range (n + 1)).erase (p s), r c * Function.update x (p s) y c =
          ∑ c ∈ (range (n + 1)).erase (p s), r c * x c := by
        refine sum_congr rfl (fun c hc => ?_)
        rw [Function.update_of_ne (ne_of_mem_erase hc)]
      rw [this, Function.update_self]
      ring
    refine ⟨Function.update x (p s) y, ?_, ?_⟩
    · rw [Function.update_of_ne (by omega)]; exact hx
    · intro t ht htk
      rw [hdot]
      by_cases hts : t = s
      · subst hts
        rw [hy]
        field_simp
        ring
      · have h0 : M t (p s) = 0 := (hl t htk).2 _ (hm s t (by omega) htk)
        rw [h t (by omega) htk, h0]
        simp

theorem pivot_eq {n : Nat} {row : List Int} {c : Nat} :
    pivot n row = some c ↔ c < n ∧ row.getD c 0 ≠ 0 ∧ ∀ d, d < c → row.getD d 0 = 0 := by
  rw [pivot]
  induction n with
  | zero => simp
  | succ n ih =>
    rw [List.range_succ, List.find?_append, Option.or_eq_some_iff, ih]
    constructor
    · rintro (⟨h1, h2, h3⟩ | ⟨h1, h2⟩)
      · exact ⟨by omega, h2, h3⟩
      · rw [List.find?_eq_none] at h1
        rw [List.find?_singleton] at h2
        split at h2
        · rename_i h0
          have : c = n := by simpa using h2.symm
          subst this
          refine ⟨by omega, by simpa using h0, ?_⟩
          intro d hd
          have := h1 d (List.mem_range.2 hd)
          simpa using this
        · simp at h2
    · rintro ⟨h1, h2, h3⟩
      by_cases hc : c < n
      · exact Or.inl ⟨hc, h2, h3⟩
      · have : c = n := by omega
        subst this
        refine Or.inr ⟨?_, ?_⟩
        · rw [List.find?_eq_none]
          intro d hd
          simp [h3 d (List.mem_range.1 hd)]
        · rw [List.find?_singleton, if_pos (by simpa using h2)]

variable {K : Type*} [LinearOrder K]

theorem mem_keylist {v : Vec K Int} {args : List (Vec K Int)} {k : K} :
    k ∈ keylist v args ↔ k ∈ v.dict.keys ∨ ∃ a ∈ args, k ∈ a.dict.keys := by
  rw [keylist, List.mem_insertionSort, List.mem_dedup, List.mem_append, List.mem_flatMap]

theorem rect_matrixOf (v : Vec K Int) (args : List (Vec K Int)) : Rect (args.length + 1) (matrixOf v args) := by
  intro t ht
  rw [List.getD_eq_getElem _ _ ht]
  simp [matrixOf]

theorem get_of_not_mem {v : Vec K Int} {k : K} (h : k ∉ v.dict.keys) : v.get k = 0 := by
  rw [Vec.get, Dict.getD, Dict.get?_eq_none.2 h]; rfl

theorem at'_matrixOf (v : Vec K Int) (args : List (Vec K Int)) {t : Nat} (ht : t < (keylist v args).length) (c : Nat) :
    at' (matrixOf v args) t c = (args.map (fun a => a.get (keylist v args)[t]) ++ [v.get (keylist v args)[t]]).getD c 0 := by
  have h : (matrixOf v args).getD t [] = args.map (fun a => a.get (keylist v args)[t]) ++ [v.get (keylist v args)[t]] := by
    rw [matrixOf, List.getD_eq_getElem _ _ (by simpa using ht), List.getElem_map]
  rw [at', h]

/-- The equation of a row of the matrix. -/
theorem dot_row (v : Vec K Int) (args : List (Vec K Int)) (k : K) (x : ℕ → ℚ) (hx : x args.length = -1) :
    dot (args.length + 1) (fun j => (((args.map (fun a => a.get k) ++ [v.get k]).getD j 0 : Int) : ℚ)) x = 0 ↔
      (v.get k : ℚ) = ∑ j : Fin args.length, x j * ((args[j]).get k : ℚ) := by
  rw [dot, sum_range_succ, ← Fin.sum_univ_eq_sum_range
    (fun j => (((args.map (fun a => a.get k) ++ [v.get k]).getD j 0 : Int) : ℚ) * x j) args.length]
  have h1 : (args.map (fun a => a.get k) ++ [v.get k]).getD args.length 0 = v.get k := by
    rw [List.getD_eq_getElem _ _ (by simp)]
    simp
  have h2 : ∀ j : Fin args.length, (args.map (fun a => a.get k) ++ [v.get k]).getD j 0 = (args[j]).get k := by
    intro j
    have := j.2
    rw [List.getD_eq_getElem _ _ (by simp; omega), List.getElem_append_left (by simp)]
    simp
  simp only [h1, h2, hx]
  have h3 : ∑ j : Fin args.length, ((args[j]).get k : ℚ) * x j = ∑ j : Fin args.length, x j * ((args[j]).get k : ℚ) :=
    sum_congr rfl (fun j _ => mul_comm _ _)
  rw [h3]
  constructor
  · intro h; linear_combination -h
  · intro h; linear_combination -h

theorem kernel_iff (v : Vec K Int) (args : List (Vec K Int)) (x : ℕ → ℚ) (hx : x args.length = -1) :
    (∀ t, dot (args.length + 1) (fun j => (at' (matrixOf v args) t j : ℚ)) x = 0) ↔
      ∀ k, (v.get k : ℚ) = ∑ j : Fin args.length, x j * ((args[j]).get k : ℚ) := by
  constructor
  · intro h k
    by_cases hk : k ∈ keylist v args
    · obtain ⟨t, ht, rfl⟩ := List.mem_iff_getElem.1 hk
      have := h t
      simp only [at'_matrixOf v args ht] at this
      exact (dot_row v args _ x hx).1 this
    · rw [mem_keylist, not_or] at hk
      rw [get_of_not_mem hk.1]
      symm
      rw [Int.cast_zero]
      refine sum_eq_zero (fun j _ => ?_)
      rw [get_of_not_mem (fun h => hk.2 ⟨args[j], List.getElem_mem _, h⟩)]
      simp
  · intro h t
    by_cases ht : t < (keylist v args).length
    · simp only [at'_matrixOf v args ht]
      exact (dot_row v args _ x hx).2 (h _)
    · have : ∀ j, at' (matrixOf v args) t j = 0 := fun j => at'_of_le (by simp [matrixOf]; omega) j
      simp [dot, this]

/-- `is_expressable` returns true iff the vector is a rational linear combination of the arguments. -/
theorem isExpressable_spec (v : Vec K Int) (args : List (Vec K Int)) : ∃ b, isExpressable v args = some b ∧
    (b = true ↔ ∃ c : Fin args.length → ℚ, ∀ k, (v.get k : ℚ) = ∑ j, c j * ((args[j]).get k : ℚ)) := by
  obtain ⟨mat, row, p, h1, h2, h3, h4, h5, h6, h7, h8, h9⟩ := rref_spec (rect_matrixOf v args)
  refine ⟨_, by rw [isExpressable, h1], ?_⟩
  rw [Bool.not_eq_true', ← Bool.not_eq_true, List.contains_iff_mem]
  have hpiv : args.length ∈ mat.filterMap (pivot (args.length + 1)) ↔ ∃ t, t < row ∧ p t = args.length := by
    rw [List.mem_filterMap]
    constructor
    · rintro ⟨r, hr, hp⟩
      obtain ⟨t, ht, rfl⟩ := List.mem_iff_getElem.1 hr
      rw [pivot_eq, ← List.getD_eq_getElem mat [] ht] at hp
      obtain ⟨q1, q2, q3⟩ := hp
      have htr : t < row := by
        by_contra hn
        exact q2 (h9 t (by omega) _)
      refine ⟨t, htr, ?_⟩
      have := h7 t htr
      by_contra hne
      exact (h8 t htr).1.ne' (q3 (p t) (by omega))
    · rintro ⟨t, ht, hp⟩
      refine ⟨mat.getD t [], ?_, ?_⟩
      · rw [List.getD_eq_getElem _ _ (by omega : t < mat.length)]; exact List.getElem_mem _
      · rw [pivot_eq]
        have := h8 t ht
        rw [hp] at this
        exact ⟨by omega, this.1.ne', this.2⟩
  rw [hpiv]
  constructor
  · intro hno
    obtain ⟨x, hx, hsol⟩ := back_substitution (n := args.length) (k := row) (M := at' mat) (p := p) h6
      (fun t ht => by
        have := h7 t ht
        by_contra hn
        exact hno ⟨t, ht, by omega⟩) h8 row (le_refl _)
    have hall : ∀ t, dot (args.length + 1) (fun j => (at' mat t j : ℚ)) x = 0 := by
      intro t
      by_cases ht : t < row
      · exact hsol t (by omega) ht
      · simp [dot, h9 t (by omega)]
    have := (kernel_iff v args x hx).1 (dot_zero_of_span h4.symm hall)
    exact ⟨fun j => x j, this⟩
  · rintro ⟨c, hc⟩ ⟨t, ht, hp⟩
    obtain ⟨x, hxd⟩ : ∃ x : ℕ → ℚ, x = fun j => if h : j < args.length then c ⟨j, h⟩ else -1 := ⟨_, rfl⟩
    have hx : x args.length = -1 := by simp [hxd]
    have hxj : ∀ j : Fin args.length, x j = c j := by intro j; simp [hxd]
    have := (kernel_iff v args x hx).2 (by intro k; simp only [hxj]; exact hc k)
    have h0 := dot_zero_of_span h4 this t
    have h10 := h8 t ht
    rw [hp] at h10
    rw [dot, sum_range_succ, hx, sum_eq_zero (fun j hj => by rw [h10.2 j (mem_range.1 hj)]; simp)] at h0
    have : (at' mat t args.length : ℚ) = 0 := by linear_combination -h0
    have : at' mat t args.length = 0 := by exact_mod_cast this
    omega

end Verif.Rref
