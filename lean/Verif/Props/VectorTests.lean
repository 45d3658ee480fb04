import Verif.Model.VectorTests
import Verif.Props.Vector
import Mathlib.Tactic.Linarith

/-! # C132: tests and integer division of vectors -/

namespace Verif

open Vec

variable {K R : Type*} [DecidableEq K] [CommRing R] [DecidableEq R]

/-- C132: `is_singleton()` is True exactly for the vectors of the form `base(k)`. -/
theorem C132_singleton [Nontrivial R] {u : Vec K R} (hu : NoZero u) :
    isSingleton u = true ↔ ∃ k, ∀ k', u.get k' = if k' = k then 1 else 0 := by
  constructor
  · intro h
    rw [isSingleton] at h
    split_ifs at h with h1
    have h1 : u.dict.items.length = 1 := not_not.1 h1
    obtain ⟨⟨k, c⟩, hl⟩ := List.length_eq_one_iff.1 h1
    have h2 := of_decide_eq_true h
    rw [Dict.values, hl] at h2
    have hc : c = 1 := by simpa using h2
    subst hc
    refine ⟨k, fun k' => ?_⟩
    split_ifs with hk
    · subst hk
      exact Dict.getD_of_mem (p := (k', 1)) (by rw [hl]; exact List.mem_singleton_self _)
    · apply get_of_notMem
      rw [Dict.keys, hl]
      simpa using hk
  · rintro ⟨k, hk⟩
    have hkeys : ∀ k', k' ∈ u.dict.keys ↔ k' = k := by
      intro k'
      rw [mem_keys_iff hu, hk]
      by_cases h : k' = k <;> simp [h]
    have hl : u.dict.keys = [k] := by
      apply List.perm_singleton.1
      refine (List.perm_ext_iff_of_nodup u.dict.nodup (List.nodup_singleton k)).2 ?_
      intro a
      exact (hkeys a).trans List.mem_singleton.symm
    have hi : u.dict.items = [(k, 1)] := by
      have h1 := hk k
      rw [if_pos rfl, Vec.get] at h1
      rw [Dict.items_eq_map u.dict 0, hl, List.map_singleton, h1]
    simp [isSingleton, Dict.len, Dict.values, hi]

/-- C132: `is_nonnegative()` is True exactly when no coefficient is negative, `is_positive()` when moreover some coefficient is positive. -/
theorem C132_nonnegative {u : Vec K ℤ} (hu : NoZero u) :
    (isNonnegative u = true ↔ ∀ k, 0 ≤ u.get k) ∧
    (isPositive u = true ↔ (∀ k, 0 ≤ u.get k) ∧ ∃ k, 0 < u.get k) := by
  have h1 : isNonnegative u = true ↔ ∀ k, 0 ≤ u.get k := by
    rw [isNonnegative, List.all_eq_true]
    constructor
    · intro h k
      by_cases hk : k ∈ u.dict.keys
      · obtain ⟨v, hv⟩ := Dict.mem_keys.1 hk
        have hm := Dict.get?_eq_some.1 hv
        have := of_decide_eq_true (h v (List.mem_map.2 ⟨(k, v), hm, rfl⟩))
        rw [Vec.get, Dict.getD_of_get? hv]
        exact this.le
      · rw [get_of_notMem hk]
    · intro h v hv
      obtain ⟨⟨k, v'⟩, hm, rfl⟩ := List.mem_map.1 hv
      have h2 := h k
      have h3 := hu k v' (Dict.get?_eq_some.2 hm)
      rw [Vec.get, Dict.getD_of_mem hm] at h2
      exact decide_eq_true (lt_of_le_of_ne h2 (Ne.symm h3))
  refine ⟨h1, ?_⟩
  rw [isPositive, Bool.and_eq_true, h1, Bool.not_eq_true', ← Bool.not_eq_true, (C11_len u hu).2]
  constructor
  · rintro ⟨h2, h3⟩
    push Not at h2
    obtain ⟨k, hk⟩ := h2
    exact ⟨h3, k, lt_of_le_of_ne (h3 k) (Ne.symm hk)⟩
  · rintro ⟨h2, k, hk⟩
    exact ⟨fun h => by rw [h k] at hk; exact lt_irrefl _ hk, h2⟩

/-- `q` is `x / d` rounded down. -/
def IsFloorDiv (x d q : ℤ) : Prop := (0 < d ∧ d * q ≤ x ∧ x < d * (q + 1)) ∨ (d < 0 ∧ d * (q + 1) < x ∧ x ≤ d * q)

theorem isFloorDiv_fdiv (x : ℤ) {d : ℤ} (hd : d ≠ 0) : IsFloorDiv x d (Int.fdiv x d) := by
  rcases lt_or_gt_of_ne hd with h | h
  · right
    have e : Int.fdiv x d = (-x) / (-d) := by
      rw [← Int.fdiv_eq_ediv_of_nonneg _ (by omega), Int.neg_fdiv_neg]
    have h1 := Int.mul_ediv_add_emod (-x) (-d)
    have h2 := Int.emod_nonneg (-x) (b := -d) (by omega)
    have h3 := Int.emod_lt_of_pos (-x) (b := -d) (by omega)
    rw [e]
    refine ⟨h, ?_, ?_⟩ <;> nlinarith
  · left
    rw [Int.fdiv_eq_ediv_of_nonneg _ h.le]
    have h1 := Int.mul_ediv_add_emod x d
    have h2 := Int.emod_nonneg x hd
    have h3 := Int.emod_lt_of_pos x h
    refine ⟨h, ?_, ?_⟩ <;> nlinarith

/-- C132: `u // d` divides each coefficient by `d`, rounding down; it stores no zeros, and it raises only for `d = 0` and nonzero `u`. -/
theorem C132_floordiv {u : Vec K ℤ} (hu : NoZero u) (d : ℤ) :
    (d ≠ 0 → ∃ w, floordiv u d = some w ∧ NoZero w ∧ ∀ k, IsFloorDiv (u.get k) d (w.get k)) ∧
    (floordiv u 0 = none ↔ ∃ k, u.get k ≠ 0) := by
  constructor
  · intro hd
    refine ⟨_, by rw [floordiv, if_neg (fun h => hd h.1)], noZero_mk' _ _, fun k => ?_⟩
    rw [get_mk', Vec.get, Dict.getD, Dict.getD, Dict.get?_mapVal]
    cases u.dict.get? k with
    | none => exact Int.zero_fdiv d ▸ isFloorDiv_fdiv 0 hd
    | some v => exact isFloorDiv_fdiv v hd
  · rw [floordiv]
    by_cases h : u.dict.items = []
    · rw [if_neg (fun h' => h'.2 h)]
      simp only [reduceCtorEq, false_iff, not_exists, not_not]
      exact get_of_len_zero (len_eq_zero.2 h)
    · rw [if_pos ⟨rfl, h⟩]
      simp only [true_iff]
      by_contra hc
      push Not at hc
      exact h (len_eq_zero.1 ((len_zero_iff hu).2 hc))

/-- C132: `(u * d) // d` is `u` again. -/
theorem C132_mul_floordiv (u : Vec K ℤ) {d : ℤ} (hd : d ≠ 0) :
    ∃ w, floordiv (smul u d) d = some w ∧ ∀ k, w.get k = u.get k := by
  obtain ⟨w, h1, _, h2⟩ := (C132_floordiv (u := smul u d) (noZero_mk' _ _) d).1 hd
  refine ⟨w, h1, fun k => ?_⟩
  have h3 := h2 k
  rw [get_smul] at h3
  rcases h3 with ⟨h4, h5, h6⟩ | ⟨h4, h5, h6⟩
  · have a : w.get k ≤ u.get k := le_of_mul_le_mul_left (by linarith) h4
    have b : u.get k < w.get k + 1 := lt_of_mul_lt_mul_left (by linarith) h4.le
    omega
  · have a : w.get k ≤ u.get k := by nlinarith
    have b : u.get k < w.get k + 1 := by nlinarith
    omega

example : isSingleton (base "a" : Vec String ℤ) = true ∧ isSingleton (smul (base "a") 2 : Vec String ℤ) = false ∧
    isSingleton sampleVec = false := by decide
example : isNonnegative sampleVec = false ∧ isNonnegative (add sampleVec (base "b")) = true ∧
    isPositive (add sampleVec (base "b")) = true ∧ isPositive (smul sampleVec 0) = false := by decide
example : (floordiv sampleVec 2).map (fun w => (w.get "a", w.get "b")) = some (1, -1) ∧ (floordiv sampleVec 0).isNone = true ∧
    (floordiv sampleVec (-2)).map (fun w => (w.get "a", w.get "b", w.len)) = some (-2, 0, 1) := by decide

end Verif
