import Mathlib.Algebra.Field.Basic
import Mathlib.Algebra.Module.LinearMap.Defs
import Mathlib.Algebra.Module.Pi
import Mathlib.Tactic.Ring
import Mathlib.Tactic.LinearCombination
import Mathlib.Tactic.FieldSimp

/-!
Two rows of a vertex model and the operators that exchange them.

A row is a weight `w a b k` for every site: `a` and `b` say if the site is occupied above and below the row, `k` is the
flow that comes in; `k + a - b` goes out and may not be negative.
-/

namespace Verif.Vertex

variable {K : Type*} [Field K]

/-- The weights that count columns. -/
def wC (x : K) (a _b : Bool) (k : Nat) : K := if a = false ∧ 0 < k then x else 1

/-- The weights that count rows. -/
def wR (x : K) (_a b : Bool) (k : Nat) : K := if b = true ∧ 0 < k then x else 1

/-- One site of two rows. -/
def pairStep (P Q : Bool → Bool → Nat → K) (a b : Bool) (v : Nat → Nat → K) (i m : Nat) : K :=
  (if b.toNat ≤ m then P a false i * Q false b m * v (i + a.toNat) (m - b.toNat) else 0) +
  (if 1 ≤ i + a.toNat then P a true i * Q true b m * v (i + a.toNat - 1) (m + 1 - b.toNat) else 0)

/-! ### two rows that count columns -/

/-- `sum_{j > i} (1-x)^(j-i-1) v(j, i+m-j)` -/
def ccSum (x : K) (v : Nat → Nat → K) : Nat → Nat → K
  | _, 0 => 0
  | i, m + 1 => v (i + 1) m + (1 - x) * ccSum x v (i + 1) m

def ccOp (x y : K) (v : Nat → Nat → K) (i m : Nat) : K := (x / y) ^ i * (v i m + (y - x) / y * ccSum x v i m)

variable (x y : K) (v : Nat → Nat → K)

theorem ccSum_00 (m i : Nat) : ccSum x (pairStep (wC y) (wC x) false false v) i (m + 1) =
    y * (v i (m + 1) + ccSum x v i (m + 1)) := by
  induction m generalizing i with
  | zero => simp [ccSum, pairStep, wC]; ring
  | succ m ih =>
    rw [ccSum, ih]
    simp [pairStep, wC, ccSum]
    ring

theorem ccSum_01 (m i : Nat) : ccSum x (pairStep (wC y) (wC x) false true v) i (m + 1) =
    y * (v i m + ccSum x v i m) := by
  induction m generalizing i with
  | zero => simp [ccSum, pairStep, wC]
  | succ m ih =>
    rw [ccSum, ih]
    simp [pairStep, wC, ccSum]
    ring

theorem ccSum_10 (m i : Nat) : ccSum x (pairStep (wC y) (wC x) true false v) i (m + 1) =
    x * ccSum x v (i + 1) (m + 1) + ccSum x v i (m + 2) := by
  induction m generalizing i with
  | zero => simp [ccSum, pairStep, wC]; ring
  | succ m ih =>
    rw [ccSum, ih]
    simp [pairStep, wC, ccSum]
    ring

theorem ccSum_11 (m i : Nat) : ccSum x (pairStep (wC y) (wC x) true true v) i (m + 1) =
    x * ccSum x v (i + 1) m + ccSum x v i (m + 1) := by
  induction m generalizing i with
  | zero => simp [ccSum, pairStep, wC]
  | succ m ih =>
    rw [ccSum, ih]
    simp [pairStep, wC, ccSum]
    ring

theorem ccOp_pairStep {x y : K} (hx : x ≠ 0) (hy : y ≠ 0) (a b : Bool) (v : Nat → Nat → K) :
    pairStep (wC x) (wC y) a b (ccOp x y v) = ccOp x y (pairStep (wC y) (wC x) a b v) := by
  funext i m
  have h1 : y * (x / y) = x := by field_simp
  obtain ⟨u, hu⟩ : ∃ u, x / y = u := ⟨_, rfl⟩
  have h2 : (y - x) / y = 1 - u := by rw [← hu]; field_simp
  rw [hu] at h1
  cases a <;> cases b <;> rcases m with _ | m <;> rcases i with _ | i <;>
    simp only [ccOp, ccSum_00, ccSum_01, ccSum_10, ccSum_11, hu, h2] <;>
    simp [pairStep, wC, ccSum, ccOp, hu, h2, pow_succ] <;>
    clear hu h2 hx <;> subst h1 <;> ring

/-! ### a row that counts columns and one that counts rows -/

/-- `sum_{j >= i} y^(i+m-j) (1-x)^(j-i) v(j, i+m-j)` -/
def crUp (x y : K) (v : Nat → Nat → K) : Nat → Nat → K
  | i, 0 => v i 0
  | i, m + 1 => y ^ (m + 1) * v i (m + 1) + (1 - x) * crUp x y v (i + 1) m

/-- `sum_{j < i} x^j (1-y)^(i-j) v(j, i+m-j)` -/
def crDown (x y : K) (v : Nat → Nat → K) : Nat → Nat → K
  | 0, _ => 0
  | i + 1, m => (1 - y) * (x ^ i * v i (m + 1) + crDown x y v i (m + 1))

def crOp (x y : K) (v : Nat → Nat → K) (i m : Nat) : K := x ^ i * crUp x y v i m + y ^ m * crDown x y v i m

theorem crUp_00 (m i : Nat) : crUp x y (pairStep (wR y) (wC x) false false v) (i + 1) m =
    x * crUp x y v (i + 1) m + crUp x y v i (m + 1) := by
  induction m generalizing i with
  | zero => simp [crUp, pairStep, wC, wR]; ring
  | succ m ih =>
    rw [crUp, ih]
    simp [pairStep, wC, wR, crUp]
    ring

theorem crUp_00_zero (m : Nat) : crUp x y (pairStep (wR y) (wC x) false false v) 0 m = crUp x y v 0 m := by
  cases m with
  | zero => simp [crUp, pairStep, wC, wR]
  | succ m =>
    rw [crUp, crUp_00]
    simp [pairStep, wC, wR, crUp]
    ring

theorem crUp_01 (m i : Nat) : crUp x y (pairStep (wR y) (wC x) false true v) (i + 1) (m + 1) =
    x * y * crUp x y v (i + 1) m + y * crUp x y v i (m + 1) := by
  induction m generalizing i with
  | zero => simp [crUp, pairStep, wC, wR]; ring
  | succ m ih =>
    rw [crUp, ih]
    simp [pairStep, wC, wR, crUp]
    ring

theorem crUp_01_zero (m : Nat) : crUp x y (pairStep (wR y) (wC x) false true v) 0 (m + 1) = y * crUp x y v 0 m := by
  cases m with
  | zero => simp [crUp, pairStep, wC, wR]; ring
  | succ m =>
    rw [crUp, crUp_01]
    simp [pairStep, wC, wR, crUp]
    ring

theorem crUp_10 (m i : Nat) : crUp x y (pairStep (wR y) (wC x) true false v) (i + 1) m =
    x * crUp x y v (i + 2) m + crUp x y v (i + 1) (m + 1) := by
  induction m generalizing i with
  | zero => simp [crUp, pairStep, wC, wR]; ring
  | succ m ih =>
    rw [crUp, ih]
    simp [pairStep, wC, wR, crUp]
    ring

theorem crUp_10_zero (m : Nat) : crUp x y (pairStep (wR y) (wC x) true false v) 0 m =
    x * crUp x y v 1 m + crUp x y v 0 (m + 1) + (1 - y) * y ^ m * v 0 (m + 1) := by
  cases m with
  | zero => simp [crUp, pairStep, wC, wR]; ring
  | succ m =>
    rw [crUp, crUp_10]
    simp [pairStep, wC, wR, crUp]
    ring

theorem crUp_11 (m i : Nat) : crUp x y (pairStep (wR y) (wC x) true true v) (i + 1) (m + 1) =
    x * y * crUp x y v (i + 2) m + y * crUp x y v (i + 1) (m + 1) := by
  induction m generalizing i with
  | zero => simp [crUp, pairStep, wC, wR]; ring
  | succ m ih =>
    rw [crUp, ih]
    simp [pairStep, wC, wR, crUp]
    ring

theorem crUp_11_zero (m : Nat) : crUp x y (pairStep (wR y) (wC x) true true v) 0 (m + 1) =
    x * y * crUp x y v 1 m + y * crUp x y v 0 (m + 1) + (1 - y) * y ^ (m + 1) * v 0 (m + 1) := by
  cases m with
  | zero => simp [crUp, pairStep, wC, wR]; ring
  | succ m =>
    rw [crUp, crUp_11]
    simp [pairStep, wC, wR, crUp]
    ring

theorem crDown_00 (i m : Nat) : crDown x y (pairStep (wR y) (wC x) false false v) (i + 1) m =
    x * crDown x y v (i + 1) m + x * y * crDown x y v i (m + 1) := by
  induction i generalizing m with
  | zero => simp [crDown, pairStep, wC, wR]; ring
  | succ i ih =>
    rw [crDown, ih]
    simp [pairStep, wC, wR, crDown]
    ring

theorem crDown_01 (i m : Nat) : crDown x y (pairStep (wR y) (wC x) false true v) (i + 1) m =
    x * (1 - y) * x ^ i * v i m + x * crDown x y v i m := by
  induction i generalizing m with
  | zero => simp [crDown, pairStep, wC, wR]; ring
  | succ i ih =>
    rw [crDown, ih]
    simp [pairStep, wC, wR, crDown]
    ring

theorem crDown_10 (i m : Nat) : crDown x y (pairStep (wR y) (wC x) true false v) (i + 1) m =
    y * crDown x y v (i + 1) (m + 1) + crDown x y v (i + 2) m := by
  induction i generalizing m with
  | zero => simp [crDown, pairStep, wC, wR]; ring
  | succ i ih =>
    rw [crDown, ih]
    simp [pairStep, wC, wR, crDown]
    ring

theorem crDown_11 (i m : Nat) : crDown x y (pairStep (wR y) (wC x) true true v) (i + 1) m =
    (1 - y) * x ^ (i + 1) * v (i + 1) m + crDown x y v (i + 1) m := by
  induction i generalizing m with
  | zero => simp [crDown, pairStep, wC, wR]; ring
  | succ i ih =>
    rw [crDown, ih]
    simp [pairStep, wC, wR, crDown]
    ring

theorem crOp_pairStep (a b : Bool) :
    pairStep (wC x) (wR y) a b (crOp x y v) = crOp x y (pairStep (wR y) (wC x) a b v) := by
  funext i m
  cases a <;> cases b <;> rcases m with _ | m <;> rcases i with _ | i <;>
    simp only [crOp, crUp_00, crUp_01, crUp_10, crUp_11, crUp_00_zero, crUp_01_zero, crUp_10_zero, crUp_11_zero,
      crDown_00, crDown_01, crDown_10, crDown_11] <;>
    simp [pairStep, wC, wR, crUp, crDown, crOp, pow_succ] <;> ring

end Verif.Vertex
