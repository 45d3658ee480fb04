import Mathlib.Algebra.Algebra.Basic
import Mathlib.Tactic.NoncommRing
import Mathlib.Tactic.LinearCombination
import Mathlib.Tactic.Module

/-!
Commuting products of factors `1 + x • u i` (Fomin and Kirillov), where the `u i` satisfy the relations of a 0-Hecke
algebra (`β = 1`) or of a nil-Coxeter algebra (`β = 0`) of type A or B.
-/

namespace Verif.Fomin

variable {K : Type*} [CommRing K] {E : Type*} [Ring E] [Algebra K E]

/-- The factor `1 + x u`. -/
def hh (u : E) (x : K) : E := 1 + x • u

/-- The formal group law. -/
def op (β x y : K) : K := x + y + β * x * y

theorem hh_mul {β : K} {u : E} (hu : u * u = β • u) (x y : K) : hh u x * hh u y = hh u (op β x y) := by
  simp only [hh, op, mul_add, add_mul, mul_one, one_mul, smul_mul_assoc, mul_smul_comm, smul_smul, hu]
  module

theorem hh_zero (u : E) : hh u (0 : K) = 1 := by simp [hh]

theorem hh_inv {β : K} {u : E} (hu : u * u = β • u) {x y : K} (h : op β x y = 0) : hh u x * hh u y = 1 := by
  rw [hh_mul hu, h, hh_zero]

theorem hh_comm {u v : E} (h : u * v = v * u) (x y : K) : hh u x * hh v y = hh v y * hh u x := by
  simp only [hh, mul_add, add_mul, mul_one, one_mul, smul_mul_assoc, mul_smul_comm, h]
  module

/-- The Yang-Baxter equation. -/
theorem hh_braid {β : K} {u v : E} (hu : u * u = β • u) (hv : v * v = β • v) (hb : u * v * u = v * u * v) (x y : K) :
    hh u x * hh v (op β x y) * hh u y = hh v y * hh u (op β x y) * hh v x := by
  have e1 : hh u x * hh v (op β x y) * hh u y =
      1 + (x + y) • u + op β x y • v + (x * op β x y) • (u * v) + (y * op β x y) • (v * u) + (x * y) • (u * u) +
        (x * y * op β x y) • (u * v * u) := by
    simp only [hh, mul_add, add_mul, mul_one, one_mul, smul_mul_assoc, mul_smul_comm, mul_assoc]
    module
  have e2 : hh v y * hh u (op β x y) * hh v x =
      1 + (x + y) • v + op β x y • u + (x * op β x y) • (u * v) + (y * op β x y) • (v * u) + (x * y) • (v * v) +
        (x * y * op β x y) • (v * u * v) := by
    simp only [hh, mul_add, add_mul, mul_one, one_mul, smul_mul_assoc, mul_smul_comm, mul_assoc]
    module
  rw [e1, e2, hu, hv, hb]
  simp only [op]
  module

/-- The reflection equation, when `v u v = 0`. -/
theorem hh_reflect {β : K} {u v : E} (hu : u * u = β • u) (hv : v * v = β • v) (hb : v * u * v = 0) {p q a b : K}
    (h : b * op β p q + p * a * (1 + β * b) = a * q) :
    hh v p * hh u a * hh v q * hh u b = hh u b * hh v q * hh u a * hh v p := by
  have hb' : v * (u * v) = 0 := by rw [← mul_assoc, hb]
  have hb'' : v * (u * (v * u)) = 0 := by rw [← mul_assoc, ← mul_assoc, hb, zero_mul]
  have e1 : hh v p * hh u a * hh v q * hh u b =
      1 + op β p q • v + op β a b • u + (b * op β p q + p * a * (1 + β * b)) • (v * u) + (a * q) • (u * v) +
        (a * q * b) • (u * v * u) := by
    simp only [hh, op, mul_add, add_mul, mul_one, one_mul, smul_mul_assoc, mul_smul_comm, mul_assoc]
    have k1 : v * (v * u) = β • (v * u) := by rw [← mul_assoc, hv, smul_mul_assoc]
    simp only [hu, hv, k1, hb', hb'', smul_zero, smul_smul, mul_smul_comm]
    module
  have e2 : hh u b * hh v q * hh u a * hh v p =
      1 + op β p q • v + op β a b • u + (b * op β p q + p * a * (1 + β * b)) • (u * v) + (a * q) • (v * u) +
        (a * q * b) • (u * v * u) := by
    simp only [hh, op, mul_add, add_mul, mul_one, one_mul, smul_mul_assoc, mul_smul_comm, mul_assoc]
    have k2 : u * (u * v) = β • (u * v) := by rw [← mul_assoc, hu, smul_mul_assoc]
    simp only [hu, hv, k2, hb', mul_zero, smul_zero, smul_smul, mul_smul_comm]
    module
  rw [e1, e2, h]
  abel

/-! ### products -/

/-- `hh (u (k + m - 1)) x * ... * hh (u k) x`. -/
def desc (u : Nat → E) (x : K) : Nat → Nat → E
  | _, 0 => 1
  | k, m + 1 => desc u x (k + 1) m * hh (u k) x

/-- `hh (u k) x * ... * hh (u (k + m - 1)) x`. -/
def asc (u : Nat → E) (x : K) : Nat → Nat → E
  | _, 0 => 1
  | k, m + 1 => hh (u k) x * asc u x (k + 1) m

theorem desc_top (u : Nat → E) (x : K) (k m : Nat) : desc u x k (m + 1) = hh (u (k + m)) x * desc u x k m := by
  induction m generalizing k with
  | zero => simp [desc]
  | succ m ih =>
    rw [desc, ih (k + 1), desc, mul_assoc]
    congr 3
    omega

/-- The relations from index `s` on. -/
structure Rel (β : K) (u : Nat → E) (s : Nat) : Prop where
  sq : ∀ i, u i * u i = β • u i
  far : ∀ i j, i + 2 ≤ j → u i * u j = u j * u i
  braid : ∀ i, s ≤ i → u i * u (i + 1) * u i = u (i + 1) * u i * u (i + 1)

variable {β : K} {u : Nat → E} {s : Nat}

theorem Rel.hh_desc (h : Rel β u s) {i k : Nat} (hik : i + 2 ≤ k) (m : Nat) (x y : K) :
    hh (u i) x * desc u y k m = desc u y k m * hh (u i) x := by
  induction m generalizing k with
  | zero => simp [desc]
  | succ m ih =>
    rw [desc, ← mul_assoc, ih (by omega), mul_assoc, hh_comm (h.far i k hik), mul_assoc]

theorem Rel.hh_asc (h : Rel β u s) {i k : Nat} (hik : i + 2 ≤ k) (m : Nat) (x y : K) :
    hh (u i) x * asc u y k m = asc u y k m * hh (u i) x := by
  induction m generalizing k with
  | zero => simp [asc]
  | succ m ih =>
    rw [asc, ← mul_assoc, hh_comm (h.far i k hik), mul_assoc, ih (by omega), mul_assoc]

theorem Rel.asc_desc (h : Rel β u s) {x y : K} (hxy : op β x y = 0) (k m : Nat) : asc u x k m * desc u y k m = 1 := by
  induction m generalizing k with
  | zero => simp [asc, desc]
  | succ m ih =>
    rw [asc, desc, mul_assoc, ← mul_assoc (asc u x (k + 1) m), ih, one_mul, hh_inv (h.sq k) hxy]

theorem op_comm (β x y : K) : op β x y = op β y x := by unfold op; ring

theorem op_assoc (β x y z : K) : op β (op β x y) z = op β x (op β y z) := by unfold op; ring

theorem op_zero (β x : K) : op β x 0 = x := by unfold op; ring

theorem Rel.desc_asc (h : Rel β u s) {x y : K} (hxy : op β x y = 0) (k m : Nat) : desc u y k m * asc u x k m = 1 := by
  induction m generalizing k with
  | zero => simp [asc, desc]
  | succ m ih =>
    rw [asc, desc, mul_assoc, ← mul_assoc (hh (u k) y), hh_inv (h.sq k) (by rw [op_comm]; exact hxy), one_mul, ih]

/-- Products of descending factors commute. -/
theorem Rel.desc_comm (h : Rel β u s) {x y x' y' : K} (hx : op β x x' = 0) (hy : op β y y' = 0) (m : Nat) :
    ∀ k, s ≤ k → desc u x k m * desc u y k m = desc u y k m * desc u x k m := by
  have key : ∀ (x y y' : K), op β y y' = 0 → ∀ k m, desc u x k (m + 2) * desc u y k (m + 2) =
      desc u x (k + 1) (m + 1) * desc u y (k + 1) (m + 1) *
        (hh (u (k + 1)) y' * (hh (u k) x * hh (u (k + 1)) y * hh (u k) y)) := by
    intro x y y' hy k m
    have e : desc u y (k + 1) (m + 1) * hh (u (k + 1)) y' = desc u y (k + 2) m := by
      rw [desc, mul_assoc, hh_inv (h.sq _) hy, mul_one]
    rw [← mul_assoc, mul_assoc (desc u x (k + 1) (m + 1)), e]
    rw [show desc u x k (m + 2) = desc u x (k + 1) (m + 1) * hh (u k) x from rfl,
      show desc u y k (m + 2) = desc u y (k + 2) m * hh (u (k + 1)) y * hh (u k) y from rfl]
    have := h.hh_desc (i := k) (k := k + 2) le_rfl m x y
    simp only [mul_assoc] at this ⊢
    rw [← mul_assoc (hh (u k) x), this]
    simp only [mul_assoc]
  induction m with
  | zero => intro k _; simp [desc]
  | succ m ih =>
    intro k hk
    cases m with
    | zero =>
      simp only [desc, one_mul]
      rw [hh_mul (h.sq k), hh_mul (h.sq k), op_comm]
    | succ m =>
      rw [key x y y' hy, key y x x' hx, ih (k + 1) (by omega)]
      congr 1
      -- the Yang-Baxter equation with `z = x ⊖ y`
      obtain ⟨z, hz⟩ : ∃ z, op β x y' = z := ⟨_, rfl⟩
      have hzy : op β z y = x := by rw [← hz, op_assoc, op_comm β y' y, hy, op_zero]
      have hb := hh_braid (h.sq (k + 1)) (h.sq k) (h.braid k hk).symm z y
      rw [hzy] at hb
      have e1 : hh (u (k + 1)) x * hh (u (k + 1)) y' = hh (u (k + 1)) z := by rw [hh_mul (h.sq _), hz]
      have e2 : hh (u k) x * hh (u k) y' = hh (u k) z := by rw [hh_mul (h.sq _), hz]
      have i1 : hh (u (k + 1)) x' * hh (u (k + 1)) x = 1 := hh_inv (h.sq _) (by rw [op_comm]; exact hx)
      have i2 : hh (u k) y' * hh (u k) y = 1 := hh_inv (h.sq _) (by rw [op_comm]; exact hy)
      calc hh (u (k + 1)) y' * (hh (u k) x * hh (u (k + 1)) y * hh (u k) y)
          = hh (u (k + 1)) x' * ((hh (u (k + 1)) x * hh (u (k + 1)) y') * hh (u k) x * hh (u (k + 1)) y) * hh (u k) y := by
            have : hh (u (k + 1)) y' = hh (u (k + 1)) x' * hh (u (k + 1)) x * hh (u (k + 1)) y' := by rw [i1, one_mul]
            conv_lhs => rw [this]
            simp only [mul_assoc]
        _ = hh (u (k + 1)) x' * (hh (u k) y * hh (u (k + 1)) x * (hh (u k) x * hh (u k) y')) * hh (u k) y := by
            rw [e1, e2, hb]
        _ = hh (u (k + 1)) x' * (hh (u k) y * hh (u (k + 1)) x * hh (u k) x) := by
            simp only [mul_assoc]
            rw [i2, mul_one]

/-- Ascending and descending products commute. -/
theorem Rel.asc_desc_comm (h : Rel β u s) {x y x' y' : K} (hx : op β x x' = 0) (hy : op β y y' = 0) (k m : Nat)
    (hk : s ≤ k) : asc u x k m * desc u y k m = desc u y k m * asc u x k m := by
  have h1 := h.desc_comm (x := x') (y := y) (x' := x) (y' := y') (by rw [op_comm]; exact hx) hy m k hk
  calc asc u x k m * desc u y k m
      = asc u x k m * desc u y k m * (desc u x' k m * asc u x k m) := by rw [h.desc_asc hx, mul_one]
    _ = asc u x k m * (desc u x' k m * desc u y k m) * asc u x k m := by rw [h1]; simp only [mul_assoc]
    _ = desc u y k m * asc u x k m := by rw [← mul_assoc, h.asc_desc hx, one_mul]

theorem Rel.asc_comm (h : Rel β u s) {x y x' y' : K} (hx : op β x x' = 0) (hy : op β y y' = 0) (k m : Nat)
    (hk : s ≤ k) : asc u x k m * asc u y k m = asc u y k m * asc u x k m := by
  have h1 := h.asc_desc_comm (x := x) (y := y') (x' := x') (y' := y) hx (by rw [op_comm]; exact hy) k m hk
  calc asc u x k m * asc u y k m
      = asc u y k m * desc u y' k m * (asc u x k m * asc u y k m) := by rw [h.asc_desc hy, one_mul]
    _ = asc u y k m * (asc u x k m * desc u y' k m) * asc u y k m := by rw [h1]; simp only [mul_assoc]
    _ = asc u y k m * asc u x k m := by rw [mul_assoc, mul_assoc, h.desc_asc hy, mul_one]

/-- Type A, with all indices on both sides. -/
theorem Rel.commute_A (h : Rel β u s) {x y x' y' : K} (hx : op β x x' = 0) (hy : op β y y' = 0) (k m : Nat)
    (hk : s ≤ k) : (desc u x k m * asc u x k m) * (desc u y k m * asc u y k m) =
      (desc u y k m * asc u y k m) * (desc u x k m * asc u x k m) := by
  have h1 := h.asc_desc_comm hx hy k m hk
  have h2 := h.asc_desc_comm hy hx k m hk
  have h3 := h.desc_comm hx hy m k hk
  have h4 := h.asc_comm hx hy k m hk
  calc (desc u x k m * asc u x k m) * (desc u y k m * asc u y k m)
      = desc u x k m * (asc u x k m * desc u y k m) * asc u y k m := by simp only [mul_assoc]
    _ = (desc u x k m * desc u y k m) * (asc u x k m * asc u y k m) := by rw [h1]; simp only [mul_assoc]
    _ = desc u y k m * (desc u x k m * asc u y k m) * asc u x k m := by rw [h3, h4]; simp only [mul_assoc]
    _ = (desc u y k m * asc u y k m) * (desc u x k m * asc u x k m) := by rw [← h2]; simp only [mul_assoc]

/-- Type B: `u 0` is the special generator, with `u 1 * u 0 * u 1 = 0`. -/
theorem Rel.commute_B (h : Rel β u 1) (h0 : u 1 * u 0 * u 1 = 0) {x y x' y' a b : K} (hx : op β x x' = 0)
    (hy : op β y y' = 0) (hab : b * op β (op β x y') (op β x y) + op β x y' * a * (1 + β * b) = a * op β x y) (m : Nat) :
    (desc u x 1 m * hh (u 0) a * asc u x 1 m) * (desc u y 1 m * hh (u 0) b * asc u y 1 m) =
      (desc u y 1 m * hh (u 0) b * asc u y 1 m) * (desc u x 1 m * hh (u 0) a * asc u x 1 m) := by
  cases m with
  | zero =>
    simp only [desc, asc, one_mul, mul_one]
    rw [hh_mul (h.sq 0), hh_mul (h.sq 0), op_comm]
  | succ m =>
    -- bring the product into the form `D(x) D(y) [...] A(x) A(y)`
    have key : ∀ {x y x' y' a b : K}, op β x x' = 0 → op β y y' = 0 →
        (desc u x 1 (m + 1) * hh (u 0) a * asc u x 1 (m + 1)) * (desc u y 1 (m + 1) * hh (u 0) b * asc u y 1 (m + 1)) =
        desc u x 1 (m + 1) * desc u y 1 (m + 1) *
          (hh (u 1) y' * hh (u 0) a * hh (u 1) (op β x y) * hh (u 0) b * hh (u 1) x') *
          (asc u x 1 (m + 1) * asc u y 1 (m + 1)) := by
      intro x y x' y' a b hx hy
      have d1 : desc u y 1 (m + 1) * hh (u 1) y' = desc u y 2 m := by
        rw [desc, mul_assoc, hh_inv (h.sq _) hy, mul_one]
      have d2 : hh (u 1) x' * asc u x 1 (m + 1) = asc u x 2 m := by
        rw [asc, ← mul_assoc, hh_inv (h.sq _) (by rw [op_comm]; exact hx), one_mul]
      have c1 := h.hh_desc (i := 0) (k := 2) le_rfl m a y
      have c2 := h.hh_asc (i := 0) (k := 2) le_rfl m b x
      have hc := h.asc_desc_comm hx hy 1 (m + 1) le_rfl
      have hm : hh (u 1) y * hh (u 1) x = hh (u 1) (op β x y) := by rw [hh_mul (h.sq _), op_comm]
      have d3 : desc u y 1 (m + 1) = desc u y 2 m * hh (u 1) y := rfl
      have d4 : asc u x 1 (m + 1) = hh (u 1) x * asc u x 2 m := rfl
      calc (desc u x 1 (m + 1) * hh (u 0) a * asc u x 1 (m + 1)) * (desc u y 1 (m + 1) * hh (u 0) b * asc u y 1 (m + 1))
          = desc u x 1 (m + 1) * hh (u 0) a * (asc u x 1 (m + 1) * desc u y 1 (m + 1)) * hh (u 0) b *
              asc u y 1 (m + 1) := by simp only [mul_assoc]
        _ = desc u x 1 (m + 1) * (hh (u 0) a * desc u y 2 m) * (hh (u 1) y * hh (u 1) x) * (asc u x 2 m * hh (u 0) b) *
              asc u y 1 (m + 1) := by rw [hc, d3, d4]; simp only [mul_assoc]
        _ = desc u x 1 (m + 1) * (desc u y 2 m * hh (u 0) a) * hh (u 1) (op β x y) * (hh (u 0) b * asc u x 2 m) *
              asc u y 1 (m + 1) := by rw [c1, c2, hm]
        _ = _ := by rw [← d1, ← d2]; simp only [mul_assoc]
    rw [key hx hy, key hy hx, h.desc_comm hx hy _ 1 le_rfl, h.asc_comm hx hy 1 _ le_rfl, op_comm β y x]
    congr 2
    -- the reflection equation
    have hr := hh_reflect (h.sq 0) (h.sq 1) h0 hab
    have i1 : hh (u 1) x' * hh (u 1) x = 1 := hh_inv (h.sq _) (by rw [op_comm]; exact hx)
    have i1' : hh (u 1) x * hh (u 1) x' = 1 := hh_inv (h.sq _) hx
    have e1 : hh (u 1) x * hh (u 1) y' = hh (u 1) (op β x y') := by rw [hh_mul (h.sq _)]
    have e2 : hh (u 1) y' * hh (u 1) x = hh (u 1) (op β x y') := by rw [hh_mul (h.sq _), op_comm]
    calc hh (u 1) y' * hh (u 0) a * hh (u 1) (op β x y) * hh (u 0) b * hh (u 1) x'
        = hh (u 1) x' * (hh (u 1) x * hh (u 1) y' * hh (u 0) a * hh (u 1) (op β x y) * hh (u 0) b) * hh (u 1) x' := by
          simp only [← mul_assoc]
          rw [i1, one_mul]
      _ = hh (u 1) x' * (hh (u 0) b * hh (u 1) (op β x y) * hh (u 0) a * (hh (u 1) y' * hh (u 1) x)) * hh (u 1) x' := by
          rw [e1, hr, e2]
      _ = hh (u 1) x' * hh (u 0) b * hh (u 1) (op β x y) * hh (u 0) a * hh (u 1) y' := by
          simp only [mul_assoc]
          rw [i1', mul_one]

/-- The condition of `commute_B` for one factor in the middle. -/
theorem cond_P {β x y y' : K} (hy : op β y y' = 0) :
    y * op β (op β x y') (op β x y) + op β x y' * x * (1 + β * y) = x * op β x y := by
  unfold op at *
  linear_combination (β * x ^ 2 + x + β * x * y + β ^ 2 * x ^ 2 * y + y * (1 + β * x)) * hy

/-- The condition of `commute_B` for two factors in the middle. -/
theorem cond_Q {β x y y' : K} (hy : op β y y' = 0) :
    op β y y * op β (op β x y') (op β x y) + op β x y' * op β x x * (1 + β * op β y y) = op β x x * op β x y := by
  unfold op at *
  linear_combination (2 * x + 3 * β * x ^ 2 + β ^ 2 * x ^ 3 + y * (2 + 6 * β * x + 5 * β ^ 2 * x ^ 2 + β ^ 3 * x ^ 3) +
    y ^ 2 * (β + 2 * β ^ 2 * x + β ^ 3 * x ^ 2)) * hy

end Verif.Fomin
