import Mathlib.Algebra.Algebra.Basic
import Mathlib.Algebra.Field.Rat
import Mathlib.Tactic.Module
import Mathlib.Tactic.FieldSimp
import Mathlib.Tactic.Ring
import Mathlib.Tactic.LinearCombination

/-! Products of factors `1 + x u_i`, where the `u_i` satisfy the relations of the generators of a 0-Hecke monoid.  The
arguments are those of Fomin and Kirillov. -/

namespace Verif.YB

variable {A : Type*} [Ring A] [Algebra ℚ A]

/-- The relations of the generators of the 0-Hecke monoid of type B. -/
structure Rel (u : Nat → A) : Prop where
  idem : ∀ i, u i * u i = u i
  far : ∀ i j, i + 2 ≤ j → u i * u j = u j * u i
  near : ∀ i, 1 ≤ i → u i * u (i + 1) * u i = u (i + 1) * u i * u (i + 1)
  zero : u 0 * u 1 * u 0 * u 1 = u 1 * u 0 * u 1 * u 0

/-- The factor `1 + x u_i`. -/
def h (u : Nat → A) (i : Nat) (x : ℚ) : A := 1 + x • u i

variable {u : Nat → A}

theorem h_mul (hu : Rel u) (i : Nat) {x y z : ℚ} (hz : z = x + y + x * y) : h u i x * h u i y = h u i z := by
  subst hz
  simp only [h, add_mul, mul_add, smul_mul_assoc, mul_smul_comm, one_mul, mul_one, hu.idem]
  module

theorem h_comm (hu : Rel u) (i : Nat) (x y : ℚ) : h u i x * h u i y = h u i y * h u i x := by
  rw [h_mul hu i rfl, h_mul hu i (z := x + y + x * y) (by ring)]

theorem h_far (hu : Rel u) {i j : Nat} (hij : i + 2 ≤ j) (x y : ℚ) : h u i x * h u j y = h u j y * h u i x := by
  simp only [h, add_mul, mul_add, smul_mul_assoc, mul_smul_comm, one_mul, mul_one, hu.far i j hij]
  module

theorem h_zero (i : Nat) : h u i 0 = 1 := by simp [h]

theorem ybe (hu : Rel u) {i : Nat} (hi : 1 ≤ i) {x y z : ℚ} (hz : z = x + y + x * y) :
    h u i x * h u (i + 1) z * h u i y = h u (i + 1) y * h u i z * h u (i + 1) x := by
  subst hz
  have h1 := hu.near i hi
  simp only [h, add_mul, mul_add, smul_mul_assoc, mul_smul_comm, one_mul, mul_one, hu.idem, h1, smul_add, smul_smul]
  module

theorem ybe_zero (hu : Rel u) {a b p q : ℚ} (hc : b * (p - q * (1 + a)) = a * (p + q + p * q)) :
    h u 0 a * h u 1 p * h u 0 b * h u 1 q = h u 1 q * h u 0 b * h u 1 p * h u 0 a := by
  have h1 := hu.zero
  have e2 : ∀ (c : A), c * u 0 * u 0 = c * u 0 := fun c => by rw [mul_assoc, hu.idem]
  have e3 : ∀ (c : A), c * u 1 * u 1 = c * u 1 := fun c => by rw [mul_assoc, hu.idem]
  have k1 : a * p + a * q + b * q + a * b * q + a * p * q = b * p := by linear_combination -hc
  have l : h u 0 a * h u 1 p * h u 0 b * h u 1 q = 1 + (a + b + a * b) • u 0 + (p + q + p * q) • u 1 +
      (a * p + a * q + b * q + a * b * q + a * p * q) • (u 0 * u 1) + (p * b) • (u 1 * u 0) +
      (a * p * b) • (u 0 * u 1 * u 0) + (p * b * q) • (u 1 * u 0 * u 1) + (a * p * b * q) • (u 0 * u 1 * u 0 * u 1) := by
    simp only [h, add_mul, mul_add, smul_mul_assoc, mul_smul_comm, one_mul, mul_one, hu.idem, e3, smul_add, smul_smul]
    module
  have r : h u 1 q * h u 0 b * h u 1 p * h u 0 a = 1 + (a + b + a * b) • u 0 + (p + q + p * q) • u 1 +
      (a * p + a * q + b * q + a * b * q + a * p * q) • (u 1 * u 0) + (p * b) • (u 0 * u 1) +
      (a * p * b) • (u 0 * u 1 * u 0) + (p * b * q) • (u 1 * u 0 * u 1) + (a * p * b * q) • (u 1 * u 0 * u 1 * u 0) := by
    simp only [h, add_mul, mul_add, smul_mul_assoc, mul_smul_comm, one_mul, mul_one, hu.idem, e2, smul_add, smul_smul]
    module
  rw [l, r, k1, h1]
  module

/-! ### type A -/

/-- `h_(l+m-1)(x) ... h_l(x)`. -/
def D (u : Nat → A) (l : Nat) : Nat → ℚ → A
  | 0, _ => 1
  | m + 1, x => h u (l + m) x * D u l m x

theorem D_far (hu : Rel u) {l m j : Nat} (hj : l + m + 1 ≤ j) (x y : ℚ) : D u l m x * h u j y = h u j y * D u l m x := by
  induction m with
  | zero => simp [D]
  | succ m ih =>
    rw [D, mul_assoc, ih (by omega), ← mul_assoc, h_far hu (by omega), mul_assoc]

theorem D_comm (hu : Rel u) {l : Nat} (hl : 1 ≤ l) (m : Nat) {x y : ℚ} (hx : 1 + x ≠ 0) :
    D u l m x * D u l m y = D u l m y * D u l m x := by
  induction m using Nat.strong_induction_on with
  | _ m ih =>
    match m with
    | 0 => simp [D]
    | 1 => simp [D, h_comm hu]
    | m + 2 =>
      obtain ⟨q, hq⟩ : ∃ q, y = x + q + x * q := ⟨(y - x) / (1 + x), by field_simp; ring⟩
      have h1 := ih (m + 1) (by omega)
      obtain ⟨r, hr⟩ : ∃ r, 0 = r + x + r * x := ⟨-x / (1 + x), by field_simp; ring⟩
      have hinv : h u (l + m) r * h u (l + m) x = 1 := by rw [h_mul hu _ hr, h_zero]
      have e1 : D u l m x * D u l (m + 1) y = h u (l + m) r * D u l (m + 1) y * D u l (m + 1) x := by
        have : D u l m x = h u (l + m) r * D u l (m + 1) x := by rw [D, ← mul_assoc, hinv, one_mul]
        rw [this, mul_assoc, h1, mul_assoc]
      have e2 : h u (l + m) r * h u (l + m) y = h u (l + m) q := by
        apply h_mul hu
        rw [hq]
        linear_combination (1 + q) * hr
      have e3 := ybe hu (i := l + m) (by omega) hq
      have e4 : h u (l + m + 1) x * h u (l + m + 1) q = h u (l + m + 1) y := h_mul hu _ hq
      change h u (l + m + 1) x * (h u (l + m) x * D u l m x) * (h u (l + m + 1) y * D u l (m + 1) y) =
        h u (l + m + 1) y * (h u (l + m) y * D u l m y) * (h u (l + m + 1) x * D u l (m + 1) x)
      calc h u (l + m + 1) x * (h u (l + m) x * D u l m x) * (h u (l + m + 1) y * D u l (m + 1) y)
          = h u (l + m + 1) x * h u (l + m) x * (D u l m x * h u (l + m + 1) y) * D u l (m + 1) y := by
            simp only [mul_assoc]
        _ = h u (l + m + 1) x * h u (l + m) x * h u (l + m + 1) y * (D u l m x * D u l (m + 1) y) := by
            rw [D_far hu (by omega)]; simp only [mul_assoc]
        _ = h u (l + m + 1) x * (h u (l + m) x * h u (l + m + 1) y * (h u (l + m) r * h u (l + m) y)) * D u l m y *
              D u l (m + 1) x := by
            rw [e1, D]; simp only [mul_assoc]
        _ = h u (l + m + 1) x * (h u (l + m) x * h u (l + m + 1) y * h u (l + m) q) * D u l m y * D u l (m + 1) x := by
            rw [e2]
        _ = (h u (l + m + 1) x * h u (l + m + 1) q) * h u (l + m) y * (h u (l + m + 1) x * D u l m y) * D u l (m + 1) x := by
            rw [e3]; simp only [mul_assoc]
        _ = h u (l + m + 1) y * h u (l + m) y * (D u l m y * h u (l + m + 1) x) * D u l (m + 1) x := by
            rw [e4, D_far hu (by omega)]
        _ = _ := by simp only [mul_assoc]

/-! ### type B -/

/-- `h_(m-1)(x) ... h_0(x) h_0(x) ... h_(m-1)(x)`. -/
def C (u : Nat → A) : Nat → ℚ → A
  | 0, _ => 1
  | m + 1, x => h u m x * C u m x * h u m x

theorem C_far (hu : Rel u) {m j : Nat} (hj : m + 1 ≤ j) (x y : ℚ) : C u m x * h u j y = h u j y * C u m x := by
  induction m with
  | zero => simp [C]
  | succ m ih =>
    rw [C, mul_assoc, h_far hu (by omega), ← mul_assoc, mul_assoc (h u m x), ih (by omega), ← mul_assoc,
      h_far hu (by omega), mul_assoc, mul_assoc, mul_assoc]

theorem reflection (hu : Rel u) (m : Nat) {x y p q : ℚ} (hp : p = x + y + x * y) (hq : y = x + q + x * q) :
    C u (m + 1) x * h u (m + 1) p * C u (m + 1) y * h u (m + 1) q =
      h u (m + 1) q * C u (m + 1) y * h u (m + 1) p * C u (m + 1) x := by
  induction m with
  | zero =>
    have e : ∀ z, C u (0 + 1) z = h u 0 (z + z + z * z) := fun z => by simp [C, h_mul hu 0 rfl]
    rw [e, e]
    apply ybe_zero hu
    subst hp hq
    ring
  | succ m ih =>
    have hp' : p = y + x + y * x := by rw [hp]; ring
    have hq' : y = q + x + q * x := by rw [hq]; ring
    obtain ⟨c, hc⟩ : ∃ c, C u (m + 1) = c := ⟨_, rfl⟩
    obtain ⟨f, hf⟩ : ∃ f, h u (m + 1) = f := ⟨_, rfl⟩
    obtain ⟨g, hg⟩ : ∃ g, h u (m + 1 + 1) = g := ⟨_, rfl⟩
    have y1 : f x * g p * f y = g y * f p * g x := by rw [← hf, ← hg]; exact ybe hu (by omega) hp
    have y2 : g x * f y * g q = f q * g y * f x := by rw [← hf, ← hg]; exact (ybe hu (by omega) hq').symm
    have y3 : f x * g y * f q = g q * f y * g x := by rw [← hf, ← hg]; exact ybe hu (by omega) hq
    have y4 : g x * f p * g y = f y * g p * f x := by rw [← hf, ← hg]; exact (ybe hu (by omega) hp').symm
    have cg : ∀ x y, c x * g y = g y * c x := by
      intro x y
      rw [← hc, ← hg]
      exact C_far hu (by omega) x y
    rw [hc, hf] at ih
    have eC : ∀ z, C u (m + 1 + 1) z = f z * c z * f z := fun z => by rw [C, hc, hf]
    rw [eC, eC, hg]
    calc f x * c x * f x * g p * (f y * c y * f y) * g q
        = f x * c x * (f x * g p * f y) * c y * f y * g q := by simp only [mul_assoc]
      _ = f x * (c x * g y) * f p * (g x * c y) * f y * g q := by rw [y1]; simp only [mul_assoc]
      _ = f x * g y * (c x * f p * c y) * (g x * f y * g q) := by rw [cg x y, ← cg y x]; simp only [mul_assoc]
      _ = f x * g y * (c x * f p * c y * f q) * g y * f x := by rw [y2]; simp only [mul_assoc]
      _ = (f x * g y * f q) * c y * f p * c x * g y * f x := by rw [ih]; simp only [mul_assoc]
      _ = g q * f y * (g x * c y) * f p * (c x * g y) * f x := by rw [y3]; simp only [mul_assoc]
      _ = g q * f y * c y * (g x * f p * g y) * c x * f x := by rw [← cg y x, cg x y]; simp only [mul_assoc]
      _ = g q * (f y * c y * f y) * g p * (f x * c x * f x) := by rw [y4]; simp only [mul_assoc]

theorem C_comm (hu : Rel u) (m : Nat) {x y : ℚ} (hx : 1 + x ≠ 0) : C u m x * C u m y = C u m y * C u m x := by
  obtain ⟨q, hq⟩ : ∃ q, y = x + q + x * q := ⟨(y - x) / (1 + x), by field_simp; ring⟩
  match m with
  | 0 => simp [C]
  | 1 =>
    have e : ∀ z, C u 1 z = h u 0 (z + z + z * z) := fun z => by simp [C, h_mul hu 0 rfl]
    rw [e, e, h_comm hu]
  | m + 2 =>
    have hr := reflection hu m (p := x + y + x * y) rfl hq
    obtain ⟨c, hc⟩ : ∃ c, C u (m + 1) = c := ⟨_, rfl⟩
    obtain ⟨f, hf⟩ : ∃ f, h u (m + 1) = f := ⟨_, rfl⟩
    rw [hc, hf] at hr
    have eC : ∀ z, C u (m + 2) z = f z * c z * f z := fun z => by rw [C, hc, hf]
    have m1 : f x * f y = f (x + y + x * y) := by rw [← hf]; exact h_mul hu _ rfl
    have m2 : f y = f q * f x := by rw [← hf]; exact (h_mul hu _ (by rw [hq]; ring)).symm
    have m3 : f y = f x * f q := by rw [← hf]; exact (h_mul hu _ (by rw [hq])).symm
    have m4 : f y * f x = f (x + y + x * y) := by rw [← hf]; exact h_mul hu _ (by ring)
    rw [eC, eC]
    calc f x * c x * f x * (f y * c y * f y) = f x * c x * (f x * f y) * c y * f y := by simp only [mul_assoc]
      _ = f x * (c x * f (x + y + x * y) * c y * f q) * f x := by rw [m1, m2]; simp only [mul_assoc]
      _ = (f x * f q) * c y * f (x + y + x * y) * c x * f x := by rw [hr]; simp only [mul_assoc]
      _ = f y * c y * (f y * f x) * c x * f x := by rw [m4, ← m3]
      _ = _ := by simp only [mul_assoc]

end Verif.YB
