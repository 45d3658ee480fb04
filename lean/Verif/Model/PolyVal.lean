import Verif.Lemmas.Poly
import Mathlib.Tactic.Ring

/-!
# Polynomial values

Coefficients of `SymmetricPolynomial`s are python ints or `Polynomial`s, which the code adds, multiplies, compares with
`==` and tests for truth.  `PolyVal` is the type of `Poly`s modulo the modelled `==`; an int `c` is identified with
`Polynomial.one() * c`, which python's `==` does as well (C03).  All operations are those of the model of
polynomials.py, and they respect `==` by C01-C03.
-/

namespace Verif

/-- polynomials.py:159-163 `==` as an equivalence relation. -/
instance Poly.setoid : Setoid Poly where
  r p q := Poly.eq p q = true
  iseqv := ⟨fun p => (Poly.eq_iff p p).2 rfl, fun h => (Poly.eq_iff _ _).2 ((Poly.eq_iff _ _).1 h).symm,
    fun h h' => (Poly.eq_iff _ _).2 (((Poly.eq_iff _ _).1 h).trans ((Poly.eq_iff _ _).1 h'))⟩

/-- Polynomials up to `==`. -/
def PolyVal := Quotient Poly.setoid

namespace PolyVal

def mk (p : Poly) : PolyVal := Quotient.mk _ p

theorem mk_eq {p q : Poly} : mk p = mk q ↔ p.den = q.den := by
  rw [← Poly.eq_iff]
  exact Quotient.eq

/-- polynomials.py:159-163 `__eq__`. -/
instance : DecidableEq PolyVal := fun a b =>
  Quotient.recOnSubsingleton₂ a b (fun p q =>
    decidable_of_iff (Poly.eq p q = true) ((Poly.eq_iff p q).trans mk_eq.symm))

/-- The Laurent polynomial denoted by a value. -/
noncomputable def den (a : PolyVal) : Laurent :=
  Quotient.lift Poly.den (fun p q h => (Poly.eq_iff p q).1 h) a

@[simp] theorem den_mk (p : Poly) : (mk p).den = p.den := rfl

theorem den_injective : Function.Injective den := by
  intro a b
  induction a using Quotient.inductionOn
  induction b using Quotient.inductionOn
  intro h
  exact mk_eq.2 h

/-- polynomials.py:165-180 `+`. -/
instance : Add PolyVal := ⟨Quotient.map₂ Poly.add (fun a b h c d h' =>
  (Poly.eq_iff _ _).2 (by rw [Poly.den_add, Poly.den_add, (Poly.eq_iff a b).1 h, (Poly.eq_iff c d).1 h']))⟩

/-- polynomials.py:199-215 `*`. -/
instance : Mul PolyVal := ⟨Quotient.map₂ Poly.mul (fun a b h c d h' =>
  (Poly.eq_iff _ _).2 (by rw [Poly.den_mul, Poly.den_mul, (Poly.eq_iff a b).1 h, (Poly.eq_iff c d).1 h']))⟩

/-- polynomials.py:182-183 unary `-`. -/
instance : Neg PolyVal := ⟨Quotient.map Poly.neg (fun a b h =>
  (Poly.eq_iff _ _).2 (by rw [Poly.den_neg, Poly.den_neg, (Poly.eq_iff a b).1 h]))⟩

/-- polynomials.py:185-188 binary `-`. -/
instance : Sub PolyVal := ⟨Quotient.map₂ Poly.sub (fun a b h c d h' =>
  (Poly.eq_iff _ _).2 (by rw [Poly.den_sub, Poly.den_sub, (Poly.eq_iff a b).1 h, (Poly.eq_iff c d).1 h']))⟩

/-- polynomials.py:118-120 `zero()`. -/
instance : Zero PolyVal := ⟨mk Poly.zero⟩

/-- polynomials.py:122-124 `one()`. -/
instance : One PolyVal := ⟨mk Poly.one⟩

instance : NatCast PolyVal := ⟨fun n => mk (Poly.const n)⟩
instance : IntCast PolyVal := ⟨fun n => mk (Poly.const n)⟩
instance : SMul ℕ PolyVal := ⟨fun n => Quotient.map (fun p => Poly.mulInt p n) (fun a b h =>
  (Poly.eq_iff _ _).2 (by rw [Poly.den_mulInt, Poly.den_mulInt, (Poly.eq_iff a b).1 h]))⟩
instance : SMul ℤ PolyVal := ⟨fun n => Quotient.map (fun p => Poly.mulInt p n) (fun a b h =>
  (Poly.eq_iff _ _).2 (by rw [Poly.den_mulInt, Poly.den_mulInt, (Poly.eq_iff a b).1 h]))⟩

/-- polynomials.py:223-238 `**` with exponent `n ≥ 0`. -/
instance : Pow PolyVal ℕ := ⟨fun a n => Quotient.map (fun p => Poly.powNat p n) (fun a b h =>
  (Poly.eq_iff _ _).2 (by rw [Poly.den_powNat, Poly.den_powNat, (Poly.eq_iff a b).1 h])) a⟩

@[simp] theorem den_add (a b : PolyVal) : (a + b).den = a.den + b.den := by
  induction a using Quotient.inductionOn
  induction b using Quotient.inductionOn
  exact Poly.den_add _ _

@[simp] theorem den_mul (a b : PolyVal) : (a * b).den = a.den * b.den := by
  induction a using Quotient.inductionOn
  induction b using Quotient.inductionOn
  exact Poly.den_mul _ _

@[simp] theorem den_neg (a : PolyVal) : (-a).den = -a.den := by
  induction a using Quotient.inductionOn
  exact Poly.den_neg _

@[simp] theorem den_sub (a b : PolyVal) : (a - b).den = a.den - b.den := by
  induction a using Quotient.inductionOn
  induction b using Quotient.inductionOn
  exact Poly.den_sub _ _

@[simp] theorem den_zero : (0 : PolyVal).den = 0 := Poly.den_zero
@[simp] theorem den_one : (1 : PolyVal).den = 1 := Poly.den_one

@[simp] theorem den_pow (a : PolyVal) (n : ℕ) : (a ^ n).den = a.den ^ n := by
  induction a using Quotient.inductionOn
  exact Poly.den_powNat _ _

theorem den_nsmul (a : PolyVal) (n : ℕ) : (n • a).den = n • a.den := by
  induction a using Quotient.inductionOn
  exact (Poly.den_mulInt _ _).trans (natCast_zsmul _ _)

theorem den_zsmul (a : PolyVal) (n : ℤ) : (n • a).den = n • a.den := by
  induction a using Quotient.inductionOn
  exact Poly.den_mulInt _ _

@[simp] theorem den_intCast (n : ℤ) : ((n : PolyVal)).den = (n : Laurent) := by
  exact (Poly.den_const n)

@[simp] theorem den_natCast (n : ℕ) : ((n : PolyVal)).den = (n : Laurent) := by
  have : ((n : PolyVal)).den = ((n : ℤ) : Laurent) := Poly.den_const n
  rw [this]
  exact Int.cast_natCast n

instance : CommRing PolyVal where
  add_assoc a b c := den_injective (by simp only [den_add]; ring)
  zero_add a := den_injective (by simp)
  add_zero a := den_injective (by simp)
  add_comm a b := den_injective (by simp only [den_add]; ring)
  left_distrib a b c := den_injective (by simp only [den_add, den_mul]; ring)
  right_distrib a b c := den_injective (by simp only [den_add, den_mul]; ring)
  zero_mul a := den_injective (by simp)
  mul_zero a := den_injective (by simp)
  mul_assoc a b c := den_injective (by simp only [den_mul]; ring)
  one_mul a := den_injective (by simp)
  mul_one a := den_injective (by simp)
  mul_comm a b := den_injective (by simp only [den_mul]; ring)
  neg_add_cancel a := den_injective (by simp)
  sub_eq_add_neg a b := den_injective (by simp only [den_sub, den_add, den_neg]; ring)
  nsmul n a := n • a
  nsmul_zero a := den_injective ((den_nsmul a 0).trans ((zero_nsmul _).trans den_zero.symm))
  nsmul_succ n a := den_injective ((den_nsmul a (n + 1)).trans (by
    rw [den_add, succ_nsmul]; exact congrArg (· + a.den) (den_nsmul a n).symm))
  zsmul n a := n • a
  zsmul_zero' a := den_injective ((den_zsmul a 0).trans ((zero_zsmul _).trans den_zero.symm))
  zsmul_succ' n a := den_injective ((den_zsmul a _).trans (by
    rw [den_add, SubNegMonoid.zsmul_succ' n a.den]; exact congrArg (· + a.den) (den_zsmul a n).symm))
  zsmul_neg' n a := den_injective ((den_zsmul a _).trans (by
    rw [den_neg, SubNegMonoid.zsmul_neg' n a.den]; exact congrArg (- ·) (den_zsmul a _).symm))
  npow n a := a ^ n
  npow_zero a := den_injective (by rw [den_pow]; simp)
  npow_succ n a := den_injective (by rw [den_pow, den_mul, den_pow]; exact pow_succ _ _)
  natCast_zero := den_injective (by rw [den_natCast]; simp)
  natCast_succ n := den_injective (by rw [den_natCast, den_add, den_natCast]; simp)
  intCast_ofNat n := den_injective (by rw [den_natCast, den_intCast]; simp)
  intCast_negSucc n := den_injective (by rw [den_intCast, den_neg, den_natCast]; simp)

/-- `den` as a ring homomorphism. -/
noncomputable def denHom : PolyVal →+* Laurent where
  toFun := den
  map_one' := den_one
  map_mul' := den_mul
  map_zero' := den_zero
  map_add' := den_add

@[simp] theorem denHom_apply (a : PolyVal) : denHom a = a.den := rfl

end PolyVal
end Verif
