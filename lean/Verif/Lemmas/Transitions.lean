import Verif.Lemmas.InvBruhat
import Verif.Lemmas.FpfWords
import Verif.Model.Transitions

/-! # `tau` goes up in the Bruhat order on involutions -/

namespace Verif.Perm
open Verif.PermSpec
attribute [-simp] List.getD_eq_getElem?_getD
attribute [local irreducible] mul s inverse identity len mod act SPerm.call sFun invStep

theorem tFun_left (p q : Nat) : tFun p q p = q := by unfold tFun; rw [if_pos rfl]

theorem tFun_right {p q : Nat} : tFun p q q = p := by unfold tFun; split <;> simp_all

theorem tFun_of {p q : Nat} {x : Int} (h1 : 0 < x) (hp : x ≠ p) (hq : x ≠ q) : tFun p q x = x := by
  unfold tFun; (repeat' split) <;> omega

theorem tFun_tFun {p q : Nat} (hp : 1 ≤ p) (hq : 1 ≤ q) (x : Int) : tFun p q (tFun p q x) = x := by
  unfold tFun; (repeat' split) <;> omega

theorem tFun_pos {p q : Nat} (hp : 1 ≤ p) (hq : 1 ≤ q) {x : Int} (hx : 0 < x) : 0 < tFun p q x := by
  unfold tFun; (repeat' split) <;> omega

theorem reflectionT_comm {p q : Nat} (hp : 1 ≤ p) (hq : 1 ≤ q) : reflectionT p q = reflectionT q p := by
  refine ext_call (fun x => ?_)
  rw [call_reflectionT hp hq, call_reflectionT hq hp]
  unfold tFun; (repeat' split) <;> omega

theorem inverse_reflectionT {p q : Nat} (hp : 1 ≤ p) (hq : 1 ≤ q) : inverse (reflectionT p q) = reflectionT p q := by
  refine inverse_of_involution (fun a => ?_)
  rw [call_reflectionT hp hq, call_reflectionT hp hq, tFun_tFun hp hq]

theorem up_right {v : SPerm} {p q : Nat} (hp : 1 ≤ p) (hpq : p < q) (h : v.call p < v.call q) : BruhatStep v (mul v (reflectionT p q)) := by
  refine ⟨p, q, by omega, by omega, by omega, h, ?_, ?_, fun x h1 h2 => ?_⟩
  · rw [call_mul, call_reflectionT hp (by omega), tFun_left]
  · rw [call_mul, call_reflectionT hp (by omega), tFun_right]
  · rw [call_mul, call_reflectionT hp (by omega)]
    congr 1
    unfold tFun; (repeat' split) <;> omega

theorem up_left {v : SPerm} {p q : Nat} (hp : 1 ≤ p) (hpq : p < q) (h : (inverse v).call p < (inverse v).call q) :
    BruhatLE v (mul (reflectionT p q) v) := by
  have h1 := bruhatLE_inverse (.single (up_right hp hpq h))
  rwa [inverse_inverse, inverse_mul_rev, inverse_inverse, inverse_reflectionT hp (by omega)] at h1

/-- Conjugation with a transposition. -/
def conjT (y : SPerm) (p q : Nat) : SPerm := mul (mul (reflectionT p q) y) (reflectionT p q)

theorem conjT_call {y : SPerm} {p q : Nat} (hp : 1 ≤ p) (hq : 1 ≤ q) (x : Int) :
    (conjT y p q).call x = tFun p q (y.call (tFun p q x)) := by
  unfold conjT
  rw [call_mul, call_mul, call_reflectionT hp hq, call_reflectionT hp hq]

theorem conjT_invol {y : SPerm} (hy : Invol y) {p q : Nat} (hp : 1 ≤ p) (hq : 1 ≤ q) : Invol (conjT y p q) := by
  intro a
  rw [conjT_call hp hq, conjT_call hp hq, tFun_tFun hp hq, hy, tFun_tFun hp hq]

theorem conjT_le {y : SPerm} (hy : Invol y) {p q : Nat} (hp : 1 ≤ p) (hpq : p < q) (h : y.call p < y.call q)
    (h' : tFun p q (y.call p) < tFun p q (y.call q)) : BruhatLE y (conjT y p q) := by
  have h1 := up_right hp hpq h
  have h2 : BruhatLE (mul y (reflectionT p q)) (mul (reflectionT p q) (mul y (reflectionT p q))) := by
    refine up_left hp hpq ?_
    rw [inverse_mul_rev, inverse_reflectionT hp (by omega), inverse_of_involution hy, call_mul, call_mul,
      call_reflectionT hp (by omega), call_reflectionT hp (by omega)]
    exact h'
  unfold conjT
  rw [mul_assoc']
  exact (BruhatLE.single h1).trans h2
where
  BruhatLE.single {u w : SPerm} (h : BruhatStep u w) : BruhatLE u w := Relation.ReflTransGen.single h

/-- Two cycles side by side become one around two fixed points. -/
def nest (y : SPerm) (a b c d : Nat) : SPerm := mul (reflectionT a d) (mul (mul y (reflectionT a b)) (reflectionT c d))

theorem nest_call {y : SPerm} {a b c d : Nat} (ha : 1 ≤ a) (hab : a < b) (hbc : b < c) (hcd : c < d) (x : Int) :
    (nest y a b c d).call x = tFun a d (y.call (tFun a b (tFun c d x))) := by
  unfold nest
  rw [call_mul, call_mul, call_mul, call_reflectionT (by omega) (by omega), call_reflectionT (by omega) (by omega),
    call_reflectionT (by omega) (by omega)]

theorem nest_value {y : SPerm} (hy : Invol y) (hpos : ∀ a : Int, 0 < a → 0 < y.call a) {a b c d : Nat} (ha : 1 ≤ a) (hab : a < b)
    (hbc : b < c) (hcd : c < d) (h1 : y.call a = b) (h2 : y.call c = d) :
    (nest y a b c d).call a = d ∧ (nest y a b c d).call b = b ∧ (nest y a b c d).call c = c ∧ (nest y a b c d).call d = a ∧
    ∀ x : Int, 0 < x → x ≠ a → x ≠ b → x ≠ c → x ≠ d → (nest y a b c d).call x = y.call x ∧
      y.call x ≠ a ∧ y.call x ≠ b ∧ y.call x ≠ c ∧ y.call x ≠ d := by
  have h3 : y.call b = a := by rw [← h1, hy]
  have h4 : y.call d = c := by rw [← h2, hy]
  simp only [nest_call ha hab hbc hcd]
  refine ⟨?_, ?_, ?_, ?_, fun x hx n1 n2 n3 n4 => ?_⟩
  · rw [tFun_of (p := c) (by omega) (by omega) (by omega), tFun_left, h3, tFun_left]
  · rw [tFun_of (p := c) (by omega) (by omega) (by omega), tFun_right, h1, tFun_of (by omega) (by omega) (by omega)]
  · rw [tFun_left, tFun_of (p := a) (q := b) (by omega) (by omega) (by omega), h4, tFun_of (by omega) (by omega) (by omega)]
  · rw [tFun_right, tFun_of (p := a) (q := b) (by omega) (by omega) (by omega), h2, tFun_right]
  · have key : ∀ v : Int, x ≠ y.call v → y.call x ≠ v := by
      intro v hv he
      rw [← he, hy] at hv
      exact hv rfl
    have g1 := key a (by rw [h1]; exact n2)
    have g2 := key b (by rw [h3]; exact n1)
    have g3 := key c (by rw [h2]; exact n4)
    have g4 := key d (by rw [h4]; exact n3)
    refine ⟨?_, g1, g2, g3, g4⟩
    rw [tFun_of (p := c) hx n3 n4, tFun_of (p := a) hx n1 n2, tFun_of (hpos x hx) g1 g4]

theorem nest_invol {y : SPerm} (hy : Invol y) (hpos : ∀ a : Int, 0 < a → 0 < y.call a) {a b c d : Nat} (ha : 1 ≤ a) (hab : a < b)
    (hbc : b < c) (hcd : c < d) (h1 : y.call a = b) (h2 : y.call c = d) : Invol (nest y a b c d) := by
  obtain ⟨e1, e2, e3, e4, e5⟩ := nest_value hy hpos ha hab hbc hcd h1 h2
  obtain ⟨u, hu⟩ : ∃ u, nest y a b c d = u := ⟨_, rfl⟩
  rw [hu] at e1 e2 e3 e4 e5 ⊢
  have h : mul u u = identity := by
    refine ext_pos (fun x hx => ?_)
    rw [call_mul, call_identity]
    by_cases n1 : x = a
    · rw [n1, e1, e4]
    by_cases n2 : x = b
    · rw [n2, e2, e2]
    by_cases n3 : x = c
    · rw [n3, e3, e3]
    by_cases n4 : x = d
    · rw [n4, e4, e1]
    obtain ⟨f1, f2, f3, f4, f5⟩ := e5 x hx n1 n2 n3 n4
    rw [f1, (e5 _ (hpos x hx) f2 f3 f4 f5).1, hy]
  intro x
  have := congrArg (fun v => SPerm.call v x) h
  simpa only [call_mul, call_identity] using this

theorem nest_le {y : SPerm} (hy : Invol y) (hpos : ∀ a : Int, 0 < a → 0 < y.call a) {a b c d : Nat} (ha : 1 ≤ a) (hab : a < b)
    (hbc : b < c) (hcd : c < d) (h1 : y.call a = b) (h2 : y.call c = d) : BruhatLE y (nest y a b c d) := by
  obtain ⟨e1, e2, e3, e4, e5⟩ := nest_value hy hpos ha hab hbc hcd h1 h2
  have h3 : y.call b = a := by rw [← h1, hy]
  have h4 : y.call d = c := by rw [← h2, hy]
  have c1 : ∀ x, (mul y (reflectionT a c)).call x = y.call (tFun a c x) := fun x => by
    rw [call_mul, call_reflectionT (by omega) (by omega)]
  have c2 : ∀ x, (mul (mul y (reflectionT a c)) (reflectionT b c)).call x = y.call (tFun a c (tFun b c x)) := fun x => by
    rw [call_mul, c1, call_reflectionT (by omega) (by omega)]
  have c3 : ∀ x, (mul (mul (mul y (reflectionT a c)) (reflectionT b c)) (reflectionT c d)).call x =
      y.call (tFun a c (tFun b c (tFun c d x))) := fun x => by
    rw [call_mul, c2, call_reflectionT (by omega) (by omega)]
  have s1 : BruhatStep y (mul y (reflectionT a c)) := up_right ha (by omega) (by rw [h1, h2]; omega)
  have s2 : BruhatStep (mul y (reflectionT a c)) (mul (mul y (reflectionT a c)) (reflectionT b c)) := by
    refine up_right (by omega) hbc ?_
    rw [c1, c1, tFun_right, tFun_of (by omega) (by omega) (by omega), h3, h1]
    omega
  have s3 : BruhatStep (mul (mul y (reflectionT a c)) (reflectionT b c)) (mul (mul (mul y (reflectionT a c)) (reflectionT b c)) (reflectionT c d)) := by
    refine up_right (by omega) hcd ?_
    rw [c2, c2, tFun_right, tFun_of (p := a) (x := (b : Int)) (by omega) (by omega) (by omega), h3,
      tFun_of (p := b) (x := (d : Int)) (by omega) (by omega) (by omega), tFun_of (p := a) (x := (d : Int)) (by omega) (by omega) (by omega), h4]
    omega
  have hu : mul (mul (mul y (reflectionT a c)) (reflectionT b c)) (reflectionT c d) = nest y a b c d := by
    refine ext_pos (fun x hx => ?_)
    rw [c3]
    by_cases n1 : x = a
    · rw [n1, e1, tFun_of (p := c) (by omega) (by omega) (by omega), tFun_of (p := b) (by omega) (by omega) (by omega), tFun_left, h2]
    by_cases n2 : x = b
    · rw [n2, e2, tFun_of (p := c) (by omega) (by omega) (by omega), tFun_left, tFun_right, h1]
    by_cases n3 : x = c
    · rw [n3, e3, tFun_left, tFun_of (p := b) (by omega) (by omega) (by omega), tFun_of (p := a) (by omega) (by omega) (by omega), h4]
    by_cases n4 : x = d
    · rw [n4, e4, tFun_right, tFun_right, tFun_of (p := a) (by omega) (by omega) (by omega), h3]
    rw [(e5 x hx n1 n2 n3 n4).1, tFun_of (p := c) hx n3 n4, tFun_of (p := b) hx n2 n3, tFun_of (p := a) hx n1 n3]
  rw [← hu]
  exact ((Relation.ReflTransGen.single s1).tail s2).tail s3

/-- Two fixed points become a cycle. -/
theorem join_spec {y : SPerm} (hy : Invol y) (hpos : ∀ a : Int, 0 < a → 0 < y.call a) {a b : Nat} (ha : 1 ≤ a) (hab : a < b)
    (h1 : y.call a = a) (h2 : y.call b = b) : BruhatLE y (mul (reflectionT a b) y) ∧ Invol (mul (reflectionT a b) y) := by
  refine ⟨up_left ha hab (by rw [inverse_of_involution hy, h1, h2]; omega), ?_⟩
  have hc : mul (reflectionT a b) y = mul y (reflectionT a b) := by
    refine ext_pos (fun x hx => ?_)
    rw [call_mul, call_mul, call_reflectionT ha (by omega), call_reflectionT ha (by omega)]
    by_cases n1 : x = a
    · rw [n1, h1, tFun_left, h2]
    by_cases n2 : x = b
    · rw [n2, h2, tFun_right, h1]
    have g1 : y.call x ≠ a := fun he => n1 (by rw [← hy x, he, h1])
    have g2 : y.call x ≠ b := fun he => n2 (by rw [← hy x, he, h2])
    rw [tFun_of hx n1 n2, tFun_of (hpos x hx) g1 g2]
  intro x
  have h : mul (mul (reflectionT a b) y) (mul (reflectionT a b) y) = identity := by
    refine ext_call (fun x => ?_)
    conv_lhs => rw [call_mul]; arg 2; rw [hc]
    rw [call_mul, call_mul, hy, call_reflectionT ha (by omega), call_reflectionT ha (by omega), tFun_tFun ha (by omega), call_identity]
  have := congrArg (fun v => SPerm.call v x) h
  simpa only [call_mul, call_identity] using this

theorem tauT_nat {p q : Nat} (hp : 1 ≤ p) (hpq : p < q) : tauT p q = reflectionT p q ∧ tauT q p = reflectionT p q := by
  unfold tauT
  constructor
  · rw [if_neg (by omega), if_neg (by omega)]; simp
  · rw [if_neg (by omega), if_pos (by omega)]; simp

/-- The cases of `tau`. -/
inductive TauCase (y : SPerm) (i j : Nat) : SPerm → Prop where
  | conj (p q : Nat) : 1 ≤ p → p < q → y.call p < y.call q → tFun p q (y.call p) < tFun p q (y.call q) → TauCase y i j (conjT y p q)
  | nest (a b c d : Nat) : 1 ≤ a → a < b → b < c → c < d → y.call a = b → y.call c = d → TauCase y i j (nest y a b c d)
  | join : y.call i = i → y.call j = j → TauCase y i j (mul (reflectionT i j) y)
  | same : TauCase y i j y

theorem tau_case {y : SPerm} (hy : Invol y) (hpos : ∀ a : Int, 0 < a → 0 < y.call a) {i j : Nat} (hi : 1 ≤ i) (hij : i < j) :
    ∃ z, tau? y i j = .ok z ∧ TauCase y i j z := by
  obtain ⟨a, ha⟩ : ∃ a : Nat, y.call i = a := ⟨(y.call i).toNat, by have := hpos i (by omega); omega⟩
  obtain ⟨b, hb⟩ : ∃ b : Nat, y.call j = b := ⟨(y.call j).toNat, by have := hpos j (by omega); omega⟩
  have ha' : y.call a = i := by rw [← ha, hy]
  have hb' : y.call b = j := by rw [← hb, hy]
  have ha1 := hpos i (by omega)
  have hb1 := hpos j (by omega)
  have hne : a ≠ b := by
    rintro rfl
    rw [ha'] at hb'
    omega
  unfold tau?
  rw [if_pos ⟨hi, hij⟩, ha, hb]
  dsimp only
  rw [(tauT_nat hi hij).1]
  split
  · rename_i h
    refine ⟨_, rfl, .conj i j hi hij (by rw [ha, hb]; omega) ?_⟩
    rw [ha, hb]
    unfold tFun; (repeat' split) <;> omega
  split
  · rename_i h
    rw [(tauT_nat hi (q := b) (by omega)).1]
    refine ⟨_, rfl, .conj i b hi (by omega) (by rw [ha, hb']; omega) ?_⟩
    rw [ha, hb']
    unfold tFun; (repeat' split) <;> omega
  split
  · rename_i h
    rw [(tauT_nat (p := a) (q := j) (by omega) (by omega)).1]
    refine ⟨_, rfl, .conj a j (by omega) (by omega) (by rw [ha', hb]; omega) ?_⟩
    rw [ha', hb]
    unfold tFun; (repeat' split) <;> omega
  split
  · rename_i h
    rw [(tauT_nat hi (q := b) (by omega)).1]
    refine ⟨_, rfl, .conj i b hi (by omega) (by rw [ha, hb']; omega) ?_⟩
    rw [ha, hb']
    unfold tFun; (repeat' split) <;> omega
  split
  · rename_i h
    rw [if_neg (by omega), (tauT_nat hi (q := a) (by omega)).1, (tauT_nat (p := b) (q := j) (by omega) (by omega)).2]
    exact ⟨_, rfl, .nest i a b j hi (by omega) (by omega) (by omega) ha hb'⟩
  split
  · rename_i h
    rw [if_neg (by omega), (tauT_nat hi (q := a) (by omega)).1, (tauT_nat (p := j) (q := b) (by omega) (by omega)).1,
      (tauT_nat hi (q := b) (by omega)).1]
    exact ⟨_, rfl, .nest i a j b hi (by omega) (by omega) (by omega) ha hb⟩
  split
  · rename_i h
    rw [if_neg (by omega), (tauT_nat (p := a) (q := i) (by omega) (by omega)).2, (tauT_nat (p := b) (q := j) (by omega) (by omega)).2,
      (tauT_nat (p := a) (q := j) (by omega) (by omega)).1]
    exact ⟨_, rfl, .nest a i b j (by omega) (by omega) (by omega) (by omega) ha' hb'⟩
  split
  · rename_i h
    exact ⟨_, rfl, .join (by rw [ha]; omega) (by rw [hb]; omega)⟩
  · exact ⟨_, rfl, .same⟩

theorem tau_up {y z : SPerm} (hy : Invol y) (hpos : ∀ a : Int, 0 < a → 0 < y.call a) {i j : Nat} (hi : 1 ≤ i) (hij : i < j)
    (h : TauCase y i j z) : Invol z ∧ (∀ a : Int, 0 < a → 0 < z.call a) ∧ BruhatLE y z := by
  cases h with
  | conj p q hp hpq h1 h2 =>
    refine ⟨conjT_invol hy hp (by omega), fun a ha => ?_, conjT_le hy hp hpq h1 h2⟩
    rw [conjT_call hp (by omega)]
    exact tFun_pos hp (by omega) (hpos _ (tFun_pos hp (by omega) ha))
  | nest a b c d ha hab hbc hcd h1 h2 =>
    refine ⟨nest_invol hy hpos ha hab hbc hcd h1 h2, fun x hx => ?_, nest_le hy hpos ha hab hbc hcd h1 h2⟩
    rw [nest_call ha hab hbc hcd]
    exact tFun_pos ha (by omega) (hpos _ (tFun_pos ha (by omega) (tFun_pos (by omega) (by omega) hx)))
  | join h1 h2 =>
    obtain ⟨g1, g2⟩ := join_spec hy hpos hi hij h1 h2
    refine ⟨g2, fun x hx => ?_, g1⟩
    rw [call_mul, call_reflectionT hi (by omega)]
    exact tFun_pos hi (by omega) (hpos x hx)
  | same => exact ⟨hy, hpos, .refl⟩

end Verif.Perm
