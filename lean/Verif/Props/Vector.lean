import Verif.Lemmas.Vector

/-!
# Properties C11, C12: vectors (vectors.py)
-/

namespace Verif

open Vec

variable {K R : Type*} [DecidableEq K] [CommRing R] [DecidableEq R]

/-! ## C11 -/

/-- C11: coefficients of sums, differences, scalar multiples and negatives. -/
theorem C11_coefficients (u v : Vec K R) (c : R) (k : K) :
    (add u v).get k = u.get k + v.get k ∧ (sub u v).get k = u.get k - v.get k ∧
    (smul u c).get k = u.get k * c ∧ (neg u).get k = - u.get k := by
  refine ⟨get_add .., get_sub .., get_smul .., ?_⟩
  rw [neg, get_smul]; ring

/-- C11: no vector returned by the constructor, or by the operations on such vectors, stores a zero. -/
theorem C11_noZero (u v : Vec K R) (c : R) (d : Dict K R) (mult) (keyMul : K → K → K) (hu : NoZero u) :
    NoZero (mk' d mult) ∧ NoZero (add u v) ∧ NoZero (sub u v) ∧ NoZero (smul u c) ∧ NoZero (mul keyMul u v) :=
  ⟨noZero_mk' _ _, noZero_add hu, noZero_sub hu, noZero_mk' _ _, noZero_mk' _ _⟩

/-- C11: `u == v` iff all coefficients agree. -/
theorem C11_eq_iff (u v : Vec K R) (hu : NoZero u) : eq u v = true ↔ ∀ k, u.get k = v.get k := by
  rw [eq, beq_iff_eq, len_zero_iff (noZero_sub hu)]
  simp only [get_sub, sub_eq_zero]

/-- C11: `len(u)` is the number of keys with nonzero coefficient; `u.is_zero()` iff there is none. -/
theorem C11_len (u : Vec K R) (hu : NoZero u) :
    (∃ s : Finset K, s.card = u.len ∧ ∀ k, k ∈ s ↔ u.get k ≠ 0) ∧
    (u.isZero = true ↔ ∀ k, u.get k = 0) := by
  refine ⟨⟨u.dict.keys.toFinset, ?_, ?_⟩, by rw [isZero, beq_iff_eq, len_zero_iff hu]⟩
  · exact (List.toFinset_card_of_nodup u.dict.nodup).trans (List.length_map _)
  · intro k; rw [List.mem_toFinset, mem_keys_iff hu]

/-- `3 a - b` with string keys. -/
def sampleVec : Vec String ℤ := sub (smul (base "a") 3) (base "b")

example : NoZero sampleVec := noZero_sub (noZero_mk' _ _)
example : (sampleVec.get "a", sampleVec.get "b", sampleVec.get "c", sampleVec.len) = (3, -1, 0, 2) := by decide
example : eq (sub (add sampleVec (base "b")) (smul (base "a") 3)) (smul sampleVec 0) = true := by decide

/-! ## C12 -/

/-- C12: `(u * v)[m]` is the sum over keys `a`, `b` of `u[a] v[b]` times the total coefficient of `m` in what the
multiplier yields for `(a, b)`. -/
theorem C12_mul_coeff (keyMul : K → K → K) (u v : Vec K R) (m : K) :
    (mul keyMul u v).get m =
      (u.dict.keys.map (fun a => (v.dict.keys.map (fun b => u.get a * v.get b *
        (((terms keyMul u.multiplier a b).filter (fun t => decide (t.1 = m))).map Prod.snd).sum)).sum)).sum := by
  rw [← den_apply, den_mul, den, den, bil_ofTerms, Dict.items_eq_map u.dict 0, Dict.items_eq_map v.dict 0]
  simp only [List.map_map, Function.comp_def]
  have hsum : ∀ l : List (K →₀ R), l.sum m = (l.map (fun f => f m)).sum := by
    intro l
    induction l with
    | nil => simp
    | cons a l ih => rw [List.sum_cons, Finsupp.add_apply, ih, List.map_cons, List.sum_cons]
  simp only [hsum, List.map_map, Function.comp_def, Finsupp.smul_apply, smul_eq_mul, ofTerms_apply]
  rfl

/-- C12: as formal linear combinations, `u * v` is the bilinear product determined by the multiplier. -/
theorem C12_mul_bilinear (keyMul : K → K → K) (u v : Vec K R) :
    (∀ w : Vec K R, ∀ k, w.den k = w.get k) ∧
    (mul keyMul u v).den =
      FreeMod.bil (fun a b => FreeMod.ofTerms (terms keyMul u.multiplier a b)) u.den v.den :=
  ⟨den_apply, den_mul ..⟩

/-- C12: sums, differences, multiples and products keep the multiplier, so that the product `*` is bilinear as an operation on
vectors with the same multiplier. -/
theorem C12_mul_linear (keyMul : K → K → K) (u v w : Vec K R) (c : R) (m : K) (huw : u.multiplier = w.multiplier) :
    (mul keyMul (add u w) v).get m = (mul keyMul u v).get m + (mul keyMul w v).get m ∧
    (mul keyMul (sub u w) v).get m = (mul keyMul u v).get m - (mul keyMul w v).get m ∧
    (mul keyMul (smul u c) v).get m = (mul keyMul u v).get m * c ∧
    (mul keyMul v (add u w)).get m = (mul keyMul v u).get m + (mul keyMul v w).get m ∧
    (mul keyMul v (sub u w)).get m = (mul keyMul v u).get m - (mul keyMul v w).get m ∧
    (mul keyMul v (smul u c)).get m = (mul keyMul v u).get m * c ∧
    (mul keyMul u v).multiplier = (u.multiplier <|> v.multiplier) := by
  have hadd : ∀ a b : Vec K R, (add a b).den = a.den + b.den := by
    intro a b; ext k; rw [Finsupp.add_apply, den_apply, den_apply, den_apply, get_add]
  have hsub : ∀ a b : Vec K R, (sub a b).den = a.den + (-1 : R) • b.den := by
    intro a b; ext k; rw [Finsupp.add_apply, Finsupp.smul_apply, den_apply, den_apply, den_apply, get_sub, smul_eq_mul]; ring
  have hsmul : (smul u c).den = c • u.den := by
    ext k; rw [Finsupp.smul_apply, den_apply, den_apply, get_smul, smul_eq_mul, mul_comm]
  have m1 : (add u w).multiplier = u.multiplier := by
    unfold add; split
    · rfl
    · rw [mk', huw]; cases w.multiplier <;> rfl
  have m2 : (sub u w).multiplier = u.multiplier := by
    unfold sub; split
    · rfl
    · rw [mk', huw]; cases w.multiplier <;> rfl
  have m3 : (smul u c).multiplier = u.multiplier := rfl
  simp only [← den_apply, den_mul, hadd, hsub, hsmul, m1, m2, m3, ← huw, FreeMod.bil_add_left, FreeMod.bil_add_right,
    FreeMod.bil_smul_left, FreeMod.bil_smul_right, Finsupp.add_apply, Finsupp.smul_apply, smul_eq_mul]
  refine ⟨trivial, ?_, ?_, trivial, ?_, ?_, rfl⟩ <;> ring

/-- C12: for an associative multiplier `v ** n` (`n > 0`) is the `n`-fold product of `v`; for `n = 0` it raises. -/
theorem C12_pow (keyMul : K → K → K) (v : Vec K R)
    (h : FreeMod.Assoc (fun a b => FreeMod.ofTerms (terms keyMul v.multiplier a b))) (n : ℕ) :
    pow keyMul v 0 = none ∧
    ∃ r, pow keyMul v (n + 1) = some r ∧
      r.den = FreeMod.pow (fun a b => FreeMod.ofTerms (terms keyMul v.multiplier a b)) v.den n := by
  refine ⟨by rw [pow]; simp, ?_⟩
  suffices hs : ∀ n, ∃ r, pow keyMul v (n + 1) = some r ∧ r.multiplier = v.multiplier ∧
      r.den = FreeMod.pow (fun a b => FreeMod.ofTerms (terms keyMul v.multiplier a b)) v.den n by
    obtain ⟨r, h1, _, h2⟩ := hs n; exact ⟨r, h1, h2⟩
  intro n
  induction n using Nat.strong_induction_on with
  | _ n ih =>
    rw [pow]
    by_cases h1 : n = 0
    · subst h1; exact ⟨v, by simp, rfl, rfl⟩
    · have hn : (n + 1) / 2 = (n + 1) / 2 - 1 + 1 := by omega
      obtain ⟨x, hx, hm, hd⟩ := ih ((n + 1) / 2 - 1) (by omega)
      rw [← hn] at hx
      have hmm : (mul keyMul x x).multiplier = v.multiplier := by
        rw [mult_mul, hm]; cases v.multiplier <;> rfl
      have hdd : (mul keyMul x x).den =
          FreeMod.pow (fun a b => FreeMod.ofTerms (terms keyMul v.multiplier a b)) v.den
            (2 * ((n + 1) / 2 - 1) + 1) := by
        rw [den_mul, hm, hd, h.pow_add]; congr 1; omega
      simp only [Nat.add_eq_zero_iff, one_ne_zero, and_false, dite_false, Nat.add_eq_right, h1, hx]
      by_cases hpar : (n + 1) % 2 = 0
      · rw [if_pos hpar]
        refine ⟨_, rfl, hmm, ?_⟩
        rw [hdd]; congr 1; omega
      · rw [if_neg hpar]
        refine ⟨_, rfl, ?_, ?_⟩
        · rw [mult_mul, hmm]; cases v.multiplier <;> rfl
        · rw [den_mul, hmm, hdd]
          have : n = 2 * ((n + 1) / 2 - 1) + 1 + 1 := by omega
          conv_rhs => rw [this, FreeMod.pow]

/-- Keys multiplied as integers: `x^a * x^b = x^(a+b)`; associative, so C12_pow applies. -/
example : FreeMod.Assoc (fun a b : ℤ => (FreeMod.ofTerms (terms (R := ℤ) (· + ·) none a b))) := by
  intro a b c
  have h : ∀ a b : ℤ, FreeMod.ofTerms (terms (R := ℤ) (· + ·) none a b) = Finsupp.single (a + b) 1 := by
    intro a b; simp [FreeMod.ofTerms, terms]
  simp only [h, FreeMod.bil_single, mul_one, one_smul, add_assoc]

example : (pow (· + ·) (add (base (1 : ℤ)) (base 0) : Vec ℤ ℤ) 5).map (fun r => (r.get 2, r.get 5, r.len)) =
    some (10, 1, 6) := by
  rw [pow, pow, pow]; decide

end Verif
