import Verif.Lemmas.YangBaxter
import Mathlib.Algebra.Module.LinearMap.End
import Mathlib.Algebra.Algebra.Bilinear
import Mathlib.Algebra.Module.Pi
import Mathlib.Algebra.Polynomial.Roots
import Mathlib.Algebra.BigOperators.Group.List.Basic
import Mathlib.Data.Rat.Cast.Order
import Mathlib.Algebra.CharZero.Infinite
import Mathlib.Order.Interval.Set.Infinite

/-! Counting factorizations of words into factors of given lengths, for generators that act with the relations of the
0-Hecke monoid: the count does not depend on the order of the lengths. -/

namespace Verif.YB

variable {X : Type*}

/-- The relations of the generators of the 0-Hecke monoid of type B, for maps acting on the right. -/
structure GRel (g : X → Nat → X) : Prop where
  idem : ∀ x i, g (g x i) i = g x i
  far : ∀ x i j, i + 2 ≤ j → g (g x i) j = g (g x j) i
  near : ∀ x i, 1 ≤ i → g (g (g x i) (i + 1)) i = g (g (g x (i + 1)) i) (i + 1)
  zero : ∀ x, g (g (g (g x 0) 1) 0) 1 = g (g (g (g x 1) 0) 1) 0

/-- The operator on functions defined by a letter. -/
def op (g : X → Nat → X) (i : Nat) : Module.End ℚ (X → ℚ) where
  toFun f := fun x => f (g x i)
  map_add' _ _ := rfl
  map_smul' _ _ := rfl

theorem op_apply (g : X → Nat → X) (i : Nat) (f : X → ℚ) (x : X) : op g i f x = f (g x i) := rfl

theorem op_rel {g : X → Nat → X} (hg : GRel g) : Rel (op g) where
  idem i := by ext f x; simp [op_apply, hg.idem]
  far i j h := by ext f x; simp [op_apply, hg.far x i j h]
  near i h := by ext f x; simp [op_apply, hg.near x i h]
  zero := by ext f x; simp [op_apply, hg.zero x]

/-- The operator defined by a word. -/
def wop (g : X → Nat → X) (a : List Nat) : Module.End ℚ (X → ℚ) where
  toFun f := fun x => f (a.foldl g x)
  map_add' _ _ := rfl
  map_smul' _ _ := rfl

theorem wop_apply (g : X → Nat → X) (a : List Nat) (f : X → ℚ) (x : X) : wop g a f x = f (a.foldl g x) := rfl

theorem wop_nil (g : X → Nat → X) : wop g [] = 1 := rfl

theorem wop_cons (g : X → Nat → X) (i : Nat) (a : List Nat) : wop g (i :: a) = op g i * wop g a := by
  ext f x; simp [op_apply, wop_apply]

theorem wop_append (g : X → Nat → X) (a b : List Nat) : wop g (a ++ b) = wop g a * wop g b := by
  ext f x; simp [wop_apply]

theorem wop_single (g : X → Nat → X) (i : Nat) : wop g [i] = op g i := rfl

/-! ### generating functions -/

section

variable {Y : Type*}

/-- The generating function of the factors `W`, where the factor `y` stands for the word `wd y`. -/
noncomputable def gen (g : X → Nat → X) (wd : Y → List Nat) (W : List Y) (x : ℚ) : Module.End ℚ (X → ℚ) :=
  (W.map (fun y => x ^ (wd y).length • wop g (wd y))).sum

/-- The sum of the operators of the factors with `p` letters. -/
noncomputable def part (g : X → Nat → X) (wd : Y → List Nat) (W : List Y) (p : Nat) : Module.End ℚ (X → ℚ) :=
  ((W.filter (fun y => (wd y).length = p)).map (fun y => wop g (wd y))).sum

theorem gen_eq (g : X → Nat → X) (wd : Y → List Nat) (W : List Y) (M : Nat) (hM : ∀ y ∈ W, (wd y).length < M) (x : ℚ) :
    gen g wd W x = ∑ p ∈ Finset.range M, x ^ p • part g wd W p := by
  induction W with
  | nil => simp [gen, part]
  | cons y W ih =>
    have h1 := ih (fun z hz => hM z (List.mem_cons_of_mem _ hz))
    have h2 : ∀ p, part g wd (y :: W) p = (if (wd y).length = p then wop g (wd y) else 0) + part g wd W p := by
      intro p
      unfold part
      by_cases h : (wd y).length = p
      · simp [h]
      · simp [h]
    have h3 : gen g wd (y :: W) x = x ^ (wd y).length • wop g (wd y) + gen g wd W x := by simp [gen]
    rw [h3, h1]
    simp only [h2, smul_add, Finset.sum_add_distrib]
    congr 1
    rw [Finset.sum_eq_single (wd y).length]
    · simp
    · intro b _ hb
      rw [if_neg (fun h => hb h.symm), smul_zero]
    · intro h
      exact absurd (Finset.mem_range.2 (hM y (by simp))) h

theorem coeff_zero (M : Nat) (c : Nat → ℚ) (h : ∀ x : ℚ, 0 < x → ∑ p ∈ Finset.range M, x ^ p * c p = 0) :
    ∀ p, p < M → c p = 0 := by
  have h0 : (∑ p ∈ Finset.range M, Polynomial.C (c p) * Polynomial.X ^ p : Polynomial ℚ) = 0 := by
    apply Polynomial.eq_zero_of_infinite_isRoot
    apply Set.Infinite.mono (s := Set.Ioi (0 : ℚ))
    · intro x hx
      simp only [Set.mem_ofPred_eq, Polynomial.IsRoot.def, Polynomial.eval_finsetSum, Polynomial.eval_mul,
        Polynomial.eval_C, Polynomial.eval_pow, Polynomial.eval_X]
      rw [← h x hx]
      exact Finset.sum_congr rfl (fun p _ => mul_comm _ _)
    · exact Set.Ioi_infinite 0
  intro p hp
  have h1 := congrArg (fun q => Polynomial.coeff q p) h0
  simp only [Polynomial.finsetSum_coeff, Polynomial.coeff_C_mul_X_pow, Polynomial.coeff_zero] at h1
  rw [Finset.sum_eq_single p] at h1
  · simpa using h1
  · intro b _ hb
    rw [if_neg (fun h => hb h.symm)]
  · intro h
    exact absurd (Finset.mem_range.2 hp) h

theorem part_zero (g : X → Nat → X) (wd : Y → List Nat) (W : List Y) (M : Nat) (hM : ∀ y ∈ W, (wd y).length < M)
    {p : Nat} (hp : M ≤ p) : part g wd W p = 0 := by
  unfold part
  rw [List.filter_eq_nil_iff.2]
  · rfl
  · intro y hy
    have := hM y hy
    simp only [decide_eq_true_eq]
    omega

theorem part_comm (g : X → Nat → X) (wd : Y → List Nat) (W : List Y)
    (h : ∀ x y : ℚ, 0 < x → 0 < y → gen g wd W x * gen g wd W y = gen g wd W y * gen g wd W x) (p q : Nat) :
    part g wd W p * part g wd W q = part g wd W q * part g wd W p := by
  obtain ⟨M, hM⟩ : ∃ M, ∀ y ∈ W, (wd y).length < M := by
    refine ⟨(W.map (fun y => (wd y).length)).sum + 1, fun y hy => ?_⟩
    have := List.single_le_sum (l := W.map (fun y => (wd y).length)) (by simp) _ (List.mem_map_of_mem hy)
    omega
  by_cases hp : M ≤ p
  · rw [part_zero g wd W M hM hp]; simp
  by_cases hq : M ≤ q
  · rw [part_zero g wd W M hM hq]; simp
  ext f z
  have key : ∀ x y : ℚ, 0 < x → 0 < y → ∑ a ∈ Finset.range M, x ^ a * ∑ b ∈ Finset.range M, y ^ b *
      ((part g wd W a * part g wd W b) f z - (part g wd W b * part g wd W a) f z) = 0 := by
    intro x y hx hy
    have h1 := congrArg (fun e => e f z) (h x y hx hy)
    simp only [gen_eq g wd W M hM, Finset.sum_mul, Finset.mul_sum, smul_mul_assoc, mul_smul_comm,
      LinearMap.sum_apply, LinearMap.smul_apply, Finset.sum_apply, Pi.smul_apply, smul_eq_mul] at h1
    simp only [Finset.mul_sum, mul_sub, Finset.sum_sub_distrib]
    rw [sub_eq_zero]
    rw [Finset.sum_comm] at h1
    refine Eq.trans ?_ (h1.trans ?_)
    · refine Finset.sum_congr rfl (fun a _ => Finset.sum_congr rfl (fun b _ => ?_))
      ring
    · rw [Finset.sum_comm]
  have h2 : ∀ y : ℚ, 0 < y → ∑ b ∈ Finset.range M, y ^ b *
      ((part g wd W p * part g wd W b) f z - (part g wd W b * part g wd W p) f z) = 0 := by
    intro y hy
    exact coeff_zero M (fun a => ∑ b ∈ Finset.range M, y ^ b *
      ((part g wd W a * part g wd W b) f z - (part g wd W b * part g wd W a) f z)) (fun x hx => key x y hx hy) p (by omega)
  have h3 := coeff_zero M (fun b => (part g wd W p * part g wd W b) f z - (part g wd W b * part g wd W p) f z) h2 q (by omega)
  exact sub_eq_zero.1 h3

/-! ### counts -/

open scoped Classical in
/-- The number of sequences of factors with the lengths `α` whose joined word takes `x` to `z`. -/
noncomputable def cnt (g : X → Nat → X) (wd : Y → List Nat) (W : List Y) (z : X) : X → List Nat → Nat
  | x, [] => if x = z then 1 else 0
  | x, p :: α => ((W.filter (fun y => (wd y).length = p)).map (fun y => cnt g wd W z ((wd y).foldl g x) α)).sum

theorem cnt_cast (g : X → Nat → X) (wd : Y → List Nat) (W : List Y) (z x : X) (p : Nat) (α : List Nat) :
    (cnt g wd W z x (p :: α) : ℚ) = part g wd W p (fun x => (cnt g wd W z x α : ℚ)) x := by
  rw [cnt, part]
  generalize W.filter (fun y => (wd y).length = p) = V
  induction V with
  | nil => simp
  | cons y V ih => simp [ih, wop_apply]

theorem cnt_perm (g : X → Nat → X) (wd : Y → List Nat) (W : List Y)
    (h : ∀ x y : ℚ, 0 < x → 0 < y → gen g wd W x * gen g wd W y = gen g wd W y * gen g wd W x) (z : X)
    {α β : List Nat} (hp : α.Perm β) : ∀ x, cnt g wd W z x α = cnt g wd W z x β := by
  induction hp with
  | nil => intro x; rfl
  | cons p _ ih =>
    intro x
    rw [cnt, cnt]
    simp only [ih]
  | swap p q α =>
    intro x
    have h1 := part_comm g wd W h q p
    have h2 := congrArg (fun e => e (fun x => (cnt g wd W z x α : ℚ)) x) h1
    have e : ∀ (a b : Nat), (cnt g wd W z x (a :: b :: α) : ℚ) =
        (part g wd W a * part g wd W b) (fun x => (cnt g wd W z x α : ℚ)) x := by
      intro a b
      rw [cnt_cast]
      have : (fun x => (cnt g wd W z x (b :: α) : ℚ)) = part g wd W b (fun x => (cnt g wd W z x α : ℚ)) := by
        funext x
        exact cnt_cast g wd W z x b α
      rw [this]
      rfl
    have h3 : (cnt g wd W z x (q :: p :: α) : ℚ) = cnt g wd W z x (p :: q :: α) := by
      rw [e, e]; exact h2
    exact_mod_cast h3
  | trans _ _ ih1 ih2 => intro x; rw [ih1, ih2]

end

/-! ### decreasing factors -/

/-- The strictly decreasing words with letters in `l, ..., l + m - 1`. -/
def decWords (l : Nat) : Nat → List (List Nat)
  | 0 => [[]]
  | m + 1 => (decWords l m).map ((l + m) :: ·) ++ decWords l m

theorem gen_dec (g : X → Nat → X) (l m : Nat) (x : ℚ) : gen g id (decWords l m) x = D (op g) l m x := by
  induction m with
  | zero => simp [gen, decWords, D, wop_nil]
  | succ m ih =>
    rw [D, h, ← ih, add_mul, one_mul, gen, decWords, List.map_append, List.sum_append, add_comm]
    congr 1
    simp only [List.map_map, gen]
    generalize decWords l m = V
    induction V with
    | nil => simp
    | cons a V ih =>
      simp only [List.map_cons, List.sum_cons, mul_add, ih]
      congr 1
      simp only [Function.comp_apply, id, List.length_cons, wop_cons, pow_succ, smul_mul_assoc, mul_smul_comm, smul_smul]

/-- The pairs of a strictly decreasing and a strictly increasing word with letters in `0, ..., m - 1`. -/
def uniPairs : Nat → List (List Nat × List Nat)
  | 0 => [([], [])]
  | m + 1 => (uniPairs m).flatMap (fun p => [(m :: p.1, p.2 ++ [m]), (m :: p.1, p.2), (p.1, p.2 ++ [m]), p])

theorem gen_uni (g : X → Nat → X) (m : Nat) (x : ℚ) :
    gen g (fun p : List Nat × List Nat => p.1 ++ p.2) (uniPairs m) x = C (op g) m x := by
  induction m with
  | zero => simp [gen, uniPairs, C, wop_nil]
  | succ m ih =>
    rw [C, h, ← ih, gen, uniPairs]
    simp only [gen]
    generalize uniPairs m = V
    induction V with
    | nil => simp
    | cons p V ih =>
      simp only [List.flatMap_cons, List.map_append, List.sum_append, ih, List.map_cons, List.sum_cons, List.map_nil,
        List.sum_nil, mul_add, add_mul, add_zero]
      simp only [List.length_append, List.length_cons, List.length_nil, List.cons_append, wop_append, wop_cons, wop_nil, one_mul, mul_one,
        smul_mul_assoc, mul_smul_comm, smul_smul, mul_assoc]
      module

theorem dec_comm {g : X → Nat → X} (hg : GRel g) {l : Nat} (hl : 1 ≤ l) (m : Nat) (x y : ℚ) (hx : 0 < x) (_ : 0 < y) :
    gen g id (decWords l m) x * gen g id (decWords l m) y = gen g id (decWords l m) y * gen g id (decWords l m) x := by
  rw [gen_dec, gen_dec]
  exact D_comm (op_rel hg) hl m (by positivity)

theorem uni_comm {g : X → Nat → X} (hg : GRel g) (m : Nat) (x y : ℚ) (hx : 0 < x) (_ : 0 < y) :
    gen g (fun p : List Nat × List Nat => p.1 ++ p.2) (uniPairs m) x *
      gen g (fun p : List Nat × List Nat => p.1 ++ p.2) (uniPairs m) y =
    gen g (fun p : List Nat × List Nat => p.1 ++ p.2) (uniPairs m) y *
      gen g (fun p : List Nat × List Nat => p.1 ++ p.2) (uniPairs m) x := by
  rw [gen_uni, gen_uni]
  exact C_comm (op_rel hg) m (by positivity)

/-- The number of sequences of decreasing factors does not depend on the order of their lengths. -/
theorem cnt_dec_perm {g : X → Nat → X} (hg : GRel g) {l : Nat} (hl : 1 ≤ l) (m : Nat) (z : X) {α β : List Nat}
    (hp : α.Perm β) (x : X) : cnt g id (decWords l m) z x α = cnt g id (decWords l m) z x β :=
  cnt_perm g id _ (dec_comm hg hl m) z hp x

/-- The number of sequences of unimodal factors does not depend on the order of their lengths. -/
theorem cnt_uni_perm {g : X → Nat → X} (hg : GRel g) (m : Nat) (z : X) {α β : List Nat} (hp : α.Perm β) (x : X) :
    cnt g (fun p : List Nat × List Nat => p.1 ++ p.2) (uniPairs m) z x α =
      cnt g (fun p : List Nat × List Nat => p.1 ++ p.2) (uniPairs m) z x β :=
  cnt_perm g _ _ (uni_comm hg m) z hp x

theorem mem_decWords {l m : Nat} {a : List Nat} :
    a ∈ decWords l m ↔ a.Pairwise (· > ·) ∧ ∀ i ∈ a, l ≤ i ∧ i < l + m := by
  induction m generalizing a with
  | zero =>
    simp only [decWords, List.mem_singleton]
    constructor
    · rintro rfl; simp
    · rintro ⟨-, h⟩
      cases a with
      | nil => rfl
      | cons i a => have := h i (by simp); omega
  | succ m ih =>
    simp only [decWords, List.mem_append, List.mem_map, ih]
    constructor
    · rintro (⟨b, ⟨h1, h2⟩, rfl⟩ | ⟨h1, h2⟩)
      · refine ⟨List.pairwise_cons.2 ⟨fun i hi => by have := h2 i hi; omega, h1⟩, fun i hi => ?_⟩
        rcases List.mem_cons.1 hi with rfl | hi
        · omega
        · have := h2 i hi; omega
      · exact ⟨h1, fun i hi => by have := h2 i hi; omega⟩
    · rintro ⟨h1, h2⟩
      cases a with
      | nil => right; simp
      | cons i a =>
        obtain ⟨h3, h4⟩ := List.pairwise_cons.1 h1
        have h5 := h2 i (by simp)
        by_cases hi : i = l + m
        · left
          exact ⟨a, ⟨h4, fun j hj => by have := h3 j hj; have := h2 j (by simp [hj]); omega⟩, by rw [hi]⟩
        · right
          refine ⟨h1, fun j hj => ?_⟩
          rcases List.mem_cons.1 hj with rfl | hj
          · omega
          · have := h3 j hj; have := h2 j (by simp [hj]); omega

theorem nodup_decWords (l m : Nat) : (decWords l m).Nodup := by
  induction m with
  | zero => simp [decWords]
  | succ m ih =>
    rw [decWords, List.nodup_append]
    refine ⟨ih.map (fun a b h => (List.cons.inj h).2), ih, ?_⟩
    rintro a ha b hb rfl
    obtain ⟨c, hc, rfl⟩ := List.mem_map.1 ha
    have := (mem_decWords.1 hb).2 (l + m) (by simp)
    omega

theorem mem_uniPairs {m : Nat} {p : List Nat × List Nat} :
    p ∈ uniPairs m ↔ p.1.Pairwise (· > ·) ∧ p.2.Pairwise (· < ·) ∧ ∀ i ∈ p.1 ++ p.2, i < m := by
  induction m generalizing p with
  | zero =>
    simp only [uniPairs, List.mem_singleton]
    constructor
    · rintro rfl; simp
    · rintro ⟨-, -, h⟩
      obtain ⟨a, b⟩ := p
      cases a with
      | cons i a => have := h i (by simp); omega
      | nil =>
        cases b with
        | cons i b => have := h i (by simp); omega
        | nil => rfl
  | succ m ih =>
    obtain ⟨a, b⟩ := p
    simp only [uniPairs, List.mem_flatMap, List.mem_cons, List.not_mem_nil, or_false]
    constructor
    · rintro ⟨⟨c, d⟩, hq, h⟩
      obtain ⟨h1, h2, h3⟩ := ih.1 hq
      simp only at h1 h2 h3
      have hc : ∀ i ∈ c, i < m := fun i hi => h3 i (by simp [hi])
      have hd : ∀ i ∈ d, i < m := fun i hi => h3 i (by simp [hi])
      have e1 : (m :: c).Pairwise (· > ·) := List.pairwise_cons.2 ⟨fun i hi => hc i hi, h1⟩
      have e2 : (d ++ [m]).Pairwise (· < ·) := List.pairwise_append.2 ⟨h2, by simp, by simpa using hd⟩
      have f1 : ∀ i ∈ m :: c, i < m + 1 := by
        intro i hi
        rcases List.mem_cons.1 hi with rfl | hi
        · omega
        · have := hc i hi; omega
      have f2 : ∀ i ∈ d ++ [m], i < m + 1 := by
        intro i hi
        rcases List.mem_append.1 hi with hi | hi
        · have := hd i hi; omega
        · simp at hi; omega
      have f3 : ∀ i ∈ c, i < m + 1 := fun i hi => by have := hc i hi; omega
      have f4 : ∀ i ∈ d, i < m + 1 := fun i hi => by have := hd i hi; omega
      simp only [Prod.mk.injEq, List.mem_append] at h ⊢
      rcases h with ⟨rfl, rfl⟩ | ⟨rfl, rfl⟩ | ⟨rfl, rfl⟩ | ⟨rfl, rfl⟩
      · exact ⟨e1, e2, fun i hi => hi.elim (f1 i) (f2 i)⟩
      · exact ⟨e1, h2, fun i hi => hi.elim (f1 i) (f4 i)⟩
      · exact ⟨h1, e2, fun i hi => hi.elim (f3 i) (f2 i)⟩
      · exact ⟨h1, h2, fun i hi => hi.elim (f3 i) (f4 i)⟩
    · rintro ⟨h1, h2, h3⟩
      have ha : ∃ c, (a = m :: c ∨ a = c) ∧ c.Pairwise (· > ·) ∧ ∀ i ∈ c, i < m := by
        cases a with
        | nil => exact ⟨[], Or.inr rfl, by simp, by simp⟩
        | cons i c =>
          obtain ⟨h4, h5⟩ := List.pairwise_cons.1 h1
          have h6 := h3 i (by simp)
          by_cases hi : i = m
          · exact ⟨c, Or.inl (by rw [hi]), h5, fun j hj => by have := h4 j hj; omega⟩
          · refine ⟨i :: c, Or.inr rfl, h1, fun j hj => ?_⟩
            rcases List.mem_cons.1 hj with rfl | hj
            · omega
            · have := h4 j hj; omega
      have hb : ∃ d, (b = d ++ [m] ∨ b = d) ∧ d.Pairwise (· < ·) ∧ ∀ i ∈ d, i < m := by
        rcases List.eq_nil_or_concat b with rfl | ⟨d, i, hd⟩
        · exact ⟨[], Or.inr rfl, by simp, by simp⟩
        · rw [List.concat_eq_append] at hd
          subst hd
          obtain ⟨h4, -, h5⟩ := List.pairwise_append.1 h2
          have h6 := h3 i (by simp)
          by_cases hi : i = m
          · exact ⟨d, Or.inl (by rw [hi]), h4, fun j hj => by have := h5 j hj i (by simp); omega⟩
          · refine ⟨d ++ [i], Or.inr rfl, h2, fun j hj => ?_⟩
            rcases List.mem_append.1 hj with hj | hj
            · have := h5 j hj i (by simp); omega
            · simp at hj; omega
      obtain ⟨c, hc, hc1, hc2⟩ := ha
      obtain ⟨d, hd, hd1, hd2⟩ := hb
      refine ⟨(c, d), ih.2 ⟨hc1, hd1, fun i hi => (List.mem_append.1 hi).elim (hc2 i) (hd2 i)⟩, ?_⟩
      rcases hc with rfl | rfl <;> rcases hd with rfl | rfl <;> simp

theorem nodup_uniPairs (m : Nat) : (uniPairs m).Nodup := by
  induction m with
  | zero => simp [uniPairs]
  | succ m ih =>
    rw [uniPairs, List.nodup_flatMap]
    have hne : ∀ p ∈ uniPairs m, ∀ i ∈ p.1 ++ p.2, i < m := fun p hp => (mem_uniPairs.1 hp).2.2
    refine ⟨?_, ?_⟩
    · rintro ⟨a, b⟩ -
      simp
    · refine List.Pairwise.imp_of_mem ?_ ih
      rintro ⟨a, b⟩ ⟨c, d⟩ hp hq hpq
      have h1 := hne _ hp
      have h2 := hne _ hq
      have k : ∀ (x y : List Nat), (∀ i ∈ y, i < m) → m :: x ≠ y := by
        rintro x y hy rfl
        have := hy m (by simp)
        omega
      have k' : ∀ (x y : List Nat), (∀ i ∈ y, i < m) → x ++ [m] ≠ y := by
        rintro x y hy rfl
        have := hy m (by simp)
        omega
      have ha : ∀ i ∈ a, i < m := fun i hi => h1 i (by simp [hi])
      have hb : ∀ i ∈ b, i < m := fun i hi => h1 i (by simp [hi])
      have hc : ∀ i ∈ c, i < m := fun i hi => h2 i (by simp [hi])
      have hd : ∀ i ∈ d, i < m := fun i hi => h2 i (by simp [hi])
      simp only [Function.onFun, List.disjoint_left, List.mem_cons, List.not_mem_nil, or_false]
      rintro q hq1 hq2
      apply hpq
      rcases hq1 with rfl | rfl | rfl | rfl <;> simp only [Prod.mk.injEq, List.cons.injEq, true_and, List.append_cancel_right_eq,
        k _ _ hc, (k _ _ ha).symm, k' _ _ hd, (k' _ _ hb).symm,
        false_and, and_false, false_or, or_false] at hq2 <;> simp [hq2.1, hq2.2]

end Verif.YB
