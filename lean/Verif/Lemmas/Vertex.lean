import Verif.Lemmas.VertexPair
import Mathlib.Data.Matrix.Mul
import Mathlib.Algebra.Module.LinearMap.End
import Mathlib.Algebra.BigOperators.Intervals
import Mathlib.Algebra.Ring.GeomSum
import Mathlib.Algebra.BigOperators.Group.Finset.Powerset
import Mathlib.Tactic.NoncommRing
import Mathlib.Algebra.Module.Submodule.LinearMap

/-!
Four rows of a vertex model: the operators that remove a horizontal and a vertical strip commute.
-/

namespace Verif.Vertex

open Finset

/-! ### products over the sites -/

section ring

variable {E : Type*} [Ring E]

/-- The product over the sites `N, ..., 1`, for the occupations `s` above and `t` below. -/
def siteProd (L : Bool → Bool → E) (s t : Finset ℕ) : ℕ → E
  | 0 => 1
  | N + 1 => L (decide (N + 1 ∈ s)) (decide (N + 1 ∈ t)) * siteProd L s t N

theorem siteProd_congr (L : Bool → Bool → E) {s t s' t' : Finset ℕ} (N : ℕ) (hs : ∀ p ≤ N, p ∈ s ↔ p ∈ s')
    (ht : ∀ p ≤ N, p ∈ t ↔ p ∈ t') : siteProd L s t N = siteProd L s' t' N := by
  induction N with
  | zero => rfl
  | succ N ih =>
    rw [siteProd, siteProd, ih (fun p hp => hs p (by omega)) (fun p hp => ht p (by omega))]
    congr 2 <;> simp [hs (N + 1) le_rfl, ht (N + 1) le_rfl]

theorem siteProd_inter {L L' : Bool → Bool → E} {m : E} (h : ∀ a b, L a b * m = m * L' a b) (s t : Finset ℕ) (N : ℕ) :
    siteProd L s t N * m = m * siteProd L' s t N := by
  induction N with
  | zero => simp [siteProd]
  | succ N ih => rw [siteProd, siteProd, mul_assoc, ih, ← mul_assoc, h, mul_assoc]

theorem siteProd_commute {P Q : Bool → Bool → E} (h : ∀ a b c d, P a b * Q c d = Q c d * P a b) (s t : Finset ℕ) (N : ℕ)
    (c d : Bool) : siteProd P s t N * Q c d = Q c d * siteProd P s t N :=
  siteProd_inter (L := P) (L' := P) (fun a b => h a b c d) s t N

/-- Two rows. -/
def rowMul (P Q : Bool → Bool → E) (a b : Bool) : E := P a false * Q false b + P a true * Q true b

theorem siteProd_mul {P Q : Bool → Bool → E} (h : ∀ a b c d, P a b * Q c d = Q c d * P a b) (s t : Finset ℕ) (N : ℕ) :
    siteProd (rowMul P Q) s t N = ∑ u ∈ (Icc 1 N).powerset, siteProd P s u N * siteProd Q u t N := by
  induction N with
  | zero => simp [siteProd]
  | succ N ih =>
    rw [siteProd, ih, show Icc 1 (N + 1) = insert (N + 1) (Icc 1 N) from by ext p; rw [mem_insert, mem_Icc, mem_Icc]; omega,
      sum_powerset_insert (by simp), rowMul, add_mul, mul_sum, mul_sum]
    congr 1
    · refine sum_congr rfl (fun u hu => ?_)
      have hN : N + 1 ∉ u := fun hc => by simpa using mem_powerset.1 hu hc
      rw [siteProd, siteProd, decide_eq_false hN, mul_assoc, mul_assoc, ← mul_assoc (Q _ _),
        ← siteProd_commute h s u N, mul_assoc]
    · refine sum_congr rfl (fun u hu => ?_)
      have hN : N + 1 ∈ insert (N + 1) u := mem_insert_self _ _
      have hcg : ∀ p ≤ N, p ∈ insert (N + 1) u ↔ p ∈ u := by
        intro p hp
        rw [mem_insert]
        constructor
        · rintro (rfl | h)
          · omega
          · exact h
        · exact Or.inr
      rw [siteProd, siteProd, decide_eq_true hN, siteProd_congr P (s := s) (t := insert (N + 1) u) (s' := s) (t' := u) N
        (fun _ _ => Iff.rfl) hcg, siteProd_congr Q (s := insert (N + 1) u) (t := t) (s' := u) (t' := t) N hcg
        (fun _ _ => Iff.rfl), mul_assoc, mul_assoc, ← mul_assoc (Q _ _), ← siteProd_commute h s u N, mul_assoc]

end ring

variable {K : Type*} [Field K]

/-! ### four flows -/

/-- Functions of four flows. -/
abbrev Flows (K : Type*) := ℕ → ℕ → ℕ → ℕ → K

/-- One row, at one of four places. -/
def at1 (w : Bool → Bool → ℕ → K) (a b : Bool) : Module.End K (Flows K) where
  toFun f i j k l := if b.toNat ≤ i + a.toNat then w a b i * f (i + a.toNat - b.toNat) j k l else 0
  map_add' f g := by
    funext i j k l
    simp only [Pi.add_apply]
    split_ifs <;> ring
  map_smul' c f := by
    funext i j k l
    simp only [Pi.smul_apply, smul_eq_mul, RingHom.id_apply]
    split_ifs <;> ring

def at2 (w : Bool → Bool → ℕ → K) (a b : Bool) : Module.End K (Flows K) where
  toFun f i j k l := if b.toNat ≤ j + a.toNat then w a b j * f i (j + a.toNat - b.toNat) k l else 0
  map_add' f g := by
    funext i j k l
    simp only [Pi.add_apply]
    split_ifs <;> ring
  map_smul' c f := by
    funext i j k l
    simp only [Pi.smul_apply, smul_eq_mul, RingHom.id_apply]
    split_ifs <;> ring

def at3 (w : Bool → Bool → ℕ → K) (a b : Bool) : Module.End K (Flows K) where
  toFun f i j k l := if b.toNat ≤ k + a.toNat then w a b k * f i j (k + a.toNat - b.toNat) l else 0
  map_add' f g := by
    funext i j k l
    simp only [Pi.add_apply]
    split_ifs <;> ring
  map_smul' c f := by
    funext i j k l
    simp only [Pi.smul_apply, smul_eq_mul, RingHom.id_apply]
    split_ifs <;> ring

def at4 (w : Bool → Bool → ℕ → K) (a b : Bool) : Module.End K (Flows K) where
  toFun f i j k l := if b.toNat ≤ l + a.toNat then w a b l * f i j k (l + a.toNat - b.toNat) else 0
  map_add' f g := by
    funext i j k l
    simp only [Pi.add_apply]
    split_ifs <;> ring
  map_smul' c f := by
    funext i j k l
    simp only [Pi.smul_apply, smul_eq_mul, RingHom.id_apply]
    split_ifs <;> ring

section commute

variable (w w' : Bool → Bool → ℕ → K) (a b c d : Bool)

theorem at12_comm : at1 w a b * at2 w' c d = at2 w' c d * at1 w a b := by
  refine LinearMap.ext (fun f => ?_)
  funext i j k l
  simp only [Module.End.mul_apply, at1, at2, LinearMap.coe_mk, AddHom.coe_mk]
  split_ifs <;> ring

theorem at13_comm : at1 w a b * at3 w' c d = at3 w' c d * at1 w a b := by
  refine LinearMap.ext (fun f => ?_)
  funext i j k l
  simp only [Module.End.mul_apply, at1, at3, LinearMap.coe_mk, AddHom.coe_mk]
  split_ifs <;> ring

theorem at14_comm : at1 w a b * at4 w' c d = at4 w' c d * at1 w a b := by
  refine LinearMap.ext (fun f => ?_)
  funext i j k l
  simp only [Module.End.mul_apply, at1, at4, LinearMap.coe_mk, AddHom.coe_mk]
  split_ifs <;> ring

theorem at23_comm : at2 w a b * at3 w' c d = at3 w' c d * at2 w a b := by
  refine LinearMap.ext (fun f => ?_)
  funext i j k l
  simp only [Module.End.mul_apply, at2, at3, LinearMap.coe_mk, AddHom.coe_mk]
  split_ifs <;> ring

theorem at24_comm : at2 w a b * at4 w' c d = at4 w' c d * at2 w a b := by
  refine LinearMap.ext (fun f => ?_)
  funext i j k l
  simp only [Module.End.mul_apply, at2, at4, LinearMap.coe_mk, AddHom.coe_mk]
  split_ifs <;> ring

theorem at34_comm : at3 w a b * at4 w' c d = at4 w' c d * at3 w a b := by
  refine LinearMap.ext (fun f => ?_)
  funext i j k l
  simp only [Module.End.mul_apply, at3, at4, LinearMap.coe_mk, AddHom.coe_mk]
  split_ifs <;> ring

end commute

/-! ### operators on two of the flows -/

/-- An operator on functions of two flows. -/
structure PairOp (K : Type*) [Field K] where
  toFun : (ℕ → ℕ → K) → ℕ → ℕ → K
  add : ∀ v w, toFun (fun i m => v i m + w i m) = fun i m => toFun v i m + toFun w i m
  smul : ∀ (c : K) v, toFun (fun i m => c * v i m) = fun i m => c * toFun v i m

theorem PairOp.zero (M : PairOp K) : M.toFun (fun _ _ => 0) = fun _ _ => 0 := by
  have := M.smul 0 (fun _ _ => 0)
  simpa using this

theorem ccSum_add (x : K) (v w : ℕ → ℕ → K) (i m : ℕ) :
    ccSum x (fun i m => v i m + w i m) i m = ccSum x v i m + ccSum x w i m := by
  induction m generalizing i with
  | zero => simp [ccSum]
  | succ m ih => simp only [ccSum, ih]; ring

theorem ccSum_smul (x c : K) (v : ℕ → ℕ → K) (i m : ℕ) : ccSum x (fun i m => c * v i m) i m = c * ccSum x v i m := by
  induction m generalizing i with
  | zero => simp [ccSum]
  | succ m ih => simp only [ccSum, ih]; ring

theorem crUp_add (x y : K) (v w : ℕ → ℕ → K) (i m : ℕ) :
    crUp x y (fun i m => v i m + w i m) i m = crUp x y v i m + crUp x y w i m := by
  induction m generalizing i with
  | zero => simp [crUp]
  | succ m ih => simp only [crUp, ih]; ring

theorem crUp_smul (x y c : K) (v : ℕ → ℕ → K) (i m : ℕ) :
    crUp x y (fun i m => c * v i m) i m = c * crUp x y v i m := by
  induction m generalizing i with
  | zero => simp [crUp]
  | succ m ih => simp only [crUp, ih]; ring

theorem crDown_add (x y : K) (v w : ℕ → ℕ → K) (i m : ℕ) :
    crDown x y (fun i m => v i m + w i m) i m = crDown x y v i m + crDown x y w i m := by
  induction i generalizing m with
  | zero => simp [crDown]
  | succ m ih => simp only [crDown, ih]; ring

theorem crDown_smul (x y c : K) (v : ℕ → ℕ → K) (i m : ℕ) :
    crDown x y (fun i m => c * v i m) i m = c * crDown x y v i m := by
  induction i generalizing m with
  | zero => simp [crDown]
  | succ m ih => simp only [crDown, ih]; ring

def ccPair (x y : K) : PairOp K where
  toFun := ccOp x y
  add v w := by funext i m; simp only [ccOp, ccSum_add]; ring
  smul c v := by funext i m; simp only [ccOp, ccSum_smul]; ring

def crPair (x y : K) : PairOp K where
  toFun := crOp x y
  add v w := by funext i m; simp only [crOp, crUp_add, crDown_add]; ring
  smul c v := by funext i m; simp only [crOp, crUp_smul, crDown_smul]; ring

/-- Two rows that count rows: the mirror image of two rows that count columns. -/
def rrPair (x y : K) : PairOp K where
  toFun v i m := ccOp y x (fun i m => v m i) m i
  add v w := by funext i m; simp only [ccOp, ccSum_add]; ring
  smul c v := by funext i m; simp only [ccOp, ccSum_smul]; ring

theorem pairStep_mirror (x y : K) (a b : Bool) (v : ℕ → ℕ → K) (i m : ℕ) :
    pairStep (wR x) (wR y) a b v i m = pairStep (wC y) (wC x) (!b) (!a) (fun i m => v m i) m i := by
  cases a <;> cases b <;> simp [pairStep, wR, wC] <;> split_ifs <;> ring

def on12 (M : PairOp K) : Module.End K (Flows K) where
  toFun f i j k l := M.toFun (fun i j => f i j k l) i j
  map_add' f g := by funext i j k l; exact congrFun (congrFun (M.add _ _) i) j
  map_smul' c f := by funext i j k l; exact congrFun (congrFun (M.smul _ _) i) j

def on23 (M : PairOp K) : Module.End K (Flows K) where
  toFun f i j k l := M.toFun (fun j k => f i j k l) j k
  map_add' f g := by funext i j k l; exact congrFun (congrFun (M.add _ _) j) k
  map_smul' c f := by funext i j k l; exact congrFun (congrFun (M.smul _ _) j) k

def on34 (M : PairOp K) : Module.End K (Flows K) where
  toFun f i j k l := M.toFun (fun k l => f i j k l) k l
  map_add' f g := by funext i j k l; exact congrFun (congrFun (M.add _ _) k) l
  map_smul' c f := by funext i j k l; exact congrFun (congrFun (M.smul _ _) k) l

/-- `m` turns the row `L'` into the row `L`. -/
def Inter {E : Type*} [Ring E] (m : E) (L L' : Bool → Bool → E) : Prop := ∀ a b, L a b * m = m * L' a b

theorem Inter.rowMul {E : Type*} [Ring E] {m : E} {P P' Q Q' : Bool → Bool → E} (hP : Inter m P P') (hQ : Inter m Q Q') :
    Inter m (rowMul P Q) (rowMul P' Q') := by
  intro a b
  rw [Vertex.rowMul, Vertex.rowMul, add_mul, mul_add, mul_assoc, mul_assoc, hQ, hQ, ← mul_assoc, ← mul_assoc, hP, hP,
    mul_assoc, mul_assoc]

theorem rowMul_assoc {E : Type*} [Ring E] (P Q R : Bool → Bool → E) :
    rowMul (rowMul P Q) R = rowMul P (rowMul Q R) := by
  funext a b
  simp only [rowMul]
  noncomm_ring

variable (M : PairOp K) (w : Bool → Bool → ℕ → K)

theorem inter_12_3 : Inter (on12 M) (at3 w) (at3 w) := by
  intro a b
  refine LinearMap.ext (fun f => ?_)
  funext i j k l
  simp only [Module.End.mul_apply, at3, on12, LinearMap.coe_mk, AddHom.coe_mk]
  split_ifs
  · rw [M.smul]
  · rw [M.zero]

theorem inter_12_4 : Inter (on12 M) (at4 w) (at4 w) := by
  intro a b
  refine LinearMap.ext (fun f => ?_)
  funext i j k l
  simp only [Module.End.mul_apply, at4, on12, LinearMap.coe_mk, AddHom.coe_mk]
  split_ifs
  · rw [M.smul]
  · rw [M.zero]

theorem inter_23_1 : Inter (on23 M) (at1 w) (at1 w) := by
  intro a b
  refine LinearMap.ext (fun f => ?_)
  funext i j k l
  simp only [Module.End.mul_apply, at1, on23, LinearMap.coe_mk, AddHom.coe_mk]
  split_ifs
  · rw [M.smul]
  · rw [M.zero]

theorem inter_23_4 : Inter (on23 M) (at4 w) (at4 w) := by
  intro a b
  refine LinearMap.ext (fun f => ?_)
  funext i j k l
  simp only [Module.End.mul_apply, at4, on23, LinearMap.coe_mk, AddHom.coe_mk]
  split_ifs
  · rw [M.smul]
  · rw [M.zero]

theorem inter_34_1 : Inter (on34 M) (at1 w) (at1 w) := by
  intro a b
  refine LinearMap.ext (fun f => ?_)
  funext i j k l
  simp only [Module.End.mul_apply, at1, on34, LinearMap.coe_mk, AddHom.coe_mk]
  split_ifs
  · rw [M.smul]
  · rw [M.zero]

theorem inter_34_2 : Inter (on34 M) (at2 w) (at2 w) := by
  intro a b
  refine LinearMap.ext (fun f => ?_)
  funext i j k l
  simp only [Module.End.mul_apply, at2, on34, LinearMap.coe_mk, AddHom.coe_mk]
  split_ifs
  · rw [M.smul]
  · rw [M.zero]

variable {M} {P Q P' Q' : Bool → Bool → ℕ → K}

theorem rowMul_12 (a b : Bool) (f : Flows K) (i j k l : ℕ) :
    rowMul (at1 P) (at2 Q) a b f i j k l = pairStep P Q a b (fun i j => f i j k l) i j := by
  simp only [rowMul, LinearMap.add_apply, Module.End.mul_apply, at1, at2, LinearMap.coe_mk, AddHom.coe_mk, Pi.add_apply,
    pairStep]
  cases a <;> cases b <;> simp <;> (try split_ifs) <;> ring1

theorem rowMul_23 (a b : Bool) (f : Flows K) (i j k l : ℕ) :
    rowMul (at2 P) (at3 Q) a b f i j k l = pairStep P Q a b (fun j k => f i j k l) j k := by
  simp only [rowMul, LinearMap.add_apply, Module.End.mul_apply, at2, at3, LinearMap.coe_mk, AddHom.coe_mk, Pi.add_apply,
    pairStep]
  cases a <;> cases b <;> simp <;> (try split_ifs) <;> ring1

theorem rowMul_34 (a b : Bool) (f : Flows K) (i j k l : ℕ) :
    rowMul (at3 P) (at4 Q) a b f i j k l = pairStep P Q a b (fun k l => f i j k l) k l := by
  simp only [rowMul, LinearMap.add_apply, Module.End.mul_apply, at3, at4, LinearMap.coe_mk, AddHom.coe_mk, Pi.add_apply,
    pairStep]
  cases a <;> cases b <;> simp <;> (try split_ifs) <;> ring1

theorem inter_12 (h : ∀ a b v, pairStep P Q a b (M.toFun v) = M.toFun (pairStep P' Q' a b v)) :
    Inter (on12 M) (rowMul (at1 P) (at2 Q)) (rowMul (at1 P') (at2 Q')) := by
  intro a b
  refine LinearMap.ext (fun f => ?_)
  funext i j k l
  rw [Module.End.mul_apply, Module.End.mul_apply, rowMul_12]
  simp only [on12, LinearMap.coe_mk, AddHom.coe_mk, rowMul_12]
  exact congrFun (congrFun (h a b _) i) j

theorem inter_23 (h : ∀ a b v, pairStep P Q a b (M.toFun v) = M.toFun (pairStep P' Q' a b v)) :
    Inter (on23 M) (rowMul (at2 P) (at3 Q)) (rowMul (at2 P') (at3 Q')) := by
  intro a b
  refine LinearMap.ext (fun f => ?_)
  funext i j k l
  rw [Module.End.mul_apply, Module.End.mul_apply, rowMul_23]
  simp only [on23, LinearMap.coe_mk, AddHom.coe_mk, rowMul_23]
  exact congrFun (congrFun (h a b _) j) k

theorem inter_34 (h : ∀ a b v, pairStep P Q a b (M.toFun v) = M.toFun (pairStep P' Q' a b v)) :
    Inter (on34 M) (rowMul (at3 P) (at4 Q)) (rowMul (at3 P') (at4 Q')) := by
  intro a b
  refine LinearMap.ext (fun f => ?_)
  funext i j k l
  rw [Module.End.mul_apply, Module.End.mul_apply, rowMul_34]
  simp only [on34, LinearMap.coe_mk, AddHom.coe_mk, rowMul_34]
  exact congrFun (congrFun (h a b _) k) l

/-- Four rows. -/
def four (P Q R S : Bool → Bool → ℕ → K) : Bool → Bool → Module.End K (Flows K) :=
  rowMul (at1 P) (rowMul (at2 Q) (rowMul (at3 R) (at4 S)))

variable {x y : K}

theorem rr_pairStep (hx : x ≠ 0) (hy : y ≠ 0) (a b : Bool) (v : ℕ → ℕ → K) :
    pairStep (wR x) (wR y) a b ((rrPair x y).toFun v) = (rrPair x y).toFun (pairStep (wR y) (wR x) a b v) := by
  funext i m
  rw [pairStep_mirror]
  have h := congrFun (congrFun (ccOp_pairStep hy hx (!b) (!a) (fun i m => v m i)) m) i
  show pairStep (wC y) (wC x) (!b) (!a) (ccOp y x (fun i m => v m i)) m i = ccOp y x (fun i m => pairStep (wR y) (wR x) a b v m i) m i
  rw [h]
  congr 1
  funext i m
  rw [pairStep_mirror]

/-- The rows that remove a vertical strip and a horizontal strip in the middle are exchanged. -/
theorem four_mid (x y : K) (P S : Bool → Bool → ℕ → K) :
    Inter (on23 (crPair y x)) (four P (wC y) (wR x) S) (four P (wR x) (wC y) S) := by
  unfold four
  rw [← rowMul_assoc (at2 (wC y)), ← rowMul_assoc (at2 (wR x))]
  exact (inter_23_1 _ _).rowMul ((inter_23 (M := crPair y x) (fun a b v => crOp_pairStep y x v a b)).rowMul (inter_23_4 _ _))

theorem four_cc (hx : x ≠ 0) (hy : y ≠ 0) (R S : Bool → Bool → ℕ → K) :
    Inter (on12 (ccPair x y)) (four (wC x) (wC y) R S) (four (wC y) (wC x) R S) := by
  unfold four
  rw [← rowMul_assoc (at1 (wC x)), ← rowMul_assoc (at1 (wC y))]
  exact (inter_12 (M := ccPair x y) (fun a b v => ccOp_pairStep hx hy a b v)).rowMul
    ((inter_12_3 _ _).rowMul (inter_12_4 _ _))

theorem four_rr (hx : x ≠ 0) (hy : y ≠ 0) (P Q : Bool → Bool → ℕ → K) :
    Inter (on34 (rrPair x y)) (four P Q (wR x) (wR y)) (four P Q (wR y) (wR x)) := by
  unfold four
  exact (inter_34_1 _ _).rowMul ((inter_34_2 _ _).rowMul (inter_34 (fun a b v => rr_pairStep hx hy a b v)))

/-- If the boundary values match, then the two variables may be exchanged. -/
theorem four_swap (hx : x ≠ 0) (hy : y ≠ 0) (B B' : Flows K)
    (hB : on34 (rrPair x y) (on12 (ccPair x y) (on23 (crPair x y) B')) = on23 (crPair y x) B) (s t : Finset ℕ) (N : ℕ) :
    siteProd (four (wC x) (wR x) (wC y) (wR y)) s t N B 0 0 0 0 =
      siteProd (four (wC y) (wR y) (wC x) (wR x)) s t N B' 0 0 0 0 := by
  have e1 := siteProd_inter (four_mid x y (wC x) (wR y)) s t N
  have e2 := siteProd_inter (four_mid y x (wC y) (wR x)) s t N
  have e3 := siteProd_inter (four_cc hx hy (wR y) (wR x)) s t N
  have e4 := siteProd_inter (four_rr hx hy (wC x) (wC y)) s t N
  have ev1 : ∀ (x y : K) (f : Flows K), on23 (crPair x y) f 0 0 0 0 = f 0 0 0 0 := by
    intro x y f
    simp [on23, crPair, crOp, crUp, crDown]
  have ev2 : ∀ f : Flows K, on12 (ccPair x y) f 0 0 0 0 = f 0 0 0 0 := by
    intro f
    simp [on12, ccPair, ccOp, ccSum]
  have ev3 : ∀ f : Flows K, on34 (rrPair x y) f 0 0 0 0 = f 0 0 0 0 := by
    intro f
    simp [on34, rrPair, ccOp, ccSum]
  rw [← ev1 y x ((siteProd (four (wC x) (wR x) (wC y) (wR y)) s t N) B), ← Module.End.mul_apply, ← e1, Module.End.mul_apply, ← hB,
    ← Module.End.mul_apply, e4, Module.End.mul_apply, ev3, ← Module.End.mul_apply, e3, Module.End.mul_apply, ev2,
    ← Module.End.mul_apply, e2, Module.End.mul_apply, ev1]

/-! ### the boundary -/

/-- What `ccOp` makes of a product. -/
def recP (x y : K) (s : ℕ → K) : ℕ → K
  | 0 => s 0
  | m + 1 => y * (1 - x) * recP x y s m + s (m + 1) - x * (1 - y) * s m

theorem ccOp_pow (hy : y ≠ 0) (s : ℕ → K) (i m : ℕ) : ccOp x y (fun i m => y ^ i * s m) i m = x ^ i * recP x y s m := by
  have h : ∀ m i, (y - x) * ccSum x (fun i m => y ^ i * s m) i m = y ^ (i + 1) * (recP x y s m - s m) := by
    intro m
    induction m with
    | zero => intro i; simp [ccSum, recP]
    | succ m ih =>
      intro i
      rw [ccSum, recP]
      linear_combination (1 - x) * ih (i + 1)
  have h2 := h m i
  have h3 : (x / y) ^ i * y ^ i = x ^ i := by rw [← mul_pow, div_mul_cancel₀ _ hy]
  have h4 : (y - x) / y * ccSum x (fun i m => y ^ i * s m) i m = y ^ i * (recP x y s m - s m) := by
    rw [div_mul_eq_mul_div, h2, pow_succ]
    field_simp
  rw [ccOp, h4]
  linear_combination recP x y s m * h3

/-- `sum_{t <= m} (1-x)^t x^(m-t)` -/
def hSum (x : K) : ℕ → K
  | 0 => 1
  | m + 1 => x ^ (m + 1) + (1 - x) * hSum x m

/-- `sum_{j < i} (1-y)^(i-j) y^j` -/
def gSum (y : K) : ℕ → K
  | 0 => 0
  | i + 1 => (1 - y) * (y ^ i + gSum y i)

def boundQ (x y : K) (i m : ℕ) : K := x ^ i * y ^ (i + m) * hSum x m + y ^ m * x ^ (i + m) * gSum y i

theorem crOp_pow (x y : K) (i m : ℕ) : crOp x y (fun i m => y ^ i * x ^ m) i m = boundQ x y i m := by
  have h1 : ∀ m i, crUp x y (fun i m => y ^ i * x ^ m) i m = y ^ (i + m) * hSum x m := by
    intro m
    induction m with
    | zero => intro i; simp [crUp, hSum]
    | succ m ih => intro i; rw [crUp, ih, hSum]; ring
  have h2 : ∀ i m, crDown x y (fun i m => y ^ i * x ^ m) i m = x ^ (i + m) * gSum y i := by
    intro i
    induction i with
    | zero => intro m; simp [crDown, gSum]
    | succ i ih => intro m; rw [crDown, ih, gSum]; ring
  rw [crOp, h1, h2, boundQ]
  ring

/-- The values on both sides agree. -/
theorem recP_bound_zero (x y : K) (c : ℕ) : recP x y (fun c => boundQ x y c 0) c = boundQ y x c 0 := by
  induction c with
  | zero => simp [recP, boundQ, gSum, hSum]
  | succ c ih =>
    rw [recP, ih]
    simp only [boundQ, gSum, hSum]
    ring

theorem recP_bound_step (x y : K) (c r : ℕ) :
    recP x y (fun c => boundQ x y c (r + 1)) c - y * (1 - x) * recP x y (fun c => boundQ x y c r) c =
      boundQ y x c (r + 1) - x * (1 - y) * boundQ y x c r := by
  induction c with
  | zero =>
    simp only [recP, boundQ, gSum, hSum]
    ring
  | succ c ih =>
    rw [recP, recP]
    simp only [boundQ, gSum, hSum] at ih ⊢
    linear_combination y * (1 - x) * ih

theorem recP_bound (x y : K) (c r : ℕ) :
    recP y x (fun r => recP x y (fun c => boundQ x y c r) c) r = boundQ y x c r := by
  induction r with
  | zero => rw [recP, recP_bound_zero]
  | succ r ih =>
    rw [recP, ih]
    have := recP_bound_step x y c r
    linear_combination this

theorem boundary_q (hx : x ≠ 0) (hy : y ≠ 0) :
    on34 (rrPair x y) (on12 (ccPair x y) (on23 (crPair x y) (fun i j k l => y ^ i * y ^ j * x ^ k * x ^ l))) =
      on23 (crPair y x) (fun i j k l => x ^ i * x ^ j * y ^ k * y ^ l) := by
  have h1 : ∀ x y : K, on23 (crPair x y) (fun i j k l => y ^ i * y ^ j * x ^ k * x ^ l) =
      fun i j k l => y ^ i * x ^ l * boundQ x y j k := by
    intro x y
    funext i j k l
    have e : (fun j k => y ^ i * y ^ j * x ^ k * x ^ l) = fun j k => (y ^ i * x ^ l) * (y ^ j * x ^ k) := by
      funext j k; ring
    show (crPair x y).toFun (fun j k => y ^ i * y ^ j * x ^ k * x ^ l) j k = _
    rw [e, (crPair x y).smul]
    show y ^ i * x ^ l * crOp x y (fun i m => y ^ i * x ^ m) j k = _
    rw [crOp_pow]
  rw [h1, h1]
  have h2 : on12 (ccPair x y) (fun i j k l => y ^ i * x ^ l * boundQ x y j k) =
      fun i j k l => x ^ i * x ^ l * recP x y (fun c => boundQ x y c k) j := by
    funext i j k l
    have e : (fun i j => y ^ i * x ^ l * boundQ x y j k) = fun i j => x ^ l * (y ^ i * boundQ x y j k) := by
      funext i j; ring
    show (ccPair x y).toFun (fun i j => y ^ i * x ^ l * boundQ x y j k) i j = _
    rw [e, (ccPair x y).smul]
    show x ^ l * ccOp x y (fun i m => y ^ i * boundQ x y m k) i j = _
    rw [ccOp_pow hy (fun m => boundQ x y m k)]
    ring
  rw [h2]
  funext i j k l
  have e : (fun k l => x ^ i * x ^ l * recP x y (fun c => boundQ x y c k) j) =
      fun k l => x ^ i * (x ^ l * recP x y (fun c => boundQ x y c k) j) := by
    funext k l; ring
  show (rrPair x y).toFun (fun k l => x ^ i * x ^ l * recP x y (fun c => boundQ x y c k) j) k l = _
  rw [e, (rrPair x y).smul]
  show x ^ i * ccOp y x (fun l k => x ^ l * recP x y (fun c => boundQ x y c k) j) l k = _
  rw [ccOp_pow hx (fun k => recP x y (fun c => boundQ x y c k) j), recP_bound]
  ring

/-- No flow at the boundary. -/
def dlt (k : ℕ) : K := if k = 0 then 1 else 0

theorem boundary_p (hx : x ≠ 0) :
    on34 (rrPair x y) (on12 (ccPair x y) (on23 (crPair x y) (fun i j k l => dlt i * y ^ j * dlt k * x ^ l))) =
      on23 (crPair y x) (fun i j k l => dlt i * x ^ j * dlt k * y ^ l) := by
  have h0 : ∀ (x y : K) (i m : ℕ), crOp x y (fun i m => y ^ i * dlt m) i m = x ^ i * y ^ i * (y * (1 - x)) ^ m := by
    intro x y i m
    have h1 : ∀ m i, crUp x y (fun i m => y ^ i * dlt m) i m = y ^ (i + m) * (1 - x) ^ m := by
      intro m
      induction m with
      | zero => intro i; simp [crUp, dlt]
      | succ m ih => intro i; rw [crUp, ih]; simp [dlt]; ring
    have h2 : ∀ i m, crDown x y (fun i m => y ^ i * dlt m) i m = 0 := by
      intro i
      induction i with
      | zero => intro m; simp [crDown]
      | succ i ih => intro m; rw [crDown, ih]; simp [dlt]
    rw [crOp, h1, h2, mul_pow]
    ring
  have h1 : ∀ x y : K, on23 (crPair x y) (fun i j k l => dlt i * y ^ j * dlt k * x ^ l) =
      fun i j k l => dlt i * (x ^ l * (x ^ j * y ^ j * (y * (1 - x)) ^ k)) := by
    intro x y
    funext i j k l
    have e : (fun j k => dlt i * y ^ j * dlt k * x ^ l) = fun j k => (dlt i * x ^ l) * (y ^ j * dlt k) := by
      funext j k; ring
    show (crPair x y).toFun (fun j k => dlt i * y ^ j * dlt k * x ^ l) j k = _
    rw [e, (crPair x y).smul]
    show dlt i * x ^ l * crOp x y (fun i m => y ^ i * dlt m) j k = _
    rw [h0]
    ring
  rw [h1, h1]
  have h2 : on12 (ccPair x y) (fun i j k l => dlt i * (x ^ l * (x ^ j * y ^ j * (y * (1 - x)) ^ k))) =
      fun i j k l => dlt i * (x ^ l * (x ^ j * y ^ j * (y * (1 - x)) ^ k)) := by
    funext i j k l
    show ccOp x y (fun i j => dlt i * (x ^ l * (x ^ j * y ^ j * (y * (1 - x)) ^ k))) i j = _
    have h3 : ∀ m i, ccSum x (fun i j => dlt i * (x ^ l * (x ^ j * y ^ j * (y * (1 - x)) ^ k))) i m = 0 := by
      intro m
      induction m with
      | zero => intro i; rfl
      | succ m ih => intro i; rw [ccSum, ih]; simp [dlt]
    rw [ccOp, h3]
    cases i with
    | zero => simp
    | succ i => simp [dlt]
  rw [h2]
  funext i j k l
  have e : (fun k l => dlt i * (x ^ l * (x ^ j * y ^ j * (y * (1 - x)) ^ k))) =
      fun k l => (dlt i * (x ^ j * y ^ j)) * (x ^ l * (y * (1 - x)) ^ k) := by
    funext k l; ring
  show (rrPair x y).toFun (fun k l => dlt i * (x ^ l * (x ^ j * y ^ j * (y * (1 - x)) ^ k))) k l = _
  rw [e, (rrPair x y).smul]
  show dlt i * (x ^ j * y ^ j) * ccOp y x (fun l k => x ^ l * (y * (1 - x)) ^ k) l k = _
  have h4 : ∀ k, recP y x (fun k => (y * (1 - x)) ^ k) k = (x * (1 - y)) ^ k := by
    intro k
    induction k with
    | zero => simp [recP]
    | succ k ih => rw [recP, ih]; ring
  rw [ccOp_pow hx (fun k => (y * (1 - x)) ^ k), h4]
  ring

/-! ### sums over the occupations between the rows -/

/-- The value of one row. -/
def lineVal (w : Bool → Bool → ℕ → K) (s t : Finset ℕ) (f : ℕ → K) : ℕ → ℕ → K
  | 0, k => f k
  | N + 1, k =>
    if (decide (N + 1 ∈ t)).toNat ≤ k + (decide (N + 1 ∈ s)).toNat then
      w (decide (N + 1 ∈ s)) (decide (N + 1 ∈ t)) k *
        lineVal w s t f N (k + (decide (N + 1 ∈ s)).toNat - (decide (N + 1 ∈ t)).toNat)
    else 0

variable (w : Bool → Bool → ℕ → K) (s t : Finset ℕ) (f1 f2 f3 f4 : ℕ → K) (N : ℕ)

theorem siteProd_at1 : siteProd (at1 w) s t N (fun i j k l => f1 i * f2 j * f3 k * f4 l) =
    fun i j k l => lineVal w s t f1 N i * f2 j * f3 k * f4 l := by
  induction N with
  | zero => simp [siteProd, lineVal]
  | succ N ih =>
    rw [siteProd, Module.End.mul_apply, ih]
    funext i j k l
    simp only [at1, LinearMap.coe_mk, AddHom.coe_mk, lineVal]
    split_ifs <;> ring

theorem siteProd_at2 : siteProd (at2 w) s t N (fun i j k l => f1 i * f2 j * f3 k * f4 l) =
    fun i j k l => f1 i * lineVal w s t f2 N j * f3 k * f4 l := by
  induction N with
  | zero => simp [siteProd, lineVal]
  | succ N ih =>
    rw [siteProd, Module.End.mul_apply, ih]
    funext i j k l
    simp only [at2, LinearMap.coe_mk, AddHom.coe_mk, lineVal]
    split_ifs <;> ring

theorem siteProd_at3 : siteProd (at3 w) s t N (fun i j k l => f1 i * f2 j * f3 k * f4 l) =
    fun i j k l => f1 i * f2 j * lineVal w s t f3 N k * f4 l := by
  induction N with
  | zero => simp [siteProd, lineVal]
  | succ N ih =>
    rw [siteProd, Module.End.mul_apply, ih]
    funext i j k l
    simp only [at3, LinearMap.coe_mk, AddHom.coe_mk, lineVal]
    split_ifs <;> ring

theorem siteProd_at4 : siteProd (at4 w) s t N (fun i j k l => f1 i * f2 j * f3 k * f4 l) =
    fun i j k l => f1 i * f2 j * f3 k * lineVal w s t f4 N l := by
  induction N with
  | zero => simp [siteProd, lineVal]
  | succ N ih =>
    rw [siteProd, Module.End.mul_apply, ih]
    funext i j k l
    simp only [at4, LinearMap.coe_mk, AddHom.coe_mk, lineVal]
    split_ifs <;> ring

theorem end_map_sum {ι : Type*} (A : Module.End K (Flows K)) (S : Finset ι) (g : ι → Flows K) :
    A (∑ u ∈ S, g u) = ∑ u ∈ S, A (g u) := _root_.map_sum (LinearMap.toAddMonoidHom A) g S

theorem siteProd_four (P Q R S : Bool → Bool → ℕ → K) :
    siteProd (four P Q R S) s t N (fun i j k l => f1 i * f2 j * f3 k * f4 l) 0 0 0 0 =
      ∑ u1 ∈ (Icc 1 N).powerset, ∑ u2 ∈ (Icc 1 N).powerset, ∑ u3 ∈ (Icc 1 N).powerset,
        lineVal P s u1 f1 N 0 * lineVal Q u1 u2 f2 N 0 * lineVal R u2 u3 f3 N 0 * lineVal S u3 t f4 N 0 := by
  unfold four
  have c34 : ∀ a b c d, at3 R a b * at4 S c d = at4 S c d * at3 R a b := at34_comm R S
  have c2 : ∀ a b c d, at2 Q a b * rowMul (at3 R) (at4 S) c d = rowMul (at3 R) (at4 S) c d * at2 Q a b := by
    intro a b c d
    rw [rowMul, mul_add, add_mul, ← mul_assoc, ← mul_assoc, at23_comm, at23_comm, mul_assoc, mul_assoc, at24_comm,
      at24_comm, ← mul_assoc, ← mul_assoc]
  have c1 : ∀ a b c d, at1 P a b * rowMul (at2 Q) (rowMul (at3 R) (at4 S)) c d =
      rowMul (at2 Q) (rowMul (at3 R) (at4 S)) c d * at1 P a b := by
    intro a b c d
    have c1' : ∀ c d, at1 P a b * rowMul (at3 R) (at4 S) c d = rowMul (at3 R) (at4 S) c d * at1 P a b := by
      intro c d
      rw [rowMul, mul_add, add_mul, ← mul_assoc, ← mul_assoc, at13_comm, at13_comm, mul_assoc, mul_assoc, at14_comm,
        at14_comm, ← mul_assoc, ← mul_assoc]
    rw [rowMul, mul_add, add_mul, ← mul_assoc, ← mul_assoc, at12_comm, at12_comm, mul_assoc, mul_assoc, c1', c1',
      ← mul_assoc, ← mul_assoc]
  rw [siteProd_mul c1]
  simp only [LinearMap.sum_apply, Finset.sum_apply, Module.End.mul_apply]
  refine sum_congr rfl (fun u1 _ => ?_)
  rw [siteProd_mul c2, LinearMap.sum_apply, end_map_sum]
  simp only [Module.End.mul_apply, Finset.sum_apply]
  refine sum_congr rfl (fun u2 _ => ?_)
  rw [siteProd_mul c34, LinearMap.sum_apply, end_map_sum, end_map_sum]
  simp only [Module.End.mul_apply, Finset.sum_apply]
  refine sum_congr rfl (fun u3 _ => ?_)
  rw [siteProd_at4, siteProd_at3, siteProd_at2, siteProd_at1]

/-- Horizontal strips count columns, vertical strips rows: the steps for two letters commute. -/
theorem vertex_q (hx : x ≠ 0) (hy : y ≠ 0) :
    (∑ u1 ∈ (Icc 1 N).powerset, ∑ u2 ∈ (Icc 1 N).powerset, ∑ u3 ∈ (Icc 1 N).powerset,
      lineVal (wC x) s u1 (x ^ ·) N 0 * lineVal (wR x) u1 u2 (x ^ ·) N 0 *
        lineVal (wC y) u2 u3 (y ^ ·) N 0 * lineVal (wR y) u3 t (y ^ ·) N 0) =
    ∑ u1 ∈ (Icc 1 N).powerset, ∑ u2 ∈ (Icc 1 N).powerset, ∑ u3 ∈ (Icc 1 N).powerset,
      lineVal (wC y) s u1 (y ^ ·) N 0 * lineVal (wR y) u1 u2 (y ^ ·) N 0 *
        lineVal (wC x) u2 u3 (x ^ ·) N 0 * lineVal (wR x) u3 t (x ^ ·) N 0 := by
  rw [← siteProd_four, ← siteProd_four]
  exact four_swap hx hy _ _ (boundary_q hx hy) s t N

/-- The same when the horizontal strips do not meet the diagonal. -/
theorem vertex_p (hx : x ≠ 0) (hy : y ≠ 0) :
    (∑ u1 ∈ (Icc 1 N).powerset, ∑ u2 ∈ (Icc 1 N).powerset, ∑ u3 ∈ (Icc 1 N).powerset,
      lineVal (wC x) s u1 dlt N 0 * lineVal (wR x) u1 u2 (x ^ ·) N 0 *
        lineVal (wC y) u2 u3 dlt N 0 * lineVal (wR y) u3 t (y ^ ·) N 0) =
    ∑ u1 ∈ (Icc 1 N).powerset, ∑ u2 ∈ (Icc 1 N).powerset, ∑ u3 ∈ (Icc 1 N).powerset,
      lineVal (wC y) s u1 dlt N 0 * lineVal (wR y) u1 u2 (y ^ ·) N 0 *
        lineVal (wC x) u2 u3 dlt N 0 * lineVal (wR x) u3 t (x ^ ·) N 0 := by
  rw [← siteProd_four, ← siteProd_four]
  exact four_swap hx hy _ _ (boundary_p hx) s t N

end Verif.Vertex
