import Verif.Lemmas.Grassmannian
import Verif.Lemmas.PartitionsMore
import Verif.Lemmas.PermMore
import Verif.Lemmas.Reflections
import Mathlib.Order.Interval.Finset.Nat

/-! Involutions of Grassmannian shape. -/

namespace Verif.Perm

open Verif.Part Verif.Partition

attribute [-simp] List.getD_eq_getElem?_getD
attribute [local irreducible] mul s inverse identity len

/-! ### shapes of involutions are strict -/

/-- The arcs over `i`. -/
def arcs (y : SPerm) (i : Nat) : Finset Int := (Finset.Icc 1 (i : Int)).filter (fun x => (i : Int) < y.call x)

theorem mem_arcs {y : SPerm} {i : Nat} {x : Int} : x ∈ arcs y i ↔ 1 ≤ x ∧ x ≤ i ∧ (i : Int) < y.call x := by
  rw [arcs, Finset.mem_filter, Finset.mem_Icc, and_assoc]

theorem exists_arcs (y : SPerm) (v : Nat) (hv : 1 ≤ v) : ∀ i : Nat, v ≤ (arcs y i).card →
    ∃ j : Nat, 1 ≤ j ∧ j ≤ i ∧ (arcs y j).card = v ∧ (j : Int) < y.call j := by
  intro i
  induction i with
  | zero =>
    intro h
    have : arcs y 0 = ∅ := by
      rw [Finset.eq_empty_iff_forall_notMem]
      intro x hx
      have := mem_arcs.1 hx
      omega
    rw [this, Finset.card_empty] at h
    omega
  | succ i ih =>
    intro h
    by_cases h1 : v ≤ (arcs y i).card
    · obtain ⟨j, h2, h3, h4⟩ := ih h1
      exact ⟨j, h2, by omega, h4⟩
    · by_cases h2 : ((i + 1 : Nat) : Int) < y.call (i + 1 : Nat)
      · have hs : arcs y (i + 1) ⊆ insert ((i + 1 : Nat) : Int) (arcs y i) := by
          intro x hx
          obtain ⟨h3, h4, h5⟩ := mem_arcs.1 hx
          rw [Finset.mem_insert, mem_arcs]
          omega
        have := (Finset.card_le_card hs).trans (Finset.card_insert_le _ _)
        exact ⟨i + 1, by omega, le_rfl, by omega, h2⟩
      · have hs : arcs y (i + 1) ⊆ arcs y i := by
          intro x hx
          obtain ⟨h3, h4, h5⟩ := mem_arcs.1 hx
          have h6 : x ≠ ((i + 1 : Nat) : Int) := by rintro rfl; exact h2 h5
          exact mem_arcs.2 ⟨h3, by omega, by omega⟩
        have := Finset.card_le_card hs
        omega

/-- Entry `i` of the involution code for `e = 0`, of the fpf involution code for `e = 1`. -/
def rowE (y : SPerm) (e : Nat) (i : Nat) : Nat := ((rowSet y i).filter (fun x : Int => x + e ≤ i)).card

theorem rowE_le {y : SPerm} (hi : inverse y = y) (e i : Nat) : rowE y e i ≤ (arcs y i).card := by
  refine Finset.card_le_card (fun x hx => ?_)
  rw [Finset.mem_filter, mem_rowSet, hi] at hx
  exact mem_arcs.2 ⟨by omega, by omega, by omega⟩

theorem rowE_up {y : SPerm} (hi : inverse y = y) {e i : Nat} (he : e ≤ 1) (hi1 : 1 ≤ i) (hy : (i : Int) < y.call i) :
    rowE y e i + e = (arcs y i).card := by
  rcases (show e = 0 ∨ e = 1 by omega) with rfl | rfl
  · rw [add_zero, rowE]
    congr 1
    ext x
    rw [Finset.mem_filter, mem_rowSet, hi, mem_arcs]
    push_cast
    omega
  · have : arcs y i = insert (i : Int) ((rowSet y i).filter (fun x : Int => x + (1 : Nat) ≤ i)) := by
      ext x
      rw [Finset.mem_insert, Finset.mem_filter, mem_rowSet, hi, mem_arcs]
      push_cast
      constructor
      · intro h
        omega
      · rintro (rfl | h)
        · omega
        · omega
    rw [this, Finset.card_insert_of_notMem, rowE]
    rw [Finset.mem_filter]
    push_cast
    omega

theorem exists_rowE {y : SPerm} (hi : inverse y = y) {e i v : Nat} (he : e ≤ 1) (hv : 1 ≤ v) (h : v < rowE y e i) :
    ∃ j : Nat, 1 ≤ j ∧ j ≤ i ∧ rowE y e j = v := by
  have h1 := rowE_le hi e i
  obtain ⟨j, h2, h3, h4, h5⟩ := exists_arcs y (v + e) (by omega) i (by omega)
  have := rowE_up hi he h2 h5
  exact ⟨j, h2, h3, by omega⟩

theorem partition_ext {mu nu : List Nat} (hm : IsPartition mu) (hn : IsPartition nu) (h : ∀ k, mu.getD k 0 = nu.getD k 0) :
    mu = nu := by
  have := filter_eq_of_getD mu nu h
  rwa [List.filter_eq_self.2 (fun a ha => by simpa using (hm.2 a ha).ne'),
    List.filter_eq_self.2 (fun a ha => by simpa using (hn.2 a ha).ne')] at this

theorem countP_codeList (n t : Nat) (g : Nat → Nat) : ((pyRange 1 (1 + n)).map g).countP (fun a => decide (t < a)) =
    ((Finset.Icc 1 n).filter (fun i => t < g i)).card := by
  rw [List.countP_map, List.countP_eq_length_filter, ← List.toFinset_card_of_nodup ((nodup_pyRange _ _).filter _)]
  congr 1
  ext x
  rw [List.mem_toFinset, List.mem_filter, mem_pyRange, Finset.mem_filter, Finset.mem_Icc, Function.comp, decide_eq_true_iff]
  omega

theorem strict_of_code {y : SPerm} (hi : inverse y = y) {e : Nat} (he : e ≤ 1) {mu : List Nat} (hmu : IsPartition mu)
    (h : ∀ k, mu.getD k 0 = ((pyRange 1 (1 + y.rank)).map (rowE y e)).countP (fun a => decide (k < a))) : IsStrict mu := by
  refine isStrict_of_next hmu.2 (fun k => ?_)
  rw [h, h, countP_codeList, countP_codeList]
  have hsub : (Finset.Icc 1 y.rank).filter (fun i => k + 1 < rowE y e i) ⊆ (Finset.Icc 1 y.rank).filter (fun i => k < rowE y e i) := by
    intro x hx
    rw [Finset.mem_filter] at hx ⊢
    exact ⟨hx.1, by omega⟩
  by_cases h0 : ((Finset.Icc 1 y.rank).filter (fun i => k < rowE y e i)).card = 0
  · have := Finset.card_le_card hsub
    omega
  · left
    by_cases h1 : ((Finset.Icc 1 y.rank).filter (fun i => k + 1 < rowE y e i)).card = 0
    · omega
    · obtain ⟨i, hi'⟩ := Finset.card_pos.1 (Nat.pos_of_ne_zero h1)
      rw [Finset.mem_filter, Finset.mem_Icc] at hi'
      obtain ⟨j, h2, h3, h4⟩ := exists_rowE hi he (by omega : 1 ≤ k + 1) hi'.2
      refine Finset.card_lt_card ((Finset.ssubset_iff_of_subset hsub).2 ⟨j, ?_, ?_⟩)
      · rw [Finset.mem_filter, Finset.mem_Icc]
        omega
      · rw [Finset.mem_filter]
        omega

/-! ### codes of Grassmannian involutions -/

/-- `y` exchanges `r - k` and `r + e + mu_k`, where `r` is the number of parts; no two other arcs are nested or crossing. -/
structure IsInvGr (y : SPerm) (e : Nat) (mu : List Nat) : Prop where
  pos : isUnsigned y = true
  inv : ∀ a, y.call (y.call a) = a
  val : ∀ k < mu.length, y.call ((mu.length : Int) - k) = mu.length + e + mu.getD k 0
  rest : ∀ x i : Int, (mu.length : Int) < x → x + e ≤ i → i < y.call x → ∃ k < mu.length, i = mu.length + e + mu.getD k 0

theorem strict_getD {mu : List Nat} (h : IsStrict mu) {j k : Nat} (hjk : j < k) (hk : k < mu.length) :
    mu.getD k 0 < mu.getD j 0 := by
  rw [List.getD_eq_getElem _ _ hk, List.getD_eq_getElem _ _ (by omega)]
  exact List.pairwise_iff_getElem.1 h.1 j k (by omega) hk hjk

theorem strict_pos {mu : List Nat} (h : IsStrict mu) {k : Nat} (hk : k < mu.length) : 0 < mu.getD k 0 := by
  rw [List.getD_eq_getElem _ _ hk]
  exact h.2 _ (List.getElem_mem _)

namespace IsInvGr

variable {y : SPerm} {e : Nat} {mu : List Nat}

theorem val' (h : IsInvGr y e mu) {k : Nat} (hk : k < mu.length) : y.call (mu.length + e + mu.getD k 0) = (mu.length : Int) - k := by
  rw [← h.val k hk, h.inv]

theorem low (h : IsInvGr y e mu) {x : Int} (h1 : 1 ≤ x) (h2 : x ≤ mu.length) :
    ∃ k < mu.length, x = (mu.length : Int) - k ∧ y.call x = mu.length + e + mu.getD k 0 := by
  refine ⟨((mu.length : Int) - x).toNat, by omega, by omega, ?_⟩
  have := h.val ((mu.length : Int) - x).toNat (by omega)
  rwa [show (mu.length : Int) - (((mu.length : Int) - x).toNat : Nat) = x by omega] at this

theorem inverse_eq (h : IsInvGr y e mu) : inverse y = y := inverse_of_involution h.inv

theorem rowE_low (h : IsInvGr y e mu) (hmu : IsStrict mu) {i : Nat} (h1 : 1 ≤ i) (h2 : i ≤ mu.length) : rowE y e i = i - e := by
  rw [rowE]
  have : (rowSet y i).filter (fun x : Int => x + e ≤ i) = Finset.Icc 1 ((i : Int) - e) := by
    ext x
    rw [Finset.mem_filter, mem_rowSet, h.inverse_eq, Finset.mem_Icc]
    constructor
    · intro h3; omega
    · intro h3
      obtain ⟨k, hk, -, e1⟩ := h.low (x := x) (by omega) (by omega)
      obtain ⟨l, hl, -, e2⟩ := h.low (x := (i : Int)) (by omega) (by omega)
      have := strict_pos hmu hk
      have := strict_pos hmu hl
      omega
  rw [this, Int.card_Icc]
  omega

theorem rowE_special (h : IsInvGr y e mu) (hmu : IsStrict mu) {k : Nat} (hk : k < mu.length) :
    rowE y e (mu.length + e + mu.getD k 0) = 0 := by
  rw [rowE, Finset.card_eq_zero, Finset.eq_empty_iff_forall_notMem]
  intro x hx
  rw [Finset.mem_filter, mem_rowSet, h.inverse_eq] at hx
  push_cast at hx
  rw [h.val' hk] at hx
  obtain ⟨l, hl, e0, e1⟩ := h.low (x := x) (by omega) (by omega)
  have := strict_getD hmu (j := k) (k := l) (by omega) hl
  omega

theorem rowE_rest (h : IsInvGr y e mu) (hmu : IsStrict mu) (he : e ≤ 1) {i : Nat} (h1 : mu.length < i)
    (h2 : ∀ k < mu.length, i ≠ mu.length + e + mu.getD k 0) :
    rowE y e i = mu.countP (fun a => decide (i - mu.length - e < a)) := by
  have hyi : (mu.length : Int) < y.call i := by
    by_contra hc
    have hp := isUnsigned_iff.1 h.pos i (by omega)
    obtain ⟨k, hk, -, e1⟩ := h.low (x := y.call i) (by omega) (by omega)
    rw [h.inv] at e1
    exact h2 k hk (by omega)
  have : (rowSet y i).filter (fun x : Int => x + e ≤ i) =
      ((Finset.range mu.length).filter (fun k => i - mu.length - e < mu.getD k 0)).image (fun k : Nat => (mu.length : Int) - k) := by
    ext x
    rw [Finset.mem_filter, mem_rowSet, h.inverse_eq, Finset.mem_image]
    constructor
    · rintro ⟨⟨h3, h4, h5⟩, h6⟩
      have hx : x ≤ mu.length := by
        by_contra hc
        obtain ⟨k, hk, e1⟩ := h.rest x i (by omega) h6 h5
        exact h2 k hk (by omega)
      obtain ⟨k, hk, e0, e1⟩ := h.low (x := x) (by omega) hx
      refine ⟨k, ?_, e0.symm⟩
      rw [Finset.mem_filter, Finset.mem_range]
      omega
    · rintro ⟨k, hk, rfl⟩
      rw [Finset.mem_filter, Finset.mem_range] at hk
      rw [h.val k hk.1]
      omega
  rw [rowE, this, Finset.card_image_of_injective _ (fun a b hab => by omega)]
  have hr : (Finset.range mu.length).filter (fun k => i - mu.length - e < mu.getD k 0) =
      Finset.range (mu.countP (fun a => decide (i - mu.length - e < a))) := by
    ext k
    rw [Finset.mem_filter, Finset.mem_range, Finset.mem_range, lt_getD_iff_countP (hmu.1.imp (fun {a b} hab => le_of_lt hab))]
    have := List.countP_le_length (p := fun a => decide (i - mu.length - e < a)) (l := mu)
    omega
  rw [hr, Finset.card_range]

theorem rowE_iff (h : IsInvGr y e mu) (hmu : IsStrict mu) (he : e ≤ 1) {i t : Nat} (h1 : 1 ≤ i) :
    t < rowE y e i ↔ t < mu.length ∧ t + e < i ∧ i < mu.length + e + mu.getD t 0 ∧
      ∀ k < mu.length, t < k → i ≠ mu.length + e + mu.getD k 0 := by
  by_cases hi : i ≤ mu.length
  · rw [h.rowE_low hmu h1 hi]
    constructor
    · intro h2
      refine ⟨by omega, by omega, ?_, fun k hk _ => ?_⟩
      · have := strict_pos hmu (k := t) (by omega); omega
      · have := strict_pos hmu hk; omega
    · intro h2; omega
  · by_cases hs : ∃ k < mu.length, i = mu.length + e + mu.getD k 0
    · obtain ⟨k, hk, rfl⟩ := hs
      rw [h.rowE_special hmu hk]
      refine ⟨fun h2 => by omega, fun ⟨h2, h3, h4, h5⟩ => ?_⟩
      exfalso
      by_cases hkt : t < k
      · exact h5 k hk hkt rfl
      · rcases lt_or_eq_of_le (not_lt.1 hkt) with h6 | h6
        · have := strict_getD hmu h6 h2; omega
        · subst h6; omega
    · push Not at hs
      rw [h.rowE_rest hmu he (by omega) hs, ← lt_getD_iff_countP (hmu.1.imp (fun {a b} hab => le_of_lt hab))]
      constructor
      · intro h2
        have ht : t < mu.length := by
          by_contra hc
          rw [List.getD_eq_default _ _ (by omega)] at h2
          omega
        exact ⟨ht, by omega, by omega, fun k hk _ => hs k hk⟩
      · rintro ⟨h2, h3, h4, h5⟩
        omega

theorem count (h : IsInvGr y e mu) (hmu : IsStrict mu) (he : e ≤ 1) (t : Nat) :
    ((Finset.Icc 1 y.rank).filter (fun i => t < rowE y e i)).card = mu.getD t 0 := by
  by_cases ht : t < mu.length
  · have hr : mu.length + e + mu.getD t 0 ≤ y.rank := by
      by_contra hc
      have h1 := h.val' ht
      rw [(call_odd y).out _ (by omega)] at h1
      have := strict_pos hmu ht
      omega
    have hset : Finset.Ioo (t + e) (mu.length + e + mu.getD t 0) = (Finset.Icc 1 y.rank).filter (fun i => t < rowE y e i) ∪
        (Finset.Ioo t mu.length).image (fun k => mu.length + e + mu.getD k 0) := by
      ext i
      rw [Finset.mem_Ioo, Finset.mem_union, Finset.mem_filter, Finset.mem_Icc, Finset.mem_image]
      constructor
      · rintro ⟨h1, h2⟩
        by_cases h3 : ∃ k ∈ Finset.Ioo t mu.length, mu.length + e + mu.getD k 0 = i
        · exact Or.inr h3
        · left
          refine ⟨⟨by omega, by omega⟩, (h.rowE_iff hmu he (by omega)).2 ⟨ht, h1, h2, fun k hk hk2 hc => h3 ⟨k, ?_, hc.symm⟩⟩⟩
          rw [Finset.mem_Ioo]
          exact ⟨hk2, hk⟩
      · rintro (⟨h1, h2⟩ | ⟨k, hk, rfl⟩)
        · have := (h.rowE_iff hmu he h1.1).1 h2
          exact ⟨this.2.1, this.2.2.1⟩
        · rw [Finset.mem_Ioo] at hk
          have := strict_getD hmu hk.1 hk.2
          omega
    have hdis : Disjoint ((Finset.Icc 1 y.rank).filter (fun i => t < rowE y e i))
        ((Finset.Ioo t mu.length).image (fun k => mu.length + e + mu.getD k 0)) := by
      rw [Finset.disjoint_left]
      intro i hi hi'
      rw [Finset.mem_filter, Finset.mem_Icc] at hi
      obtain ⟨k, hk, rfl⟩ := Finset.mem_image.1 hi'
      rw [Finset.mem_Ioo] at hk
      exact ((h.rowE_iff hmu he hi.1.1).1 hi.2).2.2.2 k hk.2 hk.1 rfl
    have hc := congrArg Finset.card hset
    rw [Finset.card_union_of_disjoint hdis, Nat.card_Ioo, Finset.card_image_of_injOn, Nat.card_Ioo] at hc
    · omega
    · intro a ha b hb hab
      rw [Finset.coe_Ioo, Set.mem_Ioo] at ha hb
      simp only at hab
      rcases lt_trichotomy a b with h1 | h1 | h1
      · have := strict_getD hmu h1 hb.2; omega
      · exact h1
      · have := strict_getD hmu h1 ha.2; omega
  · rw [List.getD_eq_default _ _ (by omega), Finset.card_eq_zero, Finset.eq_empty_iff_forall_notMem]
    intro i hi
    rw [Finset.mem_filter, Finset.mem_Icc] at hi
    exact ht ((h.rowE_iff hmu he hi.1.1).1 hi.2).1

end IsInvGr

/-! ### products of disjoint transpositions -/

theorem foldl_swaps (P Q : Nat → Nat) (n : Nat) (hP : ∀ i < n, 1 ≤ P i) (hQ : ∀ i < n, 1 ≤ Q i)
    (hPP : ∀ i < n, ∀ j < n, P i = P j → i = j) (hQQ : ∀ i < n, ∀ j < n, Q i = Q j → i = j)
    (hPQ : ∀ i < n, ∀ j < n, P i ≠ Q j) :
    (∀ i < n, ((List.range n).foldl (fun a i => mul a (reflectionT (P i) (Q i))) identity).call (P i) = Q i ∧
      ((List.range n).foldl (fun a i => mul a (reflectionT (P i) (Q i))) identity).call (Q i) = P i) ∧
    ∀ x : Int, 0 < x → (∀ i < n, x ≠ P i ∧ x ≠ Q i) →
      ((List.range n).foldl (fun a i => mul a (reflectionT (P i) (Q i))) identity).call x = x := by
  induction n with
  | zero =>
    refine ⟨fun i hi => by omega, fun x _ _ => ?_⟩
    rw [List.range_zero, List.foldl_nil, call_identity]
  | succ n ih =>
    obtain ⟨ih1, ih2⟩ := ih (fun i hi => hP i (by omega)) (fun i hi => hQ i (by omega)) (fun i hi j hj => hPP i (by omega) j (by omega))
      (fun i hi j hj => hQQ i (by omega) j (by omega)) (fun i hi j hj => hPQ i (by omega) j (by omega))
    have p1 := hP n (by omega)
    have q1 := hQ n (by omega)
    have hPn : ∀ i < n, P i ≠ P n := fun i hi hc => by have := hPP i (by omega) n (by omega) hc; omega
    have hQn : ∀ i < n, Q i ≠ Q n := fun i hi hc => by have := hQQ i (by omega) n (by omega) hc; omega
    have hPQn := hPQ n (by omega) n (by omega)
    rw [List.range_succ, List.foldl_append, List.foldl_cons, List.foldl_nil]
    generalize (List.range n).foldl (fun a i => mul a (reflectionT (P i) (Q i))) identity = u at ih1 ih2
    have hoP : u.call (P n) = P n := ih2 _ (by omega) (fun i hi => by
      have h1 := hPn i hi
      have h2 := hPQ n (by omega) i (by omega)
      omega)
    have hoQ : u.call (Q n) = Q n := ih2 _ (by omega) (fun i hi => by
      have h1 := hQn i hi
      have h2 := hPQ i (by omega) n (by omega)
      omega)
    constructor
    · intro i hi
      rw [call_mul, call_mul, call_reflectionT p1 q1, call_reflectionT p1 q1]
      rcases lt_or_eq_of_le (Nat.lt_succ_iff.1 hi) with h1 | rfl
      · have a1 := hPn i h1
        have a2 := hQn i h1
        have a3 := hPQ i (by omega) n (by omega)
        have a4 := hPQ n (by omega) i (by omega)
        have e1 : tFun (P n) (Q n) (P i) = P i := by unfold tFun; (repeat' split) <;> omega
        have e2 : tFun (P n) (Q n) (Q i) = Q i := by unfold tFun; (repeat' split) <;> omega
        rw [e1, e2]
        exact ih1 i h1
      · have e1 : tFun (P i) (Q i) (P i) = Q i := by unfold tFun; (repeat' split) <;> omega
        have e2 : tFun (P i) (Q i) (Q i) = P i := by unfold tFun; (repeat' split) <;> omega
        rw [e1, e2]
        exact ⟨hoQ, hoP⟩
    · intro x hx hi
      have h0 := hi n (by omega)
      have e1 : tFun (P n) (Q n) x = x := by unfold tFun; (repeat' split) <;> omega
      rw [call_mul, call_reflectionT p1 q1, e1]
      exact ih2 x hx (fun i hi' => hi i (by omega))

theorem inv_of_pos {w : SPerm} (h : ∀ a : Int, 0 < a → w.call (w.call a) = a) (a : Int) : w.call (w.call a) = a := by
  rcases lt_trichotomy a 0 with h1 | h1 | h1
  · have := h (-a) (by omega)
    rw [(call_odd w).neg, (call_odd w).neg] at this
    omega
  · subst h1
    rw [(call_odd w).zero, (call_odd w).zero]
  · exact h a h1

theorem rank_le_of_fix {w : SPerm} {N : Nat} (h : ∀ x : Int, (N : Int) < x → w.call x = x) : w.rank ≤ N := by
  have hout : ∀ i : Int, N < i.natAbs → w.call i = i := by
    intro i hi
    by_cases h0 : 0 < i
    · exact h i (by omega)
    · have := h (-i) (by omega)
      rw [(call_odd w).neg] at this
      omega
  refine rank_le_of_odd ⟨(call_odd w).neg, (call_odd w).inj, fun i hi => ?_, hout⟩
  by_contra hc
  have := (call_odd w).inj _ _ (hout (w.call i) (by omega))
  rw [this] at hc
  exact hc hi

/-- Conjugation with the longest element. -/
theorem conj_rev {N : Nat} {w0 : SPerm} (hw : ∀ a, w0.call a = revFun N a) (u : SPerm) (x : Int) :
    (mul (mul w0 u) w0).call x = revFun N (u.call (revFun N x)) := by
  rw [call_mul, call_mul, hw, hw]

theorem head_eq_getD (mu : List Nat) : mu.headD 0 = mu.getD 0 0 := by
  cases mu with
  | nil => rfl
  | cons a l => rw [List.getD_cons_zero]; rfl

theorem getD_le_head {mu : List Nat} (h : IsStrict mu) (k : Nat) : mu.getD k 0 ≤ mu.headD 0 := by
  rw [head_eq_getD]
  exact getD_antitone (h.1.imp (fun {a b} hab => le_of_lt hab)) (Nat.zero_le k)

theorem getInvGrassmannian_spec {mu : List Nat} (hmu : IsStrict mu) :
    ∃ y, getInvGrassmannian mu = some y ∧ IsInvGr y 0 mu ∧ y.rank = mu.length + mu.headD 0 := by
  obtain ⟨m, hm⟩ : ∃ m, mu.headD 0 = m := ⟨_, rfl⟩
  obtain ⟨w0, hw, hw0⟩ := longestUnsigned?_spec (mu.length + m)
  have hle : ∀ k, mu.getD k 0 ≤ m := fun k => hm ▸ getD_le_head hmu k
  have hinj : ∀ i < mu.length, ∀ j < mu.length, mu.getD i 0 = mu.getD j 0 → i = j := by
    intro i hi j hj he
    rcases lt_trichotomy i j with h1 | h1 | h1
    · have := strict_getD hmu h1 hj; omega
    · exact h1
    · have := strict_getD hmu h1 hi; omega
  have hf := foldl_swaps (fun i => 1 + m - mu.getD i 0) (fun i => i + 1 + m) mu.length
    (fun i hi => by have := hle i; omega) (fun i hi => by omega)
    (fun i hi j hj he => hinj i hi j hj (by have := hle i; have := hle j; omega)) (fun i hi j hj he => by omega)
    (fun i hi j hj => by have := strict_pos hmu hi; omega)
  obtain ⟨u, hu⟩ : ∃ u, (List.range mu.length).foldl (fun a i => mul a (reflectionT (1 + m - mu.getD i 0) (i + 1 + m))) identity = u :=
    ⟨_, rfl⟩
  rw [hu] at hf
  obtain ⟨hf1, hf2⟩ := hf
  have hy : getInvGrassmannian mu = some (mul (mul w0 u) w0) := by
    rw [getInvGrassmannian, if_pos ((isStrictPartition_iff mu).2 hmu.1), hm]
    simp only
    rw [hu, longestElement?, if_neg (by simp), hw]
    rfl
  obtain ⟨y, hye⟩ : ∃ y, mul (mul w0 u) w0 = y := ⟨_, rfl⟩
  rw [hye] at hy
  have hc : ∀ x, y.call x = revFun (mu.length + m) (u.call (revFun (mu.length + m) x)) := fun x => hye ▸ conj_rev hw0 u x
  have hval : ∀ k < mu.length, y.call ((mu.length : Int) - k) = mu.length + (0 : Nat) + mu.getD k 0 := by
    intro k hk
    have hl := hle k
    have e1 : revFun (mu.length + m) ((mu.length : Int) - k) = (k + 1 + m : Nat) := by
      unfold revFun; (repeat' split) <;> (push_cast at *; omega)
    rw [hc, e1, (hf1 k hk).2]
    unfold revFun; (repeat' split) <;> (push_cast at *; omega)
  have hval' : ∀ k < mu.length, y.call (mu.length + mu.getD k 0) = (mu.length : Int) - k := by
    intro k hk
    have hl := hle k
    have e1 : revFun (mu.length + m) ((mu.length : Int) + mu.getD k 0) = (1 + m - mu.getD k 0 : Nat) := by
      unfold revFun; (repeat' split) <;> (push_cast at *; omega)
    rw [hc, e1, (hf1 k hk).1]
    unfold revFun; (repeat' split) <;> (push_cast at *; omega)
  have hfix : ∀ x : Int, (mu.length : Int) < x → (∀ k < mu.length, x ≠ mu.length + mu.getD k 0) → y.call x = x := by
    intro x hx h1
    have e1 : u.call (revFun (mu.length + m) x) = revFun (mu.length + m) x := by
      refine hf2 _ ?_ (fun i hi => ?_)
      · unfold revFun; (repeat' split) <;> (push_cast at *; omega)
      · have := h1 i hi
        have := hle i
        constructor
        · unfold revFun; (repeat' split) <;> (push_cast at *; omega)
        · unfold revFun; (repeat' split) <;> (push_cast at *; omega)
    rw [hc, e1]
    unfold revFun; (repeat' split) <;> (push_cast at *; omega)
  have hcase : ∀ x : Int, 0 < x → (∃ k < mu.length, x = (mu.length : Int) - k) ∨ (∃ k < mu.length, x = mu.length + mu.getD k 0) ∨
      ((mu.length : Int) < x ∧ ∀ k < mu.length, x ≠ mu.length + mu.getD k 0) := by
    intro x hx
    by_cases h1 : x ≤ mu.length
    · exact Or.inl ⟨((mu.length : Int) - x).toNat, by omega, by omega⟩
    · by_cases h2 : ∃ k < mu.length, x = mu.length + mu.getD k 0
      · exact Or.inr (Or.inl h2)
      · push Not at h2
        exact Or.inr (Or.inr ⟨by omega, h2⟩)
  refine ⟨y, hy, ⟨?_, ?_, hval, ?_⟩, ?_⟩
  · rw [isUnsigned_iff]
    intro x hx
    rcases hcase x hx with ⟨k, hk, rfl⟩ | ⟨k, hk, rfl⟩ | ⟨h1, h2⟩
    · rw [hval k hk]; omega
    · rw [hval' k hk]; omega
    · rw [hfix x h1 h2]; omega
  · refine inv_of_pos (fun x hx => ?_)
    rcases hcase x hx with ⟨k, hk, rfl⟩ | ⟨k, hk, rfl⟩ | ⟨h1, h2⟩
    · rw [hval k hk]
      have := hval' k hk
      push_cast
      rw [add_zero, this]
    · rw [hval' k hk, hval k hk]
      push_cast
      rw [add_zero]
    · rw [hfix x h1 h2, hfix x h1 h2]
  · intro x i hx hxi hi
    rcases hcase x (by omega) with ⟨k, hk, rfl⟩ | ⟨k, hk, rfl⟩ | ⟨h1, h2⟩
    · omega
    · rw [hval' k hk] at hi; omega
    · rw [hfix x h1 h2] at hi; omega
  · refine le_antisymm (rank_le_of_fix (fun x hx => hfix x (by rw [hm] at hx; omega) (fun k hk => ?_))) ?_
    · have := hle k
      rw [hm] at hx
      omega
    · by_contra hc
      cases mu with
      | nil =>
        simp at hc
      | cons a l =>
        have h0 := hval' 0 (by simp)
        rw [← head_eq_getD, (call_odd y).out _ (by omega)] at h0
        have := hmu.2 a (by simp)
        simp only [List.headD_cons] at h0
        omega

end Verif.Perm
