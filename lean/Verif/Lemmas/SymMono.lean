import Verif.Model.Symmetric
import Verif.Lemmas.Count
import Verif.Lemmas.PartitionsCorner
import Verif.Lemmas.Vector
import Mathlib.Data.List.Nodup
import Mathlib.Data.List.Perm.Basic
import Mathlib.Algebra.BigOperators.Group.Finset.Basic
import Mathlib.Algebra.BigOperators.Ring.Finset
import Mathlib.Tactic.Ring

/-! Lemmas on monomial symmetric functions: the exponent vectors of `destandardize`, the polynomial of a monomial. -/

namespace Verif.Symm

open Verif.Part Partition

attribute [-simp] List.getD_eq_getElem?_getD

/-- The nonzero entries of an exponent vector. -/
def nz (v : List Nat) : List Nat := v.filter (fun a => decide (a ≠ 0))

@[simp] theorem nz_nil : nz [] = [] := rfl
@[simp] theorem nz_zero (v : List Nat) : nz (0 :: v) = nz v := by simp [nz]
theorem nz_pos {a : Nat} (h : a ≠ 0) (v : List Nat) : nz (a :: v) = a :: nz v := by simp [nz, h]
@[simp] theorem nz_replicate (n : Nat) : nz (List.replicate n 0) = [] := by
  induction n with
  | zero => rfl
  | succ n ih => rw [List.replicate_succ, nz_zero, ih]

theorem nz_eq_self {v : List Nat} (h : ∀ a ∈ v, 0 < a) : nz v = v := by
  rw [nz, List.filter_eq_self]
  intro a ha
  have := h a ha
  simp; omega

theorem nz_append (v w : List Nat) : nz (v ++ w) = nz v ++ nz w := by simp [nz]

theorem nz_eq_nil {v : List Nat} : nz v = [] ↔ v = List.replicate v.length 0 := by
  rw [nz, List.filter_eq_nil_iff, List.eq_replicate_iff]
  simp

theorem isPartition_eraseIdx {mu : List Nat} (h : IsPartition mu) (i : Nat) : IsPartition (mu.eraseIdx i) :=
  ⟨h.1.sublist (List.eraseIdx_sublist _ _), fun a ha => h.2 a ((List.eraseIdx_sublist _ _).subset ha)⟩

/-- In a weakly decreasing list, the positions differing from their predecessor are the first occurrences. -/
theorem first_occ {mu : List Nat} (h : mu.Pairwise (· ≥ ·)) {a : Nat} (ha : a ∈ mu) :
    ∃ i < mu.length, mu.getD i 0 = a ∧ (i = 0 ∨ mu.getD i 0 ≠ mu.getD (i - 1) 0) ∧
      ∀ j < mu.length, mu.getD j 0 = a → (j = 0 ∨ mu.getD j 0 ≠ mu.getD (j - 1) 0) → j = i := by
  classical
  obtain ⟨k, hk, hka⟩ := List.mem_iff_getElem.1 ha
  have hex : ∃ i, i < mu.length ∧ mu.getD i 0 = a := ⟨k, hk, by rw [List.getD_eq_getElem _ _ hk, hka]⟩
  refine ⟨Nat.find hex, (Nat.find_spec hex).1, (Nat.find_spec hex).2, ?_, ?_⟩
  · by_cases h0 : Nat.find hex = 0
    · exact Or.inl h0
    · right
      intro he
      refine Nat.find_min hex (m := Nat.find hex - 1) (by omega) ⟨by have := (Nat.find_spec hex).1; omega, ?_⟩
      rw [← he]; exact (Nat.find_spec hex).2
  · intro j hj hja hc
    have hle : Nat.find hex ≤ j := Nat.find_le ⟨hj, hja⟩
    rcases hc with hc | hc
    · omega
    by_contra hne
    have hanti := getD_antitone h
    have e1 := hanti (show Nat.find hex ≤ j - 1 by omega)
    have e2 := hanti (show j - 1 ≤ j by omega)
    have := (Nat.find_spec hex).2
    simp only at e1 e2
    omega

theorem mem_destandardize (n : Nat) : ∀ {mu : List Nat}, IsPartition mu → ∀ v : List Nat,
    v ∈ destandardize n mu ↔ v.length = n ∧ (nz v).Perm mu := by
  induction n with
  | zero =>
    intro mu hm v
    rw [destandardize]
    by_cases h : mu = []
    · subst h; simp only [if_true, List.mem_singleton, List.length_eq_zero_iff]
      constructor
      · rintro rfl; simp
      · exact fun h => h.1
    · simp only [h, if_false, List.not_mem_nil, false_iff, not_and, List.length_eq_zero_iff]
      rintro rfl hp
      exact h (by simpa using hp)
  | succ n ih =>
    intro mu hm v
    rw [destandardize]
    by_cases h : mu = []
    · subst h
      simp only [if_true, List.mem_singleton, List.perm_nil]
      constructor
      · rintro rfl; exact ⟨by simp, nz_replicate _⟩
      · rintro ⟨h1, h2⟩; rw [nz_eq_nil] at h2; rw [h2, h1]
    rw [if_neg h]
    simp only [List.mem_append, List.mem_map, List.mem_flatMap, List.mem_range]
    constructor
    · rintro (⟨w, hw, rfl⟩ | ⟨i, hi, hv⟩)
      · rw [ih hm] at hw
        simpa using hw
      · split at hv
        · obtain ⟨w, hw, rfl⟩ := List.mem_map.1 hv
          rw [ih (isPartition_eraseIdx hm i)] at hw
          have hpos : mu.getD i 0 ≠ 0 := by
            rw [List.getD_eq_getElem _ _ hi]
            have := hm.2 mu[i] (List.getElem_mem hi)
            omega
          refine ⟨by simp [hw.1], ?_⟩
          rw [nz_pos hpos]
          refine (hw.2.cons _).trans ?_
          rw [List.getD_eq_getElem _ _ hi]
          exact List.getElem_cons_eraseIdx_perm hi
        · simp at hv
    · rintro ⟨hl, hp⟩
      match v, hl with
      | a :: w, hl =>
        simp only [List.length_cons, Nat.add_right_cancel_iff] at hl
        by_cases ha : a = 0
        · subst ha
          rw [nz_zero] at hp
          exact Or.inl ⟨w, (ih hm w).2 ⟨hl, hp⟩, rfl⟩
        · right
          rw [nz_pos ha] at hp
          obtain ⟨i, hi, hia, hc, _⟩ := first_occ hm.1 (hp.subset (List.mem_cons_self))
          refine ⟨i, hi, ?_⟩
          rw [if_pos hc, hia]
          refine List.mem_map.2 ⟨w, (ih (isPartition_eraseIdx hm i) w).2 ⟨hl, ?_⟩, rfl⟩
          have e := List.getElem_cons_eraseIdx_perm hi
          rw [List.getD_eq_getElem _ _ hi] at hia
          rw [hia] at e
          exact (hp.trans e.symm).cons_inv

theorem destandardize_nodup (n : Nat) : ∀ {mu : List Nat}, IsPartition mu → (destandardize n mu).Nodup := by
  induction n with
  | zero => intro mu _; rw [destandardize]; split <;> simp
  | succ n ih =>
    intro mu hm
    rw [destandardize]
    split
    · simp
    have hhead : ∀ i < mu.length, ∀ v, v ∈ (if i = 0 ∨ mu.getD i 0 ≠ mu.getD (i - 1) 0 then
          (destandardize n (mu.eraseIdx i)).map (mu.getD i 0 :: ·) else []) → v.head? = some (mu.getD i 0) ∧
          (i = 0 ∨ mu.getD i 0 ≠ mu.getD (i - 1) 0) := by
      intro i _ v hv
      split at hv
      · rename_i hc
        obtain ⟨w, _, rfl⟩ := List.mem_map.1 hv
        exact ⟨rfl, hc⟩
      · simp at hv
    rw [List.nodup_append]
    refine ⟨(ih hm).map (fun a b h => by simpa using h), ?_, ?_⟩
    · rw [List.nodup_flatMap]
      constructor
      · intro i _
        split
        · exact (ih (isPartition_eraseIdx hm i)).map (fun a b h => by simpa using h)
        · simp
      · refine List.Pairwise.imp_of_mem ?_ (List.nodup_range (n := mu.length))
        intro i j hi hj hij v hvi hvj
        rw [List.mem_range] at hi hj
        have e1 := hhead i hi v hvi
        have e2 := hhead j hj v hvj
        have he : mu.getD j 0 = mu.getD i 0 := by
          have := e1.1.symm.trans e2.1
          simpa using this.symm
        obtain ⟨k, hk, _, _, huniq⟩ := first_occ hm.1 (a := mu.getD i 0)
          (by rw [List.getD_eq_getElem _ _ hi]; exact List.getElem_mem hi)
        exact hij ((huniq i hi rfl e1.2).trans (huniq j hj he e2.2).symm)
    · intro v hv w hw he
      subst he
      obtain ⟨u, _, rfl⟩ := List.mem_map.1 hv
      obtain ⟨i, hi, hw⟩ := List.mem_flatMap.1 hw
      rw [List.mem_range] at hi
      have := (hhead i hi _ hw).1
      simp only [List.head?_cons, Option.some.injEq] at this
      rw [List.getD_eq_getElem _ _ hi] at this
      have := hm.2 mu[i] (List.getElem_mem hi)
      omega

/-! ### monomials -/

variable {A : Type*} [CommRing A]

/-- The product `x_s^(v_0) x_(s+1)^(v_1) ...`. -/
def xm (x : Nat → A) : Nat → List Nat → A
  | _, [] => 1
  | s, a :: v => x s ^ a * xm x (s + 1) v

/-- The monomial symmetric function in `x_1, ..., x_n`. -/
def msum (x : Nat → A) (n : Nat) (mu : List Nat) : A := ((destandardize n mu).map (xm x 1)).sum

theorem msum_eq (x : Nat → A) (n : Nat) {mu : List Nat} (h : IsPartition mu) :
    msum x n mu = ∑ v ∈ (destandardize n mu).toFinset, xm x 1 v := by
  rw [msum, List.sum_toFinset _ (destandardize_nodup n h)]

@[simp] theorem xm_replicate (x : Nat → A) (s n : Nat) : xm x s (List.replicate n 0) = 1 := by
  induction n generalizing s with
  | zero => rfl
  | succ n ih => rw [List.replicate_succ, xm, ih]; simp

/-! ### the polynomial of a monomial -/

/-- All vectors of length `n` with nonzero entries `alpha`, in this order. -/
def fills : Nat → List Nat → List (List Nat)
  | 0, [] => [[]]
  | 0, _ :: _ => []
  | n + 1, [] => [List.replicate (n + 1) 0]
  | n + 1, a :: t => (fills n t).map (a :: ·) ++ (fills n (a :: t)).map (0 :: ·)

theorem mem_fills (n : Nat) : ∀ {alpha : List Nat}, (∀ a ∈ alpha, 0 < a) → ∀ v : List Nat,
    v ∈ fills n alpha ↔ v.length = n ∧ nz v = alpha := by
  induction n with
  | zero =>
    intro alpha h v
    match alpha with
    | [] =>
      simp only [fills, List.mem_singleton, List.length_eq_zero_iff]
      constructor
      · rintro rfl; simp
      · exact fun h => h.1
    | a :: t =>
      simp only [fills, List.not_mem_nil, false_iff, not_and, List.length_eq_zero_iff]
      rintro rfl
      simp
  | succ n ih =>
    intro alpha h v
    match alpha with
    | [] =>
      simp only [fills, List.mem_singleton]
      constructor
      · rintro rfl; exact ⟨by simp, nz_replicate _⟩
      · rintro ⟨h1, h2⟩; rw [nz_eq_nil] at h2; rw [h2, h1]
    | a :: t =>
      have ha : a ≠ 0 := by have := h a (by simp); omega
      simp only [fills, List.mem_append, List.mem_map]
      constructor
      · rintro (⟨w, hw, rfl⟩ | ⟨w, hw, rfl⟩)
        · rw [ih (fun b hb => h b (by simp [hb]))] at hw
          rw [nz_pos ha, hw.2]; simp [hw.1]
        · rw [ih h] at hw
          rw [nz_zero, hw.2]; simp [hw.1]
      · rintro ⟨h1, h2⟩
        match v, h1 with
        | b :: w, h1 =>
          simp only [List.length_cons, Nat.add_right_cancel_iff] at h1
          by_cases hb : b = 0
          · subst hb
            rw [nz_zero] at h2
            exact Or.inr ⟨w, (ih h w).2 ⟨h1, h2⟩, rfl⟩
          · rw [nz_pos hb, List.cons.injEq] at h2
            exact Or.inl ⟨w, (ih (fun b hb => h b (by simp [hb])) w).2 ⟨h1, h2.2⟩, by rw [h2.1]⟩

theorem fills_nodup (n : Nat) : ∀ {alpha : List Nat}, (∀ a ∈ alpha, 0 < a) → (fills n alpha).Nodup := by
  induction n with
  | zero => intro alpha _; match alpha with | [] => simp [fills] | a :: t => simp [fills]
  | succ n ih =>
    intro alpha h
    match alpha with
    | [] => simp [fills]
    | a :: t =>
      have ha : a ≠ 0 := by have := h a (by simp); omega
      rw [fills, List.nodup_append]
      refine ⟨(ih (fun b hb => h b (by simp [hb]))).map (fun a b h => by simpa using h),
        (ih h).map (fun a b h => by simpa using h), ?_⟩
      intro v hv w hw he
      subst he
      obtain ⟨u, _, rfl⟩ := List.mem_map.1 hv
      obtain ⟨u', _, hu⟩ := List.mem_map.1 hw
      simp only [List.cons.injEq] at hu
      exact ha hu.1.symm

/-- The product `Π x(index_i)^(alpha_i)`. -/
def tm (x : Nat → A) : List Nat → List Nat → A
  | a :: alpha, i :: index => x i ^ a * tm x alpha index
  | _, _ => 1

theorem sum_combinations (x : Nat → A) (n : Nat) : ∀ (s : Nat) (alpha : List Nat),
    ((combinations (List.range' s n) alpha.length).map (tm x alpha)).sum = ((fills n alpha).map (xm x s)).sum := by
  induction n with
  | zero =>
    intro s alpha
    match alpha with
    | [] => simp [fills, combinations, tm, xm]
    | a :: t => simp [fills, combinations]
  | succ n ih =>
    intro s alpha
    match alpha with
    | [] =>
      simp only [fills, List.length_nil, combinations, List.map_cons, List.map_nil, List.sum_cons, List.sum_nil,
        xm_replicate, add_zero]
      rfl
    | a :: t =>
      rw [List.range'_succ, List.length_cons, combinations, fills, List.map_append, List.sum_append,
        List.map_append, List.sum_append, List.map_map, List.map_map, List.map_map]
      have h1 : (tm x (a :: t) ∘ fun x => s :: x) = fun w => x s ^ a * tm x t w := rfl
      have h2 : (xm x s ∘ fun x => a :: x) = fun w => x s ^ a * xm x (s + 1) w := rfl
      have h3 : (xm x s ∘ fun x => 0 :: x) = fun w => xm x (s + 1) w := by
        funext w; simp [xm]
      rw [h1, h2, h3, List.sum_map_mul_left, List.sum_map_mul_left, ih, ← ih (s + 1) (a :: t), List.length_cons]

theorem den_monoTerm (v : Int → Poly) : ∀ (alpha index : List Nat), alpha.length = index.length →
    (monoTerm v alpha index).den = tm (fun i => (v (i : Int)).den) alpha index := by
  have hf : ∀ (l : List Nat) (g : Nat → Poly) (t : Poly),
      (l.foldl (fun term i => Poly.mul term (g i)) t).den = t.den * (l.map (fun i => (g i).den)).prod := by
    intro l g
    induction l with
    | nil => simp
    | cons a l ih => intro t; rw [List.foldl_cons, ih, Poly.den_mul, List.map_cons, List.prod_cons, mul_assoc]
  intro alpha index h
  rw [monoTerm, hf, Poly.den_one, one_mul]
  simp only [Poly.den_powNat]
  induction alpha generalizing index with
  | nil => simp [tm]
  | cons a t ih =>
    match index, h with
    | j :: u, h =>
      simp only [List.length_cons, Nat.add_right_cancel_iff] at h
      rw [List.length_cons, List.range_succ_eq_map, List.map_cons, List.prod_cons, List.map_map, tm, ← ih u h]
      rfl

theorem den_monoPoly (v : Int → Poly) (n : Nat) {mu : List Nat} (h : IsPartition mu) :
    (monoPoly v n mu).den = msum (fun i => (v (i : Int)).den) n mu := by
  have hadd : ∀ {α : Type} (l : List α) (step : Poly → α → Poly) (g : α → Laurent),
      (∀ p a, a ∈ l → (step p a).den = p.den + g a) → ∀ p, (l.foldl step p).den = p.den + (l.map g).sum := by
    intro α l step g
    induction l with
    | nil => simp
    | cons a l ih =>
      intro hs p
      rw [List.foldl_cons, ih (fun p b hb => hs p b (by simp [hb])), hs p a (by simp), List.map_cons, List.sum_cons,
        add_assoc]
  have hr : (List.range n).map (· + 1) = List.range' 1 n := by
    rw [List.range'_eq_map_range]; exact List.map_congr_left (fun a _ => by omega)
  rw [monoPoly, hadd _ _ (fun alpha => ((fills n alpha).map (xm (fun i => (v (i : Int)).den) 1)).sum)]
  · rw [Poly.den_empty, zero_add, ← List.sum_toFinset _ (List.nodup_dedup _), msum_eq _ _ h]
    rw [← Finset.sum_fiberwise_of_maps_to (s := (destandardize n mu).toFinset) (t := mu.permutations.dedup.toFinset)
      (g := nz)]
    · refine Finset.sum_congr rfl (fun alpha ha => ?_)
      have hp : alpha.Perm mu := by simpa using ha
      have hpos : ∀ a ∈ alpha, 0 < a := fun a ha => h.2 a (hp.subset ha)
      rw [← List.sum_toFinset _ (fills_nodup n hpos)]
      refine Finset.sum_congr ?_ (fun _ _ => rfl)
      ext w
      rw [List.mem_toFinset, mem_fills n hpos, Finset.mem_filter, List.mem_toFinset, mem_destandardize n h]
      constructor
      · rintro ⟨h1, h2⟩; exact ⟨⟨h1, by rw [h2]; exact hp⟩, h2⟩
      · rintro ⟨⟨h1, _⟩, h2⟩; exact ⟨h1, h2⟩
    · intro w hw
      rw [List.mem_toFinset, mem_destandardize n h] at hw
      simpa using hw.2
  · intro p alpha ha
    rw [hadd _ _ (tm (fun i => (v (i : Int)).den) alpha), hr, sum_combinations]
    intro p index hi
    rw [Poly.den_add, den_monoTerm]
    rw [mem_combinations] at hi
    exact hi.2.symm

end Verif.Symm
