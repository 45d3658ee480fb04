import Verif.Model.Crystals
import Verif.Spec.Insertion
import Mathlib.Data.List.Nodup
import Mathlib.Data.List.GetD
import Mathlib.Data.List.TakeWhile

/-!
# C77: factorizations of a word into increasing words
-/

namespace Verif.Crystal

open Verif.Part

attribute [-simp] List.getD_eq_getElem?_getD

/-- The factors allowed: weakly increasing words, or strictly decreasing words. -/
def GoodFactor (decreasing : Bool) (x : List Int) : Prop :=
  if decreasing then x.Pairwise (· > ·) else x.Pairwise (· ≤ ·)

/-! ### helper lemmas -/

theorem isIncreasing_iff (dec : Bool) (x : List Int) : isIncreasing dec x = true ↔ GoodFactor dec x := by
  unfold isIncreasing GoodFactor
  rw [List.all_eq_true]
  cases dec with
  | true =>
    simp only [if_true]
    rw [← List.isChain_iff_pairwise, List.isChain_iff_getElem]
    constructor
    · intro h i hi
      have := h (i + 1) (by rw [List.mem_range'_1]; omega)
      rw [decide_eq_true_iff, Nat.add_sub_cancel, List.getD_eq_getElem _ _ hi, List.getD_eq_getElem _ _ (by omega)] at this
      exact this
    · intro h i hi
      rw [List.mem_range'_1] at hi
      obtain ⟨k, rfl⟩ : ∃ k, i = k + 1 := ⟨i - 1, by omega⟩
      rw [decide_eq_true_iff, Nat.add_sub_cancel, List.getD_eq_getElem _ _ (by omega), List.getD_eq_getElem _ _ (by omega)]
      exact h k (by omega)
  | false =>
    simp only [Bool.false_eq_true, if_false]
    rw [← List.isChain_iff_pairwise, List.isChain_iff_getElem]
    constructor
    · intro h i hi
      have := h (i + 1) (by rw [List.mem_range'_1]; omega)
      rw [decide_eq_true_iff, Nat.add_sub_cancel, List.getD_eq_getElem _ _ hi, List.getD_eq_getElem _ _ (by omega)] at this
      exact this
    · intro h i hi
      rw [List.mem_range'_1] at hi
      obtain ⟨k, rfl⟩ : ∃ k, i = k + 1 := ⟨i - 1, by omega⟩
      rw [decide_eq_true_iff, Nat.add_sub_cancel, List.getD_eq_getElem _ _ (by omega), List.getD_eq_getElem _ _ (by omega)]
      exact h k (by omega)

theorem goodFactor_sublist {dec : Bool} {x y : List Int} (h : x.Sublist y) (hy : GoodFactor dec y) : GoodFactor dec x := by
  unfold GoodFactor at hy ⊢
  cases dec with
  | true => simp only [if_true] at hy ⊢; exact hy.sublist h
  | false => simp only [Bool.false_eq_true, if_false] at hy ⊢; exact hy.sublist h

theorem goodFactor_nil (dec : Bool) : GoodFactor dec [] := by cases dec <;> simp [GoodFactor]

/-- Since the property passes to shorter prefixes, the `break` loses nothing. -/
theorem mem_takeWhile {dec : Bool} {w : List Int} {n i : Nat} :
    i ∈ (List.range n).takeWhile (fun i => isIncreasing dec (w.take i)) ↔ i < n ∧ GoodFactor dec (w.take i) := by
  have mono : ∀ i j, i ≤ j → GoodFactor dec (w.take j) → GoodFactor dec (w.take i) := by
    intro i j hij h
    refine goodFactor_sublist ?_ h
    rw [← min_eq_left hij, ← List.take_take]
    exact List.take_sublist _ _
  constructor
  · intro h
    exact ⟨List.mem_range.1 (List.takeWhile_subset _ h), (isIncreasing_iff _ _).1 (List.mem_takeWhile_imp (p := fun i => isIncreasing dec (w.take i)) h)⟩
  · rintro ⟨h1, h2⟩
    induction n with
    | zero => omega
    | succ n ih =>
      rw [List.range_succ, List.takeWhile_append]
      split_ifs with hl
      · rcases Nat.lt_succ_iff_lt_or_eq.1 h1 with h3 | h3
        · exact List.mem_append_left _ (List.mem_range.2 h3)
        · subst h3
          refine List.mem_append_right _ ?_
          rw [List.takeWhile_cons, if_pos ((isIncreasing_iff _ _).2 h2)]
          simp
      · rcases Nat.lt_succ_iff_lt_or_eq.1 h1 with h3 | h3
        · exact ih h3
        · exfalso
          apply hl
          subst h3
          rw [List.takeWhile_eq_self_iff.2]
          intro j hj
          rw [List.mem_range] at hj
          exact (isIncreasing_iff _ _).2 (mono _ _ (by omega) h2)

theorem mem_factorizations (dec : Bool) (k : Nat) (w : List Int) (tup : List (List Int)) :
    tup ∈ increasingFactorizations dec k w ↔ tup.length = k ∧ tup.flatten = w ∧ ∀ x ∈ tup, GoodFactor dec x := by
  induction k generalizing w tup with
  | zero =>
    rw [increasingFactorizations]
    by_cases h : w.length = 0
    · rw [if_pos h]
      have : w = [] := by simpa using h
      subst this
      cases tup <;> simp
    · rw [if_neg h]
      have : w ≠ [] := by rintro rfl; simp at h
      cases tup with
      | nil => simp [this.symm]
      | cons a t => simp
  | succ k ih =>
    rw [increasingFactorizations]
    by_cases h : w.length = 0
    · rw [if_pos h]
      have : w = [] := by simpa using h
      subst this
      rw [List.mem_singleton]
      constructor
      · rintro rfl
        refine ⟨by simp, by simp, ?_⟩
        intro x hx
        rw [(List.mem_replicate.1 hx).2]; exact goodFactor_nil dec
      · rintro ⟨h1, h2, _⟩
        rw [List.eq_replicate_iff]
        exact ⟨h1, fun b hb => List.flatten_eq_nil_iff.1 h2 b hb⟩
    · rw [if_neg h, List.mem_flatMap]
      constructor
      · rintro ⟨i, hi, h1⟩
        obtain ⟨t, ht, rfl⟩ := List.mem_map.1 h1
        obtain ⟨h2, h3, h4⟩ := (ih _ _).1 ht
        obtain ⟨h5, h6⟩ := mem_takeWhile.1 hi
        refine ⟨by simp [h2], by rw [List.flatten_cons, h3, List.take_append_drop], ?_⟩
        intro x hx
        rcases List.mem_cons.1 hx with rfl | hx
        · exact h6
        · exact h4 x hx
      · rintro ⟨h1, h2, h3⟩
        cases tup with
        | nil => simp at h1
        | cons a t =>
          rw [List.flatten_cons] at h2
          subst h2
          refine ⟨a.length, mem_takeWhile.2 ⟨by simp; omega, by rw [List.take_left]; exact h3 a (by simp)⟩, ?_⟩
          rw [List.take_left, List.drop_left]
          exact List.mem_map.2 ⟨t, (ih _ _).2 ⟨by simpa using h1, rfl, fun x hx => h3 x (by simp [hx])⟩, rfl⟩

theorem factorizations_nodup (dec : Bool) (k : Nat) (w : List Int) : (increasingFactorizations dec k w).Nodup := by
  induction k generalizing w with
  | zero => rw [increasingFactorizations]; split_ifs <;> simp
  | succ k ih =>
    rw [increasingFactorizations]
    split_ifs with h
    · simp
    · rw [List.nodup_flatMap]
      refine ⟨fun i _ => (ih _).map (fun a b h => by simpa using h), ?_⟩
      have h1 : ((List.range (w.length + 1)).takeWhile (fun i => isIncreasing dec (w.take i))).Nodup :=
        List.nodup_range.sublist (List.takeWhile_sublist _)
      refine (List.Pairwise.and_mem.1 h1).imp ?_
      rintro i j ⟨hi, hj, hij⟩ t ht1 ht2
      obtain ⟨t1, _, rfl⟩ := List.mem_map.1 ht1
      obtain ⟨t2, _, h2⟩ := List.mem_map.1 ht2
      rw [List.cons.injEq] at h2
      have h3 := congrArg List.length h2.1
      have h4 := (mem_takeWhile.1 hi).1
      have h5 := (mem_takeWhile.1 hj).1
      rw [List.length_take, List.length_take] at h3
      omega

/-- C77: `get_increasing_factorizations(w, k, decreasing)` yields exactly the `k`-tuples of weakly increasing (or strictly
decreasing) words whose concatenation is `w`, each once. -/
theorem C77_factorizations (decreasing : Bool) (k : ℕ) (w : List ℤ) :
    (increasingFactorizations decreasing k w).Nodup ∧
    ∀ tup, tup ∈ increasingFactorizations decreasing k w ↔
      tup.length = k ∧ tup.flatten = w ∧ ∀ x ∈ tup, GoodFactor decreasing x :=
  ⟨factorizations_nodup _ _ _, mem_factorizations _ _ _⟩

/-! ### the arrays -/

/-- The record of a tuple whose first factor has number `m`. -/
def recordFrom : Int → List (List Int) → List Int
  | _, [] => []
  | m, x :: tup => List.replicate x.length m ++ recordFrom (m + 1) tup

theorem array_eq (tup : List (List Int)) : factorizationTupleToArray tup = (tup.flatten, recordFrom 1 tup) := by
  have key : ∀ (tup : List (List Int)) (w i : List Int) (m : Int),
      tup.foldl (fun (s : List Int × List Int × Int) part =>
        (s.1 ++ part, s.2.1 ++ List.replicate part.length s.2.2, s.2.2 + 1)) (w, i, m)
      = (w ++ tup.flatten, i ++ recordFrom m tup, m + tup.length) := by
    intro tup
    induction tup with
    | nil => intro w i m; simp [recordFrom]
    | cons x tup ih =>
      intro w i m
      rw [List.foldl_cons, ih]
      simp only [recordFrom, List.flatten_cons, List.append_assoc, List.length_cons, Nat.cast_add, Nat.cast_one, Prod.mk.injEq,
        true_and]
      omega
  unfold factorizationTupleToArray
  rw [key]
  simp

theorem recordFrom_mem {m : Int} {tup : List (List Int)} {x : Int} (h : x ∈ recordFrom m tup) : m ≤ x ∧ x < m + tup.length := by
  induction tup generalizing m with
  | nil => simp [recordFrom] at h
  | cons a tup ih =>
    rw [recordFrom, List.mem_append] at h
    rw [List.length_cons]
    push_cast
    rcases h with h | h
    · have := (List.mem_replicate.1 h).2; omega
    · have := ih h; omega

theorem recordFrom_length (m : Int) (tup : List (List Int)) : (recordFrom m tup).length = tup.flatten.length := by
  induction tup generalizing m with
  | nil => rfl
  | cons a tup ih => rw [recordFrom, List.length_append, List.length_replicate, ih, List.flatten_cons, List.length_append]

/-- The condition on neighbouring letters, as a chain. -/
def RecOk (dec : Bool) (p q : Int × Int) : Prop := p.2 ≤ q.2 ∧ ((if !dec then q.1 < p.1 else p.1 ≤ q.1) → p.2 < q.2)

theorem isRecord_iff {w r : List Int} {dec : Bool} (hl : w.length = r.length) :
    IsRecord w r (!dec) ↔ (w.zip r).IsChain (RecOk dec) := by
  unfold IsRecord
  rw [List.isChain_iff_getElem]
  constructor
  · rintro ⟨_, h⟩ i hi
    rw [List.length_zip] at hi
    have := h i w[i] w[i + 1] r[i] r[i + 1] (List.getElem?_eq_getElem _) (List.getElem?_eq_getElem _)
      (List.getElem?_eq_getElem _) (List.getElem?_eq_getElem _)
    unfold RecOk
    simp only [List.getElem_zip]
    exact this
  · intro h
    refine ⟨hl, ?_⟩
    intro i a b x y h1 h2 h3 h4
    obtain ⟨h5, rfl⟩ := List.getElem?_eq_some_iff.1 h1
    obtain ⟨h6, rfl⟩ := List.getElem?_eq_some_iff.1 h2
    obtain ⟨h7, rfl⟩ := List.getElem?_eq_some_iff.1 h3
    obtain ⟨h8, rfl⟩ := List.getElem?_eq_some_iff.1 h4
    have := h i (by rw [List.length_zip]; omega)
    unfold RecOk at this
    simp only [List.getElem_zip] at this
    exact this

theorem goodFactor_cons {dec : Bool} {a : Int} {x : List Int} : GoodFactor dec (a :: x) ↔
    GoodFactor dec x ∧ ∀ b, x.head? = some b → ¬ (if !dec then b < a else a ≤ b) := by
  unfold GoodFactor
  cases dec with
  | true =>
    simp only [if_true, Bool.not_true, Bool.false_eq_true, if_false]
    rw [← List.isChain_iff_pairwise, ← List.isChain_iff_pairwise, List.isChain_cons]
    constructor
    · rintro ⟨h1, h2⟩; refine ⟨h2, fun b hb => ?_⟩; have := h1 b (by simpa using hb); omega
    · rintro ⟨h1, h2⟩; refine ⟨fun b hb => ?_, h1⟩; have := h2 b (by simpa using hb); omega
  | false =>
    simp only [Bool.false_eq_true, if_false, Bool.not_false, if_true]
    rw [← List.isChain_iff_pairwise, ← List.isChain_iff_pairwise, List.isChain_cons]
    constructor
    · rintro ⟨h1, h2⟩; refine ⟨h2, fun b hb => ?_⟩; have := h1 b (by simpa using hb); omega
    · rintro ⟨h1, h2⟩; refine ⟨fun b hb => ?_, h1⟩; have := h2 b (by simpa using hb); omega

/-- The record of a good tuple satisfies the condition. -/
theorem record_ok {dec : Bool} {tup : List (List Int)} (h : ∀ x ∈ tup, GoodFactor dec x) (m : Int) :
    (tup.flatten.zip (recordFrom m tup)).IsChain (RecOk dec) := by
  induction tup generalizing m with
  | nil => simp
  | cons a tup ih =>
    have ih := ih (fun x hx => h x (by simp [hx])) (m + 1)
    have ha := h a (by simp)
    rw [List.flatten_cons, recordFrom, List.zip_append (by simp)]
    obtain ⟨Z, hZ⟩ : ∃ Z, tup.flatten.zip (recordFrom (m + 1) tup) = Z := ⟨_, rfl⟩
    have hZ' : ∀ p ∈ Z, m < p.2 := by
      rintro ⟨u, v⟩ hp
      rw [← hZ] at hp
      have := recordFrom_mem (List.of_mem_zip hp).2
      simp only; omega
    rw [hZ] at ih ⊢
    clear hZ h
    induction a with
    | nil => simpa using ih
    | cons c a iha =>
      obtain ⟨h1, h2⟩ := goodFactor_cons.1 ha
      have iha := iha h1
      rw [List.length_cons, List.replicate_succ, List.zip_cons_cons, List.cons_append, List.isChain_cons]
      refine ⟨?_, iha⟩
      intro q hq
      cases a with
      | nil =>
        rw [List.length_nil, List.replicate_zero, List.zip_nil_left, List.nil_append] at hq
        have := hZ' q (List.mem_of_mem_head? hq)
        exact ⟨le_of_lt this, fun _ => this⟩
      | cons d a =>
        rw [List.length_cons, List.replicate_succ, List.zip_cons_cons, List.cons_append, List.head?_cons] at hq
        cases hq
        exact ⟨le_rfl, fun h3 => absurd h3 (h2 d rfl)⟩

/-- Every record in the range comes from exactly one tuple. -/
theorem record_exists {dec : Bool} (k : Nat) {w r : List Int} (hl : w.length = r.length) (hc : (w.zip r).IsChain (RecOk dec))
    (m : Int) (hr : ∀ x ∈ r, m ≤ x ∧ x < m + k) :
    ∃ tup : List (List Int), tup.length = k ∧ tup.flatten = w ∧ (∀ x ∈ tup, GoodFactor dec x) ∧ recordFrom m tup = r := by
  induction w generalizing r m k with
  | nil =>
    have : r = [] := by cases r with | nil => rfl | cons => simp at hl
    subst this
    refine ⟨List.replicate k [], by simp, by simp, ?_, ?_⟩
    · intro x hx; rw [(List.mem_replicate.1 hx).2]; exact goodFactor_nil dec
    · clear hc hl hr
      induction k generalizing m with
      | zero => rfl
      | succ k ih => rw [List.replicate_succ, recordFrom, ih]; rfl
  | cons a w ih =>
    cases r with
    | nil => simp at hl
    | cons t r =>
      simp only [List.length_cons, Nat.add_right_cancel_iff] at hl
      rw [List.zip_cons_cons, List.isChain_cons] at hc
      obtain ⟨h1, h2⟩ := hc
      have hmono : ∀ x ∈ r, t ≤ x := by
        clear ih
        induction w generalizing a t r with
        | nil => cases r with | nil => simp | cons => simp at hl
        | cons b w ihw =>
          cases r with
          | nil => simp
          | cons s r =>
            rw [List.zip_cons_cons] at h1 h2
            have h3 := (h1 (b, s) (by simp)).1
            rw [List.isChain_cons] at h2
            simp only at h3
            intro x hx
            rcases List.mem_cons.1 hx with rfl | hx
            · exact h3
            · exact h3.trans (ihw b s r (fun y hy => by have := hr y (by simp at hy ⊢; tauto); exact this) (by simpa using hl) h2.1 h2.2 x hx)
      obtain ⟨hm1, hm2⟩ := hr t (by simp)
      -- the tuple of the rest, with numbers from `t`
      obtain ⟨tup, e1, e2, e3, e4⟩ := ih (r := r) (m + k - t).toNat hl h2 t (by
        intro x hx
        have := hr x (by simp [hx])
        have := hmono x hx
        omega)
      -- the empty factors with the numbers `m, ..., t - 1`
      cases tup with
      | nil => simp at e1; omega
      | cons x tup =>
        have key : ∀ (d : Nat) (m : Int), recordFrom m (List.replicate d [] ++ (a :: x) :: tup) = recordFrom (m + d) ((a :: x) :: tup) := by
          intro d
          induction d with
          | zero => intro m; simp
          | succ d ih =>
            intro m
            rw [List.replicate_succ, List.cons_append, recordFrom, ih]
            simp only [List.length_nil, List.replicate_zero, List.nil_append]
            congr 1; push_cast; omega
        refine ⟨List.replicate (t - m).toNat [] ++ (a :: x) :: tup, ?_, ?_, ?_, ?_⟩
        · simp only [List.length_cons] at e1
          simp only [List.length_append, List.length_replicate, List.length_cons]; omega
        · rw [List.flatten_append]; simp only [List.flatten_replicate_nil, List.nil_append, List.flatten_cons, List.cons_append]
          rw [List.flatten_cons] at e2; rw [e2]
        · intro y hy
          rcases List.mem_append.1 hy with hy | hy
          · rw [(List.mem_replicate.1 hy).2]; exact goodFactor_nil dec
          · rcases List.mem_cons.1 hy with rfl | hy
            · rw [goodFactor_cons]
              refine ⟨e3 x (by simp), ?_⟩
              intro b hb hbad
              cases x with
              | nil => simp at hb
              | cons c x =>
                rw [List.head?_cons] at hb; cases hb
                rw [recordFrom, List.length_cons, List.replicate_succ, List.cons_append] at e4
                rw [List.flatten_cons, List.cons_append] at e2
                rw [← e4, ← e2, List.zip_cons_cons] at h1
                have := (h1 _ (by rw [List.head?_cons]; rfl)).2 hbad
                simp at this
            · exact e3 y (by simp [hy])
        · rw [key, show m + ((t - m).toNat : Int) = t by omega, recordFrom, List.length_cons, List.replicate_succ, List.cons_append]
          rw [recordFrom] at e4
          rw [e4]

theorem recordFrom_inj {m : Int} {t1 t2 : List (List Int)} (hl : t1.length = t2.length) (hf : t1.flatten = t2.flatten)
    (hr : recordFrom m t1 = recordFrom m t2) : t1 = t2 := by
  induction t1 generalizing t2 m with
  | nil => cases t2 with | nil => rfl | cons => simp at hl
  | cons x t1 ih =>
    cases t2 with
    | nil => simp at hl
    | cons y t2 =>
      have hcount : ∀ (x : List Int) (t : List (List Int)), (recordFrom m (x :: t)).count m = x.length := by
        intro x t
        rw [recordFrom, List.count_append, List.count_replicate_self, List.count_eq_zero_of_not_mem, Nat.add_zero]
        intro h
        have := (recordFrom_mem h).1; omega
      have h1 : x.length = y.length := by rw [← hcount x t1, hr, hcount]
      rw [List.flatten_cons, List.flatten_cons] at hf
      obtain ⟨rfl, h2⟩ := List.append_inj hf h1
      rw [recordFrom, recordFrom] at hr
      rw [ih (by simpa using hl) h2 (List.append_cancel_left hr)]

/-- C77: the arrays made of the factorizations of `w` are the pairs `(w, i)` with a record `i` with values `1, ..., k` as Hecke
insertion requires; each of them is found once. -/
theorem C77_arrays (decreasing : Bool) (k : ℕ) (w : List ℤ) :
    ((increasingFactorizations decreasing k w).map factorizationTupleToArray).Nodup ∧
    ∀ w' i, (w', i) ∈ (increasingFactorizations decreasing k w).map factorizationTupleToArray ↔
      w' = w ∧ IsRecord w i (!decreasing) ∧ ∀ x ∈ i, 1 ≤ x ∧ x ≤ k := by
  obtain ⟨h1, h2⟩ := C77_factorizations decreasing k w
  constructor
  · refine h1.map_on ?_
    intro t1 ht1 t2 ht2 h
    rw [array_eq, array_eq, Prod.mk.injEq] at h
    exact recordFrom_inj (by rw [((h2 _).1 ht1).1, ((h2 _).1 ht2).1]) h.1 h.2
  · intro w' i
    rw [List.mem_map]
    constructor
    · rintro ⟨tup, ht, h⟩
      rw [array_eq, Prod.mk.injEq] at h
      obtain ⟨rfl, rfl⟩ := h
      obtain ⟨h3, rfl, h5⟩ := (h2 _).1 ht
      refine ⟨rfl, (isRecord_iff (recordFrom_length _ _).symm).2 (record_ok h5 1), ?_⟩
      intro x hx
      have := recordFrom_mem hx
      omega
    · rintro ⟨rfl, h3, h4⟩
      obtain ⟨tup, e1, e2, e3, e4⟩ := record_exists k h3.1 ((isRecord_iff h3.1).1 h3) 1 (fun x hx => by have := h4 x hx; omega)
      exact ⟨tup, (h2 _).2 ⟨e1, e2, e3⟩, by rw [array_eq, e2, e4]⟩

example : increasingFactorizations false 2 [2, 1, 1] = [[[2], [1, 1]]] ∧
    increasingFactorizations true 2 [2, 1] = [[[], [2, 1]], [[2], [1]], [[2, 1], []]] ∧
    factorizationTupleToArray [[2], [], [1, 1]] = ([2, 1, 1], [1, 3, 3]) := by decide

end Verif.Crystal
