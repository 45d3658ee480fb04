import Verif.Lemmas.HeckeCount
import Verif.Lemmas.WordsZeta
import Mathlib.Data.Set.Card

/-! The number of factorizations as a sum over words, and as the size of a set. -/

namespace Verif.YB

open Verif.Words

variable {X Y : Type*}

/-- The words of length `t` with letters in `ls`. -/
def allWords (ls : List Nat) : Nat → List (List Nat)
  | 0 => [[]]
  | t + 1 => ls.flatMap (fun i => (allWords ls t).map (i :: ·))

theorem mem_allWords {ls : List Nat} {t : Nat} {w : List Nat} : w ∈ allWords ls t ↔ w.length = t ∧ ∀ i ∈ w, i ∈ ls := by
  induction t generalizing w with
  | zero =>
    simp only [allWords, List.mem_singleton]
    constructor
    · rintro rfl; simp
    · rintro ⟨h, -⟩; exact List.eq_nil_of_length_eq_zero h
  | succ t ih =>
    simp only [allWords, List.mem_flatMap, List.mem_map, ih]
    constructor
    · rintro ⟨i, hi, v, ⟨h1, h2⟩, rfl⟩
      refine ⟨by simp [h1], fun j hj => ?_⟩
      rcases List.mem_cons.1 hj with rfl | hj
      · exact hi
      · exact h2 j hj
    · rintro ⟨h1, h2⟩
      cases w with
      | nil => simp at h1
      | cons i v =>
        exact ⟨i, h2 i (by simp), v, ⟨by simpa using h1, fun j hj => h2 j (by simp [hj])⟩, rfl⟩

theorem nodup_allWords {ls : List Nat} (h : ls.Nodup) (t : Nat) : (allWords ls t).Nodup := by
  induction t with
  | zero => simp [allWords]
  | succ t ih =>
    rw [allWords, List.nodup_flatMap]
    refine ⟨fun i _ => ih.map (fun a b h => (List.cons.inj h).2), ?_⟩
    refine List.Pairwise.imp ?_ h
    intro i j hij
    simp only [Function.onFun, List.disjoint_left, List.mem_map]
    rintro w ⟨a, -, rfl⟩ ⟨b, -, h⟩
    exact hij (List.cons.inj h).1.symm

theorem sum_allWords_add (ls : List Nat) (p q : Nat) (F : List Nat → ℤ) :
    ((allWords ls (p + q)).map F).sum =
      ((allWords ls p).map (fun a => ((allWords ls q).map (fun b => F (a ++ b))).sum)).sum := by
  induction p generalizing F with
  | zero => simp [allWords]
  | succ p ih =>
    rw [show p + 1 + q = (p + q) + 1 by omega, allWords, allWords]
    induction ls with
    | nil => simp
    | cons i l _ =>
      generalize (i :: l) = L at ih ⊢
      have key : ∀ M : List Nat, ((M.flatMap (fun i => (allWords L (p + q)).map (i :: ·))).map F).sum =
          ((M.flatMap (fun i => (allWords L p).map (i :: ·))).map (fun a => ((allWords L q).map (fun b => F (a ++ b))).sum)).sum := by
        intro M
        induction M with
        | nil => simp
        | cons j M ihM =>
          simp only [List.flatMap_cons, List.map_append, List.sum_append, ihM]
          congr 1
          rw [List.map_map, List.map_map, ih]
          rfl
      exact key L

theorem sum_single {l : List (List Nat)} (hn : l.Nodup) {a : List Nat} (ha : a ∈ l) (G : List Nat → ℤ) :
    (l.map (fun b => (if a = b then (1 : ℤ) else 0) * G b)).sum = G a := by
  induction l with
  | nil => simp at ha
  | cons b l ih =>
    obtain ⟨h1, h2⟩ := List.nodup_cons.1 hn
    simp only [List.map_cons, List.sum_cons]
    by_cases hab : a = b
    · subst hab
      have : (l.map (fun b => (if a = b then (1 : ℤ) else 0) * G b)).sum = 0 := by
        apply List.sum_eq_zero
        intro x hx
        obtain ⟨c, hc, rfl⟩ := List.mem_map.1 hx
        rw [if_neg (by rintro rfl; exact h1 hc), zero_mul]
      rw [this]; simp
    · rw [if_neg hab, zero_mul, zero_add]
      exact ih h2 ((List.mem_cons.1 ha).resolve_left hab)

theorem sum_filter (wd : Y → List Nat) (W : List Y) {ls : List Nat} (hls : ls.Nodup) (hW : ∀ y ∈ W, ∀ i ∈ wd y, i ∈ ls)
    (p : Nat) (G : List Nat → ℤ) :
    ((W.filter (fun y => (wd y).length = p)).map (fun y => G (wd y))).sum =
      ((allWords ls p).map (fun a => ((W.map wd).count a : ℤ) * G a)).sum := by
  induction W with
  | nil => simp
  | cons y W ih =>
    have h1 := ih (fun z hz => hW z (List.mem_cons_of_mem _ hz))
    have h2 : ((allWords ls p).map (fun a => (((y :: W).map wd).count a : ℤ) * G a)).sum =
        ((allWords ls p).map (fun a => (if wd y = a then (1 : ℤ) else 0) * G a)).sum +
          ((allWords ls p).map (fun a => ((W.map wd).count a : ℤ) * G a)).sum := by
      rw [← List.sum_map_add]
      congr 1
      refine List.map_congr_left (fun a _ => ?_)
      rw [← add_mul, List.map_cons, List.count_cons]
      congr 1
      push_cast
      by_cases h : wd y = a
      · simp [h, add_comm]
      · simp [h]
    rw [h2, ← h1]
    by_cases hp : (wd y).length = p
    · rw [List.filter_cons_of_pos (by simpa using hp), List.map_cons, List.sum_cons,
        sum_single (nodup_allWords hls p) (mem_allWords.2 ⟨hp, hW y (by simp)⟩)]
    · rw [List.filter_cons_of_neg (by simpa using hp)]
      have : ((allWords ls p).map (fun a => (if wd y = a then (1 : ℤ) else 0) * G a)).sum = 0 := by
        apply List.sum_eq_zero
        intro x hx
        obtain ⟨c, hc, rfl⟩ := List.mem_map.1 hx
        rw [if_neg, zero_mul]
        rintro rfl
        exact hp (mem_allWords.1 hc).1
      rw [this, zero_add]

open scoped Classical in
theorem cnt_eq_sum (g : X → Nat → X) (wd : Y → List Nat) (W : List Y) {ls : List Nat} (hls : ls.Nodup)
    (hW : ∀ y ∈ W, ∀ i ∈ wd y, i ∈ ls) (zeta : List Nat → ℤ)
    (hz : ∀ a, (∀ i ∈ a, i ∈ ls) → zeta a = ((W.map wd).count a : ℤ)) (z x : X) (α : List Nat) :
    (cnt g wd W z x α : ℤ) =
      ((allWords ls α.sum).map (fun w => if w.foldl g x = z then ((α.splitLengths w).map zeta).prod else 0)).sum := by
  induction α generalizing x with
  | nil =>
    simp only [cnt, allWords, List.sum_nil, List.map_cons, List.map_nil, List.sum_cons, List.foldl_nil, List.splitLengths_nil, List.prod_nil]
    by_cases h : x = z
    · simp [h]
    · simp [h]
  | cons p α ih =>
    rw [List.sum_cons, sum_allWords_add]
    have e1 : (cnt g wd W z x (p :: α) : ℤ) =
        ((W.filter (fun y => (wd y).length = p)).map (fun y => (cnt g wd W z ((wd y).foldl g x) α : ℤ))).sum := by
      rw [cnt]
      generalize W.filter (fun y => (wd y).length = p) = V
      induction V with
      | nil => simp
      | cons y V ihV => simp [ihV]
    rw [e1, sum_filter wd W hls hW p (fun a => (cnt g wd W z (a.foldl g x) α : ℤ))]
    congr 1
    refine List.map_congr_left (fun a ha => ?_)
    obtain ⟨hl, hi⟩ := mem_allWords.1 ha
    rw [← hz a hi, ih, ← List.sum_map_mul_left]
    congr 1
    refine List.map_congr_left (fun b _ => ?_)
    rw [List.foldl_append, List.splitLengths_cons, ← hl, List.take_left, List.drop_left, List.map_cons, List.prod_cons]
    split
    · rfl
    · rw [mul_zero]

/-! ### as the size of a set -/

/-- The sequences of factors with the lengths `α`. -/
def facs (wd : Y → List Nat) (W : List Y) : List Nat → List (List Y)
  | [] => [[]]
  | p :: α => (W.filter (fun y => (wd y).length = p)).flatMap (fun y => (facs wd W α).map (y :: ·))

theorem mem_facs (wd : Y → List Nat) (W : List Y) {α : List Nat} {fs : List Y} :
    fs ∈ facs wd W α ↔ fs.map (fun y => (wd y).length) = α ∧ ∀ y ∈ fs, y ∈ W := by
  induction α generalizing fs with
  | nil =>
    simp only [facs, List.mem_singleton, List.map_eq_nil_iff]
    constructor
    · rintro rfl; simp
    · exact fun h => h.1
  | cons p α ih =>
    simp only [facs, List.mem_flatMap, List.mem_filter, List.mem_map, ih, decide_eq_true_eq]
    constructor
    · rintro ⟨y, ⟨h1, h2⟩, fs, ⟨h3, h4⟩, rfl⟩
      refine ⟨by rw [List.map_cons, h2, h3], fun a ha => ?_⟩
      rcases List.mem_cons.1 ha with rfl | ha
      · exact h1
      · exact h4 a ha
    · rintro ⟨h1, h2⟩
      cases fs with
      | nil => simp at h1
      | cons y fs =>
        rw [List.map_cons, List.cons.injEq] at h1
        exact ⟨y, ⟨h2 y (by simp), h1.1⟩, fs, ⟨h1.2, fun a ha => h2 a (by simp [ha])⟩, rfl⟩

theorem nodup_facs (wd : Y → List Nat) {W : List Y} (hW : W.Nodup) (α : List Nat) : (facs wd W α).Nodup := by
  induction α with
  | nil => simp [facs]
  | cons p α ih =>
    rw [facs, List.nodup_flatMap]
    refine ⟨fun y _ => ih.map (fun a b h => (List.cons.inj h).2), ?_⟩
    refine List.Pairwise.imp ?_ (hW.filter _)
    intro y y' hy
    simp only [Function.onFun, List.disjoint_left, List.mem_map]
    rintro w ⟨a, -, rfl⟩ ⟨b, -, h⟩
    exact hy (List.cons.inj h).1.symm

open scoped Classical in
theorem cnt_eq_length (g : X → Nat → X) (wd : Y → List Nat) (W : List Y) (z x : X) (α : List Nat) :
    cnt g wd W z x α = ((facs wd W α).filter (fun fs => (fs.flatMap wd).foldl g x = z)).length := by
  induction α generalizing x with
  | nil =>
    simp only [cnt, facs]
    by_cases h : x = z
    · simp [h]
    · simp [h]
  | cons p α ih =>
    rw [cnt, facs]
    generalize W.filter (fun y => (wd y).length = p) = V
    induction V with
    | nil => simp
    | cons y V ihV =>
      simp only [List.map_cons, List.sum_cons, List.flatMap_cons, List.filter_append, List.length_append, ihV]
      congr 1
      rw [ih]
      rw [List.filter_map, List.length_map]
      congr 1
      refine List.filter_congr (fun fs _ => ?_)
      simp [List.flatMap_cons]

theorem cnt_eq_ncard (g : X → Nat → X) (wd : Y → List Nat) {W : List Y} (hW : W.Nodup) (z x : X) (α : List Nat) :
    {fs : List Y | fs.map (fun y => (wd y).length) = α ∧ (∀ y ∈ fs, y ∈ W) ∧ (fs.flatMap wd).foldl g x = z}.Finite ∧
    cnt g wd W z x α =
      Set.ncard {fs : List Y | fs.map (fun y => (wd y).length) = α ∧ (∀ y ∈ fs, y ∈ W) ∧ (fs.flatMap wd).foldl g x = z} := by
  classical
  have h : {fs : List Y | fs.map (fun y => (wd y).length) = α ∧ (∀ y ∈ fs, y ∈ W) ∧ (fs.flatMap wd).foldl g x = z} =
      (((facs wd W α).filter (fun fs => (fs.flatMap wd).foldl g x = z)).toFinset : Set (List Y)) := by
    ext fs
    simp only [Set.mem_ofPred_eq, Finset.mem_coe, List.mem_toFinset, List.mem_filter, mem_facs, decide_eq_true_eq, and_assoc]
  rw [h]
  refine ⟨Finset.finite_toSet _, ?_⟩
  rw [Set.ncard_coe_finset, List.toFinset_card_of_nodup ((nodup_facs wd hW α).filter _), cnt_eq_length]

/-! ### the characters -/

theorem pairwise_cast_gt (a : List Nat) : (a.map (fun i : Nat => (i : Int))).Pairwise (· > ·) ↔ a.Pairwise (· > ·) := by
  rw [List.pairwise_map]
  exact ⟨fun h => h.imp (by intro a b; omega), fun h => h.imp (by intro a b; omega)⟩

theorem pairwise_cast_lt (a : List Nat) : (a.map (fun i : Nat => (i : Int))).Pairwise (· < ·) ↔ a.Pairwise (· < ·) := by
  rw [List.pairwise_map]
  exact ⟨fun h => h.imp (by intro a b; omega), fun h => h.imp (by intro a b; omega)⟩

theorem decreasingZeta_count (l m : Nat) (a : List Nat) (ha : ∀ i ∈ a, l ≤ i ∧ i < l + m) :
    decreasingZeta (a.map (fun i : Nat => (i : Int))) = (((decWords l m).map id).count a : ℤ) := by
  rw [List.map_id, decreasingZeta]
  by_cases h : a.Pairwise (· > ·)
  · rw [if_pos ((dec_iff _).2 ((pairwise_cast_gt a).2 h)), List.count_eq_one_of_mem (nodup_decWords l m) (mem_decWords.2 ⟨h, ha⟩)]
    rfl
  · rw [if_neg (fun h' => h ((pairwise_cast_gt a).1 ((dec_iff _).1 h'))),
      List.count_eq_zero_of_not_mem (fun h' => h (mem_decWords.1 h').1)]
    rfl

theorem unimodalZeta_count (m : Nat) (a : List Nat) (ha : ∀ i ∈ a, i < m) :
    unimodalZeta (a.map (fun i : Nat => (i : Int))) =
      (((uniPairs m).map (fun p : List Nat × List Nat => p.1 ++ p.2)).count a : ℤ) := by
  classical
  rw [unimodalZeta_eq_card, List.count_eq_countP, List.countP_map, List.countP_eq_length_filter]
  norm_cast
  rw [← List.toFinset_card_of_nodup ((nodup_uniPairs m).filter _)]
  apply Finset.card_bij (fun k _ => (a.take k, a.drop k))
  · intro k hk
    simp only [Finset.mem_filter, Finset.mem_range, List.length_map, ← List.map_take, ← List.map_drop, pairwise_cast_gt,
      pairwise_cast_lt] at hk
    simp only [List.mem_toFinset, List.mem_filter, mem_uniPairs, Function.comp_apply, List.take_append_drop, beq_self_eq_true,
      and_true]
    exact ⟨hk.2.1, hk.2.2, ha⟩
  · intro k hk k' hk' h
    simp only [Finset.mem_filter, Finset.mem_range, List.length_map] at hk hk'
    simp only [Prod.mk.injEq] at h
    have := congrArg List.length h.1
    simp only [List.length_take] at this
    omega
  · rintro ⟨b, c⟩ h
    simp only [List.mem_toFinset, List.mem_filter, mem_uniPairs, Function.comp_apply, beq_iff_eq] at h
    obtain ⟨⟨h1, h2, h3⟩, rfl⟩ := h
    refine ⟨b.length, ?_, by simp⟩
    simp only [Finset.mem_filter, Finset.mem_range, List.length_map, ← List.map_take, ← List.map_drop, pairwise_cast_gt,
      pairwise_cast_lt, List.take_left, List.drop_left]
    exact ⟨by simp, h1, h2⟩

end Verif.YB
