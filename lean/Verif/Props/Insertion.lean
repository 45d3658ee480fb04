import Verif.Lemmas.InsertionPieri
import Verif.Lemmas.Partitions
import Verif.Spec.Insertion

/-! Properties C39, C40 and C42: Hecke insertion and its inverse (insertion.py). -/

namespace Verif.Insertion

open Tab Verif.Part

attribute [-simp] List.getD_eq_getElem?_getD

/-! ## The record -/

theorem all_range_iff {n : Nat} {P : Nat → Bool} : (List.range (n - 1)).all P = true ↔ ∀ i, i + 1 < n → P i = true := by
  rw [List.all_eq_true]
  constructor
  · intro h i hi; exact h i (by rw [List.mem_range]; omega)
  · intro h i hi; rw [List.mem_range] at hi; exact h i (by omega)

theorem checkRecord_eq (w rec : List Int) (m : Bool) :
    (IsRecord w rec m → checkRecord w (some rec) m = some rec) ∧
    (¬ IsRecord w rec m → checkRecord w (some rec) m = none) := by
  have hget : ∀ (l : List Int) i a, l[i]? = some a → l.getD i 0 = a := by
    intro l i a h; rw [List.getD_eq_getElem?_getD, h]; rfl
  have hget' : ∀ (l : List Int) i, i < l.length → l[i]? = some (l.getD i 0) := by
    intro l i h; rw [List.getD_eq_getElem?_getD, List.getElem?_eq_getElem h]; rfl
  have key : ∀ b, (IsRecord w rec b ↔ w.length = rec.length ∧
      (∀ i, i + 1 < rec.length → rec.getD i 0 ≤ rec.getD (i + 1) 0) ∧
      ∀ i, i + 1 < rec.length → (if b then w.getD (i + 1) 0 < w.getD i 0 else w.getD i 0 ≤ w.getD (i + 1) 0) →
        rec.getD i 0 < rec.getD (i + 1) 0) := by
    intro b
    constructor
    · rintro ⟨h1, h2⟩
      refine ⟨h1, ?_, ?_⟩
      · intro i hi
        exact (h2 i _ _ _ _ (hget' w i (by omega)) (hget' w (i + 1) (by omega)) (hget' rec i (by omega))
          (hget' rec (i + 1) (by omega))).1
      · intro i hi
        exact (h2 i _ _ _ _ (hget' w i (by omega)) (hget' w (i + 1) (by omega)) (hget' rec i (by omega))
          (hget' rec (i + 1) (by omega))).2
    · rintro ⟨h1, h2, h3⟩
      refine ⟨h1, ?_⟩
      intro i a c x y ha hc hx hy
      have hi : i + 1 < rec.length := by
        by_contra hn
        rw [List.getElem?_eq_none (by omega)] at hy
        cases hy
      have e1 := h2 i hi
      have e2 := h3 i hi
      rw [hget w i a ha, hget w (i + 1) c hc, hget rec i x hx, hget rec (i + 1) y hy] at e2
      rw [hget rec i x hx, hget rec (i + 1) y hy] at e1
      exact ⟨e1, e2⟩
  rw [key]
  unfold checkRecord
  simp only [Option.getD_some, Bool.not_eq_true']
  by_cases h1 : w.length = rec.length
  · rw [if_neg (by simpa using h1)]
    by_cases h2 : ∀ i, i + 1 < rec.length → rec.getD i 0 ≤ rec.getD (i + 1) 0
    · rw [if_neg (by
        rw [Bool.not_eq_false, all_range_iff]
        intro i hi
        exact decide_eq_true (h2 i hi))]
      cases m with
      | true =>
        have e : ((List.range (rec.length - 1)).all (fun i =>
            !decide (w.getD i 0 > w.getD (i + 1) 0) || decide (rec.getD i 0 < rec.getD (i + 1) 0)) = true) ↔
            ∀ i, i + 1 < rec.length → (w.getD (i + 1) 0 < w.getD i 0) → rec.getD i 0 < rec.getD (i + 1) 0 := by
          rw [all_range_iff]
          apply forall_congr'; intro i
          apply forall_congr'; intro hi
          by_cases hc : w.getD (i + 1) 0 < w.getD i 0 <;> simp [hc]
        simp only [if_true]
        rw [← e]
        exact ⟨fun h => by rw [if_pos h.2.2], fun h => by rw [if_neg (fun hc => h ⟨h1, h2, hc⟩)]⟩
      | false =>
        have e : ((List.range (rec.length - 1)).all (fun i =>
            !decide (w.getD i 0 ≤ w.getD (i + 1) 0) || decide (rec.getD i 0 < rec.getD (i + 1) 0)) = true) ↔
            ∀ i, i + 1 < rec.length → (w.getD i 0 ≤ w.getD (i + 1) 0) → rec.getD i 0 < rec.getD (i + 1) 0 := by
          rw [all_range_iff]
          apply forall_congr'; intro i
          apply forall_congr'; intro hi
          by_cases hc : w.getD i 0 ≤ w.getD (i + 1) 0 <;> simp [hc]
        simp only [Bool.false_eq_true, if_false]
        rw [← e]
        exact ⟨fun h => by rw [if_pos h.2.2], fun h => by rw [if_neg (fun hc => h ⟨h1, h2, hc⟩)]⟩
    · rw [if_pos (by
        rw [← Bool.not_eq_true, all_range_iff]
        intro hc
        exact h2 (fun i hi => of_decide_eq_true (hc i hi)))]
      exact ⟨fun h => absurd h.2.1 h2, fun _ => rfl⟩
  · rw [if_pos h1]
    exact ⟨fun h => absurd h.1 h1, fun _ => rfl⟩

/-- The default record. -/
def defaultRecord (n : Nat) : List Int := (List.range n).map (fun k : Nat => (k : Int) + 1)

theorem getD_map_range {n k : Nat} {g : Nat → Int} (h : k < n) : ((List.range n).map g).getD k 0 = g k := by
  rw [List.getD_eq_getElem?_getD, List.getElem?_map, List.getElem?_range h]; rfl

theorem checkRecord_none (w : List Int) (m : Bool) :
    checkRecord w none m = checkRecord w (some (defaultRecord w.length)) m ∧ IsRecord w (defaultRecord w.length) m := by
  refine ⟨rfl, by simp [defaultRecord], ?_⟩
  intro i a b x y _ _ hx hy
  have : ∀ (j : Nat) (z : Int), (defaultRecord w.length)[j]? = some z → z = (j : Int) + 1 := by
    intro j z hz
    unfold defaultRecord at hz
    rw [List.getElem?_map] at hz
    by_cases hj : j < w.length
    · rw [List.getElem?_range hj] at hz; cases hz; rfl
    · rw [List.getElem?_eq_none (by simp; omega)] at hz; cases hz
  have h1 := this i x hx
  have h2 := this (i + 1) y hy
  push_cast at h2
  omega

/-! ## C42 -/

theorem compat_true {w rec : List Int} (hrec : IsRecord w rec true) (hpos : ∀ x ∈ rec, 0 < x) {p q : Tab} {lam : Nat → Nat}
    {f : Nat → Nat → Int} {β : Nat → Nat × Nat} (hd : Done w p q lam f β) :
    Compat β (fun k : Nat => rec.getD (((k : Int) + 1).toNat - 1) 0) w.length := by
  have e : ∀ k : Nat, ((k : Int) + 1).toNat - 1 = k := by intro k; omega
  have hget' : ∀ (l : List Int) i, i < l.length → l[i]? = some (l.getD i 0) := by
    intro l i h; rw [List.getD_eq_getElem?_getD, List.getElem?_eq_getElem h]; rfl
  have hstep := fun i (hi : i + 1 < w.length) => hrec.2 i _ _ _ _ (hget' w i (by omega)) (hget' w (i + 1) (by omega))
    (hget' rec i (by have := hrec.1; omega)) (hget' rec (i + 1) (by have := hrec.1; omega))
  simp only [e]
  apply compat_of_steps
  · intro k hk
    have := hrec.1
    exact hpos _ (List.mem_of_getElem? (hget' rec k (by omega)))
  · intro k hk; exact (hstep k hk).1
  · intro k hk heq
    apply hd.le k hk
    by_contra hc
    have := (hstep k hk).2 (by simpa using hc)
    omega

theorem compat_false {w rec : List Int} (hrec : IsRecord w rec false) (hpos : ∀ x ∈ rec, 0 < x) {p q : Tab} {lam : Nat → Nat}
    {f : Nat → Nat → Int} {β : Nat → Nat × Nat} (hd : Done w p q lam f β) :
    Compat (fun k => ((β k).2, (β k).1)) (fun k : Nat => rec.getD (((k : Int) + 1).toNat - 1) 0) w.length := by
  have e : ∀ k : Nat, ((k : Int) + 1).toNat - 1 = k := by intro k; omega
  have hget' : ∀ (l : List Int) i, i < l.length → l[i]? = some (l.getD i 0) := by
    intro l i h; rw [List.getD_eq_getElem?_getD, List.getElem?_eq_getElem h]; rfl
  have hstep := fun i (hi : i + 1 < w.length) => hrec.2 i _ _ _ _ (hget' w i (by omega)) (hget' w (i + 1) (by omega))
    (hget' rec i (by have := hrec.1; omega)) (hget' rec (i + 1) (by have := hrec.1; omega))
  simp only [e]
  apply compat_of_steps
  · intro k hk
    have := hrec.1
    exact hpos _ (List.mem_of_getElem? (hget' rec k (by omega)))
  · intro k hk; exact (hstep k hk).1
  · intro k hk heq
    left
    apply hd.gt k hk
    by_contra hc
    have := (hstep k hk).2 (by simpa using hc)
    omega

theorem map_range_getD (rec : List Int) :
    (List.range rec.length).map (fun k : Nat => rec.getD (((k : Int) + 1).toNat - 1) 0) = rec := by
  apply List.ext_getElem?
  intro i
  rw [List.getElem?_map]
  by_cases hi : i < rec.length
  · rw [List.getElem?_range hi, List.getElem?_eq_getElem hi, Option.map_some, List.getD_eq_getElem?_getD,
      show ((i : Int) + 1).toNat - 1 = i by omega, List.getElem?_eq_getElem hi]
    rfl
  · rw [List.getElem?_eq_none (l := rec) (by omega), List.getElem?_eq_none (by rw [List.length_range]; omega)]; rfl

/-- C42: Hecke insertion of a word in positive integers with any admissible record of positive integers (an inadmissible one
is rejected), in both versions, whatever calls have filled the cache: `inverse_hecke` returns the word and the record. -/
theorem C42_round_trip {C : HCache} (hC : Sound C) (w rec : List Int) (m : Bool) (hw : ∀ a ∈ w, 0 < a) (hr : ∀ x ∈ rec, 0 < x) :
    (IsRecord w rec m → ∃ p q, (hecke C w (some rec) m).1 = some (p, q) ∧ inverseHecke p q m = some (w, rec)) ∧
    (¬ IsRecord w rec m → (hecke C w (some rec) m).1 = none) := by
  constructor
  · intro hrec
    obtain ⟨p, q, lam, f, β, hd⟩ := done_exists w hw
    have hlen := hrec.1
    have hi := insertAll_spec w hC Tab.empty Tab.empty
    rw [hd.run, ← insertionTableaux] at hi
    have hback : ∀ ans, inverseInsertion (w.length + 1) p q ans = some (w ++ ans) := by
      intro ans
      have h0 : Tab.empty.items = [] := rfl
      rw [Nat.add_comm, hd.back, inverseInsertion, if_pos h0]
    cases m with
    | true =>
      have hc := compat_true hrec hr hd
      refine ⟨p, q.apply (fun x => rec.getD (x.toNat - 1) 0), ?_, ?_⟩
      · rw [hecke, (checkRecord_eq w rec true).1 hrec]
        simp only
        rcases hins : insertionTableaux C w with ⟨o, C'⟩
        rw [hins] at hi
        simp only at hi
        rw [hi.1]
        simp only [if_true]
        rw [apply?_eq hd.std hlen.symm]
        rfl
      · rw [inverseHecke]
        simp only [if_true]
        rw [standardize_apply hd.std hc, recordList_apply hd.std hc]
        simp only
        rw [values_length_apply, hd.std.len, hback, List.append_nil, hlen, map_range_getD]
        rfl
    | false =>
      have hc := compat_false hrec hr hd
      refine ⟨p.transpose, q.transpose.apply (fun x => rec.getD (x.toNat - 1) 0), ?_, ?_⟩
      · rw [hecke, (checkRecord_eq w rec false).1 hrec]
        simp only
        rcases hins : insertionTableaux C w with ⟨o, C'⟩
        rw [hins] at hi
        simp only at hi
        rw [hi.1]
        simp only [Bool.false_eq_true, if_false]
        rw [apply?_eq hd.std.transpose hlen.symm]
        rfl
      · rw [inverseHecke]
        simp only [Bool.false_eq_true, if_false]
        rw [standardize_apply hd.std.transpose hc, recordList_apply hd.std.transpose hc]
        simp only
        rw [values_length_apply, hd.std.transpose.len, transpose_transpose, transpose_transpose, hback, List.append_nil, hlen,
          map_range_getD]
        rfl
  · intro hrec
    rw [hecke, (checkRecord_eq w rec m).2 hrec]

/-- C42: the hypothesis on the cache holds for the empty cache and is preserved by every call. -/
theorem C42_cache : Sound Dict.empty ∧
    ∀ (C : HCache), Sound C → ∀ (w : List Int) (record : Option (List Int)) (m : Bool), Sound (hecke C w record m).2 :=
  ⟨sound_empty, fun _ hC w record m => hecke_sound hC w record m⟩

/-! ## C39 -/

theorem hecke_none (C : HCache) (w : List Int) (m : Bool) : hecke C w none m = hecke C w (some (defaultRecord w.length)) m := by
  rw [hecke, (checkRecord_none w m).1, ← hecke]

theorem defaultRecord_pos {n : Nat} : ∀ x ∈ defaultRecord n, 0 < x := by
  intro x hx
  simp only [defaultRecord, List.mem_map] at hx
  obtain ⟨k, _, rfl⟩ := hx
  omega

/-- C39: for every word `w` in positive integers, `hecke(w)` returns a pair of tableaux, from which `inverse_hecke` recovers
`w` and the record `1..len(w)`; in both versions. -/
theorem C39_round_trip {C : HCache} (hC : Sound C) (w : List Int) (m : Bool) (hw : ∀ a ∈ w, 0 < a) :
    ∃ p q, (hecke C w none m).1 = some (p, q) ∧
      inverseHecke p q m = some (w, (List.range w.length).map (fun k : Nat => (k : Int) + 1)) := by
  rw [hecke_none]
  exact (C42_round_trip hC w _ m hw defaultRecord_pos).1 (checkRecord_none w m).2

/-- C39: consequently `hecke` is injective on words in positive integers. -/
theorem C39_injective {C C' : HCache} (hC : Sound C) (hC' : Sound C') (w w' : List Int) (m : Bool) (hw : ∀ a ∈ w, 0 < a)
    (hw' : ∀ a ∈ w', 0 < a) (h : (hecke C w none m).1 = (hecke C' w' none m).1) : w = w' := by
  obtain ⟨p, q, h1, h2⟩ := C39_round_trip hC w m hw
  obtain ⟨p', q', h1', h2'⟩ := C39_round_trip hC' w' m hw'
  rw [h1, h1'] at h
  cases h
  rw [h2] at h2'
  cases h2'
  rfl

/-- C39: the letters must be positive: the inverse of the insertion of `-1, -1` is `-1, 0`, because missing boxes count as 0 in
`_inverse_terminal_transition`. -/
theorem C39_needs_positive : ∃ p q, (hecke Dict.empty [-1, -1] none true).1 = some (p, q) ∧
    inverseHecke p q true = some ([-1, 0], [1, 2]) := by
  refine ⟨Tab.empty.add (1, 1) (-1), (Tab.empty.add (1, 1) 1).add (1, 1) 2, ?_, ?_⟩ <;> decide +kernel

example : (hecke Dict.empty [4, 2, 1, 2, 2, 4, 1] none true).1.map (fun r => (r.1.items, r.2.items)) =
    some ([((1, 1), [1]), ((1, 2), [2]), ((1, 3), [4]), ((2, 1), [2]), ((3, 1), [4])],
      [((1, 1), [1]), ((1, 2), [4, 5]), ((1, 3), [6]), ((2, 1), [2]), ((3, 1), [3, 7])]) := by decide +kernel

example : ((hecke Dict.empty [2, 1, 2, 2, 1, 3] (some [1, 2, 2, 2, 4, 4]) true).1.bind (fun r => inverseHecke r.1 r.2 true)) =
    some ([2, 1, 2, 2, 1, 3], [1, 2, 2, 2, 4, 4]) := by decide +kernel
example : IsRecord [2, 1, 2, 2, 1, 3] [1, 2, 2, 2, 4, 4] true :=
  by_contra fun h => by
    have := (checkRecord_eq _ _ _).2 h
    revert this
    decide
example : ((hecke Dict.empty [3, 2, 1, 2, 2] (some [1, 1, 1, 3, 4]) false).1.bind (fun r => inverseHecke r.1 r.2 false)) =
    some ([3, 2, 1, 2, 2], [1, 1, 1, 3, 4]) := by decide +kernel
example : ((hecke Dict.empty [3, 2, 1] (some [1, 1, 1]) true).1) = none := by decide +kernel

/-! ## C40 -/

/-- The list of the row lengths. -/
def shapeList (T : Tab) (lam : Nat → Nat) : List Nat := (List.range T.maxRow).map (fun k => lam (k + 1))

theorem shapeList_getD {T : Tab} {lam : Nat → Nat} {f : Nat → Nat → Int} (h : Inc T lam f) {i : Nat} (hi : 1 ≤ i) :
    (shapeList T lam).getD (i - 1) 0 = lam i := by
  unfold shapeList
  rw [List.getD_eq_getElem?_getD, List.getElem?_map]
  by_cases hl : i - 1 < T.maxRow
  · rw [List.getElem?_range hl, show i = i - 1 + 1 by omega]; rfl
  · rw [List.getElem?_eq_none (by simp; omega), h.lam_zero (by omega)]; rfl

theorem shapeList_isPartition {T : Tab} {lam : Nat → Nat} {f : Nat → Nat → Int} (h : Inc T lam f) :
    IsPartition (shapeList T lam) := by
  constructor
  · unfold shapeList
    rw [List.pairwise_map]
    apply (List.pairwise_lt_range (n := T.maxRow)).imp
    intro i j hij
    exact h.anti' (by omega) (by omega)
  · intro a ha
    simp only [shapeList, List.mem_map, List.mem_range] at ha
    obtain ⟨k, hk, rfl⟩ := ha
    rcases maxRow_mem T with h0 | ⟨j, hj⟩
    · omega
    · have := (h.has_iff _ _).1 hj
      have := h.anti' (i := k + 1) (i' := T.maxRow) (by omega) (by omega)
      omega

/-- C40: for every word in positive integers, `hecke(w)` (where no assertion fails) returns an increasing tableau of partition
shape with one positive entry in every box, and a standard set-valued tableau of the same shape with entries `1..len(w)`. -/
theorem C40_tableaux {C : HCache} (hC : Sound C) (w : List Int) (hw : ∀ a ∈ w, 0 < a) :
    ∃ p q lam f s, (hecke C w none true).1 = some (p, q) ∧ IsPartition lam ∧
      (∀ b ∈ Diagram lam, p.get? b = some [f b] ∧ 0 < f b) ∧ (∀ b ∉ Diagram lam, p.get? b = none) ∧
      IsIncreasing (Diagram lam) f ∧
      (∀ b ∈ Diagram lam, q.get? b = some (s b)) ∧ (∀ b ∉ Diagram lam, q.get? b = none) ∧
      IsStandardSetValued w.length (Diagram lam) s := by
  obtain ⟨p, q, lam, f, β, hd⟩ := done_exists w hw
  have hmem : ∀ i j, (i, j) ∈ Diagram (shapeList p lam) ↔ 1 ≤ i ∧ 1 ≤ j ∧ j ≤ lam i := by
    intro i j
    rw [Partition.mem_diagram]
    constructor
    · rintro ⟨h1, h2, h3⟩; rw [shapeList_getD hd.inc h1] at h3; exact ⟨h1, h2, h3⟩
    · rintro ⟨h1, h2, h3⟩; rw [shapeList_getD hd.inc h1]; exact ⟨h1, h2, h3⟩
  have hq := hd.qinv
  have hqmem : ∀ b, b ∈ Diagram (shapeList p lam) ↔ q.has b = true := by
    rintro ⟨i, j⟩; rw [hmem, hq.shape]
  have hent : ∀ b, q.has b = true → q.get? b = some (q.ent b) := by
    intro b hb
    obtain ⟨s, hs⟩ := has_iff.1 hb
    rw [ent, hs]; rfl
  refine ⟨p, q, shapeList p lam, fun b => f b.1 b.2, q.ent, ?_, shapeList_isPartition hd.inc, ?_, ?_, ⟨?_, ?_⟩, ?_, ?_,
    ?_, ?_, ?_, ?_, ?_⟩
  · have hi := insertAll_spec w hC Tab.empty Tab.empty
    rw [hd.run, ← insertionTableaux] at hi
    rw [hecke, (checkRecord_none w true).1, (checkRecord_eq _ _ _).1 (checkRecord_none w true).2]
    simp only
    rcases hins : insertionTableaux C w with ⟨o, C'⟩
    rw [hins] at hi
    simp only at hi
    rw [hi.1]
    simp only [if_true]
    rw [apply?_eq hd.std (by simp [defaultRecord]), Option.map_some]
    congr 2
    apply Tab.ext_get?
    intro b
    rw [apply_ent hd.std (compat_true (checkRecord_none w true).2 defaultRecord_pos hd), hd.std b]
    split
    · rfl
    · rw [Option.map_some]
      congr 1
      conv_rhs => rw [← List.map_id (boxNums β w.length b)]
      apply List.map_congr_left
      intro x hx
      obtain ⟨k, hk, _, rfl⟩ := mem_boxNums.1 hx
      rw [show ((k : Int) + 1).toNat - 1 = k by omega, defaultRecord, getD_map_range hk]
      rfl
  · rintro ⟨i, j⟩ hb
    obtain ⟨h1, h2, h3⟩ := (hmem i j).1 hb
    exact ⟨hd.inc.get_some h1 h2 h3, hd.inc.pos i j h1 h2 h3⟩
  · rintro ⟨i, j⟩ hb
    rw [hmem] at hb
    exact hd.inc.get_none hb
  · intro i j h1 h2
    rw [hmem] at h1 h2
    exact hd.inc.row i j h1.1 h1.2.1 h2.2.2
  · intro i j h1 h2
    rw [hmem] at h1 h2
    exact hd.inc.col i j h1.1 h1.2.1 h2.2.2
  · intro b hb
    exact hent b ((hqmem b).1 hb)
  · intro b hb
    rw [hqmem] at hb
    rw [has] at hb
    cases hg : q.get? b with
    | none => rfl
    | some s => simp [hg] at hb
  · intro b hb
    exact ⟨hq.nonempty b _ (hent b ((hqmem b).1 hb)), hq.sorted b⟩
  · intro b _ x hx
    exact (hq.mem x).1 ⟨b, hx⟩
  · intro x h1 h2
    obtain ⟨b, hb⟩ := (hq.mem x).2 ⟨h1, h2⟩
    exact ⟨b, ⟨(hqmem b).2 (has_of_mem_ent hb), hb⟩, fun b' hb' => hq.uniq _ _ x hb'.2 hb⟩
  · intro i j _ _ x hx y hy
    exact hq.row i j x y hx hy
  · intro i j _ _ x hx y hy
    exact hq.col i j x y hx hy

/-- C40: the other version returns the transposes of both tableaux. -/
theorem C40_transposed {C : HCache} (hC : Sound C) (w : List Int) (hw : ∀ a ∈ w, 0 < a) :
    ∃ p q p' q', (hecke C w none true).1 = some (p, q) ∧ (hecke C w none false).1 = some (p', q') ∧
      ∀ i j, p'.get? (i, j) = p.get? (j, i) ∧ q'.get? (i, j) = q.get? (j, i) := by
  obtain ⟨p, q, lam, f, β, hd⟩ := done_exists w hw
  have hi := insertAll_spec w hC Tab.empty Tab.empty
  rw [hd.run, ← insertionTableaux] at hi
  rcases hins : insertionTableaux C w with ⟨o, C'⟩
  rw [hins] at hi
  simp only at hi
  refine ⟨p, q.apply (fun x => (defaultRecord w.length).getD (x.toNat - 1) 0), p.transpose,
    q.transpose.apply (fun x => (defaultRecord w.length).getD (x.toNat - 1) 0), ?_, ?_, ?_⟩
  · rw [hecke, (checkRecord_none w true).1, (checkRecord_eq _ _ _).1 (checkRecord_none w true).2]
    simp only
    rw [hins, hi.1]
    simp only [if_true]
    rw [apply?_eq hd.std (by simp [defaultRecord])]
    rfl
  · rw [hecke, (checkRecord_none w false).1, (checkRecord_eq _ _ _).1 (checkRecord_none w false).2]
    simp only
    rw [hins, hi.1]
    simp only [Bool.false_eq_true, if_false]
    rw [apply?_eq hd.std.transpose (by simp [defaultRecord])]
    rfl
  · intro i j
    rw [get?_transpose, get?_apply, get?_apply, get?_transpose]
    exact ⟨rfl, rfl⟩

example : ∀ a ∈ ([4, 2, 1, 2, 2, 4, 1] : List Int), 0 < a := by decide

end Verif.Insertion
