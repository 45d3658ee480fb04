import Verif.Lemmas.ShiftedWord
import Verif.Spec.Tableau

/-! Properties C70 and C71: orthogonal Hecke insertion and its inverse (insertion.py). -/

namespace Verif.FInsertion

open Tab Verif.Part
open Insertion (values_eq mem_boxed boxed boxed_apply get?_apply has_of_mem_ent steps_trans defaultRecord defaultRecord_pos)

attribute [-simp] List.getD_eq_getElem?_getD

variable {w rec : List Int} {p q : Tab} {E H : Nat → Nat} {f : Nat → Nat → Int} {β : Nat → Nat × Nat} {ε : Nat → Bool}

/-! ## Doubling -/

theorem isRecord_double {m : Bool} : IsRecord (w.map (fun i => 2 * i)) rec m ↔ IsRecord w rec m := by
  unfold IsRecord
  rw [List.length_map]
  apply and_congr_right
  intro _
  constructor
  · intro h i a b x y ha hb hx hy
    have := h i (2 * a) (2 * b) x y (by rw [List.getElem?_map, ha]; rfl) (by rw [List.getElem?_map, hb]; rfl) hx hy
    refine ⟨this.1, fun h1 => this.2 ?_⟩
    cases m <;> simp only [if_true, Bool.false_eq_true, if_false] at h1 ⊢ <;> omega
  · intro h i a b x y ha hb hx hy
    rw [List.getElem?_map] at ha hb
    cases ha' : w[i]? with
    | none => rw [ha'] at ha; cases ha
    | some a' =>
      cases hb' : w[i + 1]? with
      | none => rw [hb'] at hb; cases hb
      | some b' =>
        rw [ha'] at ha
        rw [hb'] at hb
        cases ha
        cases hb
        have := h i a' b' x y ha' hb' hx hy
        refine ⟨this.1, fun h1 => this.2 ?_⟩
        cases m <;> simp only [if_true, Bool.false_eq_true, if_false] at h1 ⊢ <;> omega

theorem checkRecord_double (rec : Option (List Int)) (m : Bool) :
    Insertion.checkRecord (w.map (fun i => 2 * i)) rec m = Insertion.checkRecord w rec m := by
  have key : ∀ r, Insertion.checkRecord (w.map (fun i => 2 * i)) (some r) m = Insertion.checkRecord w (some r) m := by
    intro r
    by_cases h : IsRecord w r m
    · rw [(Insertion.checkRecord_eq w r m).1 h, (Insertion.checkRecord_eq _ r m).1 (isRecord_double.2 h)]
    · rw [(Insertion.checkRecord_eq w r m).2 h, (Insertion.checkRecord_eq _ r m).2 (fun hc => h (isRecord_double.1 hc))]
  cases rec with
  | some r => exact key r
  | none =>
    rw [(Insertion.checkRecord_none _ m).1, (Insertion.checkRecord_none w m).1, List.length_map, key]

/-- The insertion tableau after halving. -/
def half (p : Tab) : Tab := p.apply (fun x => x / 2)

theorem get?_half (h : SInc p E H f) (i j : Nat) :
    (half p).get? (i, j) = if 1 ≤ i ∧ i ≤ j ∧ j < E i then some [f i j / 2] else none := by
  rw [half, get?_apply, h.get]
  split <;> rfl

theorem halve_eq (h : SInc p E H f) : halve p = some (half p) := by
  rw [halve, if_pos]
  · rfl
  · rw [List.all_eq_true]
    intro v hv
    rw [values_eq, mem_entries] at hv
    obtain ⟨⟨i, j⟩, hb⟩ := hv
    rw [ent, h.get] at hb
    split at hb
    · rename_i hc
      simp only [Option.getD_some, List.mem_singleton] at hb
      subst hb
      exact decide_eq_true (h.even i j hc.1 hc.2.1 hc.2.2)
    · cases hb

theorem double_half (h : SInc p E H f) : double (half p) = p := by
  apply Tab.ext_get?
  rintro ⟨i, j⟩
  rw [double, get?_apply, get?_half h, h.get]
  split
  · rename_i hc
    have := h.even i j hc.1 hc.2.1 hc.2.2
    show some [2 * (f i j / 2)] = some [f i j]
    rw [show 2 * (f i j / 2) = f i j by omega]
  · rfl

theorem orthogonal_run {m : Bool} (hd : SDone (w.map (fun i => 2 * i)) p q E H f β ε) (hrec : IsRecord w rec m)
    (hpos : ∀ x ∈ rec, 0 < x) : orthogonalHecke w (some rec) m = some (half p, (signed m q).apply (recMap rec)) := by
  rw [orthogonalHecke, symplectic_run hd (isRecord_double.2 hrec) hpos]
  simp only
  rw [halve_eq hd.inc]
  rfl

theorem orthogonal_back {m : Bool} (hd : SDone (w.map (fun i => 2 * i)) p q E H f β ε) (hrec : IsRecord w rec m)
    (hpos : ∀ x ∈ rec, 0 < x) : inverseOrthogonalHecke (half p) ((signed m q).apply (recMap rec)) m = some (w, rec) := by
  rw [inverseOrthogonalHecke, double_half hd.inc, symplectic_back hd (isRecord_double.2 hrec) hpos]
  simp only
  rw [if_pos]
  · rw [List.map_map]
    congr 2
    conv_rhs => rw [← List.map_id w]
    apply List.map_congr_left
    intro a _
    show 2 * a / 2 = a
    omega
  · rw [List.all_eq_true]
    intro a ha
    rw [List.mem_map] at ha
    obtain ⟨c, _, rfl⟩ := ha
    apply decide_eq_true
    omega

theorem double_exists (w : List Int) (hw : ∀ a ∈ w, 0 < a) :
    ∃ p q E H f β ε, SDone (w.map (fun i => 2 * i)) p q E H f β ε := by
  apply sdone_exists
  · intro a ha
    rw [List.mem_map] at ha
    obtain ⟨c, hc, rfl⟩ := ha
    have := hw c hc
    omega
  · intro a ha
    rw [List.mem_map] at ha
    obtain ⟨c, hc, rfl⟩ := ha
    omega

/-! ## C70 -/

/-- C70: orthogonal Hecke insertion of a word in positive integers with any admissible record of positive integers, in both
versions, succeeds, and `inverse_orthogonal_hecke` returns the word and the record; an inadmissible record is rejected. -/
theorem C70_round_trip (w rec : List Int) (m : Bool) (hw : ∀ a ∈ w, 0 < a) (hr : ∀ x ∈ rec, 0 < x) :
    (IsRecord w rec m → ∃ p q, orthogonalHecke w (some rec) m = some (p, q) ∧ inverseOrthogonalHecke p q m = some (w, rec)) ∧
    (¬ IsRecord w rec m → orthogonalHecke w (some rec) m = none) := by
  constructor
  · intro hrec
    obtain ⟨p, q, E, H, f, β, ε, hd⟩ := double_exists w hw
    exact ⟨_, _, orthogonal_run hd hrec hr, orthogonal_back hd hrec hr⟩
  · intro hrec
    rw [orthogonalHecke, symplecticHecke, checkRecord_double, (Insertion.checkRecord_eq w rec m).2 hrec]

theorem orthogonal_none (w : List Int) (m : Bool) :
    orthogonalHecke w none m = orthogonalHecke w (some (defaultRecord w.length)) m := by
  simp only [orthogonalHecke, symplecticHecke, checkRecord_double]
  rw [(Insertion.checkRecord_none w m).1]

/-- C70: without a record, the record is `1..len(w)`. -/
theorem C70_default (w : List Int) (m : Bool) (hw : ∀ a ∈ w, 0 < a) :
    ∃ p q, orthogonalHecke w none m = some (p, q) ∧
      inverseOrthogonalHecke p q m = some (w, (List.range w.length).map (fun k : Nat => (k : Int) + 1)) := by
  rw [orthogonal_none]
  exact (C70_round_trip w _ m hw defaultRecord_pos).1 (Insertion.checkRecord_none w m).2

/-- C70: consequently `orthogonal_hecke` is injective on pairs of a word and an admissible record in positive integers. -/
theorem C70_injective (w w' rec rec' : List Int) (m : Bool) (hw : ∀ a ∈ w, 0 < a) (hw' : ∀ a ∈ w', 0 < a)
    (hr : ∀ x ∈ rec, 0 < x) (hr' : ∀ x ∈ rec', 0 < x) (hrec : IsRecord w rec m)
    (h : orthogonalHecke w (some rec) m = orthogonalHecke w' (some rec') m) : w = w' ∧ rec = rec' := by
  obtain ⟨p, q, h1, h2⟩ := (C70_round_trip w rec m hw hr).1 hrec
  by_cases hrec' : IsRecord w' rec' m
  · obtain ⟨p', q', h1', h2'⟩ := (C70_round_trip w' rec' m hw' hr').1 hrec'
    rw [h1, h1'] at h
    cases h
    rw [h2] at h2'
    cases h2'
    exact ⟨rfl, rfl⟩
  · rw [(C70_round_trip w' rec' m hw' hr').2 hrec', h1] at h
    cases h

/-- C70: symplectic Hecke insertion of a word in positive even integers has the same property. -/
theorem C70_symplectic_even (w rec : List Int) (m : Bool) (hw : ∀ a ∈ w, 0 < a) (he : ∀ a ∈ w, a % 2 = 0)
    (hr : ∀ x ∈ rec, 0 < x) (hrec : IsRecord w rec m) :
    ∃ p q, symplecticHecke w (some rec) m = some (p, q) ∧ inverseSymplecticHecke p q m = some (w, rec) := by
  obtain ⟨p, q, E, H, f, β, ε, hd⟩ := sdone_exists w hw he
  exact ⟨_, _, symplectic_run hd hrec hr, symplectic_back hd hrec hr⟩

/-- C70: the letters must be positive: the inverse of the insertion of `-1, -1` is `-1, 0`, because missing boxes count as 0. -/
theorem C70_needs_positive :
    (orthogonalHecke [-1, -1] none true).bind (fun r => inverseOrthogonalHecke r.1 r.2 true) = some ([-1, 0], [1, 2]) := by
  decide +kernel

/-- C70: `symplectic_hecke` does not check that the word is a symplectic Hecke word, and for other words the inverse returns a
different word: `2, 1, 2` gives `2, 1, 1`. -/
theorem C70_symplectic_odd :
    (symplecticHecke [2, 1, 2] none true).bind (fun r => inverseSymplecticHecke r.1 r.2 true) = some ([2, 1, 1], [1, 2, 3]) := by
  decide +kernel

example : (orthogonalHecke [3, 1, 2, 2, 1, 3, 2] (some [1, 2, 2, 2, 3, 3, 5]) true).map (fun r => (r.1.items, r.2.items)) =
    some ([((1, 1), [1]), ((1, 2), [2]), ((1, 3), [3]), ((2, 2), [3])],
      [((1, 1), [1]), ((1, 2), [-2]), ((1, 3), [-3, 3]), ((2, 2), [2, 2, 5])]) := by decide +kernel
example : IsRecord [3, 1, 2, 2, 1, 3, 2] [1, 2, 2, 2, 3, 3, 5] true :=
  by_contra fun h => by
    have := (Insertion.checkRecord_eq _ _ _).2 h
    revert this
    decide
example : (orthogonalHecke [3, 1, 2, 2, 1, 3, 2] (some [1, 1, 2, 3, 3, 4, 4]) false).map (fun r => (r.1.items, r.2.items)) =
    some ([((1, 1), [1]), ((1, 2), [2]), ((1, 3), [3]), ((2, 2), [3])],
      [((1, 1), [1]), ((1, 2), [1]), ((1, 3), [-4, 3]), ((2, 2), [2, 3, 4])]) := by decide +kernel

/-! ## C71 -/

/-- The strict partition of the row lengths. -/
def strictShape (T : Tab) (E : Nat → Nat) : List Nat := (List.range T.maxRow).map (fun k => E (k + 1) - (k + 1))

theorem strictShape_getD (h : SInc p E H f) {i : Nat} (hi : 1 ≤ i) : (strictShape p E).getD (i - 1) 0 = E i - i := by
  unfold strictShape
  rw [List.getD_eq_getElem?_getD, List.getElem?_map]
  by_cases hl : i - 1 < p.maxRow
  · rw [List.getElem?_range hl, Option.map_some, Option.getD_some, show i - 1 + 1 = i by omega]
  · have := h.row_iff hi
    rw [List.getElem?_eq_none (by simp; omega), Option.map_none, Option.getD_none]
    omega

theorem mem_strictShape (h : SInc p E H f) {i j : Nat} : (i, j) ∈ ShiftedDiagram (strictShape p E) ↔ 1 ≤ i ∧ i ≤ j ∧ j < E i := by
  rw [Partition.mem_shiftedDiagram]
  constructor
  · rintro ⟨h1, h2, h3⟩; rw [strictShape_getD h h1] at h3; have := h.lo i h1; omega
  · rintro ⟨h1, h2, h3⟩; rw [strictShape_getD h h1]; omega

theorem strictShape_isStrict (h : SInc p E H f) : IsStrict (strictShape p E) := by
  constructor
  · unfold strictShape
    rw [List.pairwise_map]
    apply (List.pairwise_lt_range (n := p.maxRow)).imp_of_mem
    intro i j _ hj hij
    rw [List.mem_range] at hj
    have h1 := (h.row_iff (i := j + 1) (by omega)).2 (by omega)
    have h2 := h.up' (i := i + 1) (i' := j + 1) (j := E (j + 1) - 1) (by omega) (by omega) (by omega) (by omega)
    omega
  · intro a ha
    simp only [strictShape, List.mem_map, List.mem_range] at ha
    obtain ⟨k, hk, rfl⟩ := ha
    have h1 := (h.row_iff (i := k + 1) (by omega)).2 (by omega)
    omega

/-- The number of an entry. -/
theorem mem_signed {Q : Tab} {β : Nat → Nat × Nat} {ε : Nat → Bool} {N : Nat} (h : SStd Q β ε N) (rec : List Int)
    {b : Nat × Nat} {s : List Int} {x : Int} (hs : (Q.apply (recMap rec)).get? b = some s) (hx : x ∈ s) :
    ∃ k, k < N ∧ β k = b ∧ x = sg (ε k) (rec.getD k 0) := by
  rw [get?_apply, h b] at hs
  split at hs
  · cases hs
  · cases hs
    rw [mem_sortInts, List.mem_map] at hx
    obtain ⟨y, hy, rfl⟩ := hx
    rw [mem_sortInts] at hy
    obtain ⟨k, hk, hb, rfl⟩ := mem_rawList.1 hy
    exact ⟨k, hk, hb, maps_recMap (N := N) rec k hk⟩

theorem SDone.order (hd : SDone w p q E H f β ε) {k k' : Nat} (hk : k < w.length) (hk' : k' < w.length) :
    (∀ i j, β k = (i, j) → β k' = (i, j + 1) → k < k') ∧ (∀ i j, β k = (i, j) → β k' = (i + 1, j) → k < k') ∧
    (∀ i, β k = (i, i) → ε k = false) := by
  have hmem : ∀ k b, k < w.length → β k = b → val ε k ∈ q.ent b := by
    intro k b hk hb
    rw [hd.std.ent, mem_sortInts, mem_rawList]
    exact ⟨k, hk, hb, rfl⟩
  refine ⟨?_, ?_, ?_⟩
  · intro i j h1 h2
    have := hd.qinv.row i j _ _ (hmem k _ hk h1) (hmem k' _ hk' h2)
    rw [val_natAbs, val_natAbs] at this
    omega
  · intro i j h1 h2
    have := hd.qinv.col i j _ _ (hmem k _ hk h1) (hmem k' _ hk' h2)
    rw [val_natAbs, val_natAbs] at this
    omega
  · intro i h1
    have := hd.qinv.diag i _ (hmem k _ hk h1)
    unfold val sg at this
    cases hε : ε k with
    | false => rfl
    | true => rw [hε] at this; simp at this; omega

/-- The signs of the two versions. -/
def signs (m : Bool) (β : Nat → Nat × Nat) (ε : Nat → Bool) : Nat → Bool := if m then ε else flip β ε

theorem SDone.signs_std {m : Bool} (hd : SDone w p q E H f β ε) (hrec : IsRecord w rec m) (hpos : ∀ x ∈ rec, 0 < x) :
    SStd (signed m q) β (signs m β ε) w.length ∧ SCompat β (signs m β ε) (fun k => rec.getD k 0) w.length := by
  cases m with
  | true => exact ⟨hd.std, scompat_true hrec hpos hd⟩
  | false => exact ⟨hd.std.negate, scompat_false hrec hpos hd⟩

theorem strict_false (hrec : IsRecord w rec false) (hd : SDone w p q E H f β ε) {k k' : Nat}
    (hkk : k < k') (hk' : k' < w.length) :
    rec.getD k 0 < rec.getD k' 0 ∨ (rec.getD k 0 = rec.getD k' 0 ∧ SRelS (flip β ε k) (flip β ε k') (β k) (β k')) := by
  apply steps_trans (P := fun k k' => rec.getD k 0 < rec.getD k' 0 ∨
    (rec.getD k 0 = rec.getD k' 0 ∧ SRelS (flip β ε k) (flip β ε k') (β k) (β k'))) _ hkk
  · intro i _ h2
    have h3 := record_steps hrec i (by omega)
    rcases eq_or_lt_of_le h3.1 with h4 | h4
    · refine Or.inr ⟨h4, hd.gt i (by omega) ?_⟩
      by_contra hc
      have := h3.2 (by simpa using hc)
      omega
    · exact Or.inl h4
  · rintro a b c (h1 | ⟨h1, h2⟩) (h3 | ⟨h3, h4⟩)
    · left; omega
    · left; omega
    · left; omega
    · right; exact ⟨by omega, h2.trans h4⟩

theorem sg_lt {n n' : Bool} {x y : Int} (hx : 0 < x) (hy : 0 < y)
    (h : x < y ∨ (x = y ∧ n = true ∧ n' = false)) : MarkedLT (sg n x) (sg n' y) := by
  unfold MarkedLT sg
  rcases h with h | ⟨rfl, rfl, rfl⟩
  · left
    cases n <;> cases n' <;> simp only [if_true, Bool.false_eq_true, if_false, abs_neg] <;>
      rw [abs_of_pos hx, abs_of_pos hy] <;> exact h
  · right
    simp only [if_true, Bool.false_eq_true, if_false, abs_neg, true_and]
    omega

theorem marked_signed {m : Bool} (hd : SDone w p q E H f β ε) (hrec : IsRecord w rec m) (hpos : ∀ x ∈ rec, 0 < x) {n : Nat}
    (hn : ∀ x ∈ rec, x ≤ n) :
    IsMultiTableauOf m (ShiftedDiagram (strictShape p E)) (IsMarked false n (ShiftedDiagram (strictShape p E)))
      ((signed m q).apply (recMap rec)).get? := by
  obtain ⟨h1, h2⟩ := hd.signs_std hrec hpos
  have hshape : ∀ b, (((signed m q).apply (recMap rec)).get? b).isSome ↔ b ∈ ShiftedDiagram (strictShape p E) := by
    rintro ⟨i, j⟩
    have : ((((signed m q).apply (recMap rec)).get? (i, j)).isSome = true) ↔ q.has (i, j) = true := by
      rw [← has, has_apply, has_signed]
    rw [this, hd.qinv.shape, mem_strictShape hd.inc]
  refine ⟨hshape, ?_, ?_⟩
  · intro b s hs
    have hs0 := hs
    rw [get?_apply, h1 b] at hs
    split at hs
    · cases hs
    · rename_i hne
      cases hs
      have hsort := sortInts_sorted ((sortInts (rawList β (signs m β ε) w.length b)).map (recMap rec))
      refine ⟨?_, hsort, ?_⟩
      · intro hc
        have := congrArg List.length hc
        simp only [sortInts, List.length_insertionSort, List.length_map, List.length_nil] at this
        exact hne (List.length_eq_zero_iff.1 this)
      · rintro rfl
        have hnd : (sortInts ((sortInts (rawList β (signs false β ε) w.length b)).map (recMap rec))).Nodup := by
          apply sortInts_nodup
          apply List.Nodup.map_on _ (sortInts_nodup (rawList_nodup _ _))
          intro x hx y hy hxy
          rw [mem_sortInts] at hx hy
          obtain ⟨k, hk, hb, rfl⟩ := mem_rawList.1 hx
          obtain ⟨k', hk', hb', rfl⟩ := mem_rawList.1 hy
          rw [maps_recMap (N := w.length) rec k hk, maps_recMap (N := w.length) rec k' hk'] at hxy
          have e1 := record_pos hrec hpos k hk
          have e2 := record_pos hrec hpos k' hk'
          have key : ∀ {k k' : Nat}, k < k' → k' < w.length → β k = b → β k' = b → 0 < rec.getD k 0 → 0 < rec.getD k' 0 →
              sg (flip β ε k) (rec.getD k 0) = sg (flip β ε k') (rec.getD k' 0) → False := by
            intro k k' hlt hk' hb hb' e1 e2 hxy
            rcases strict_false hrec hd hlt hk' with h3 | ⟨h3, h4⟩
            · have := congrArg Int.natAbs hxy
              rw [sg_natAbs, sg_natAbs] at this
              omega
            · rw [hb, hb'] at h4
              rw [h3] at hxy
              generalize flip β ε k = n at hxy h4
              generalize flip β ε k' = n' at hxy h4
              cases n <;> cases n' <;> simp only [sg, SRelS, if_true, Bool.false_eq_true, if_false] at hxy h4 <;> omega
          rcases Nat.lt_trichotomy k k' with hlt | rfl | hlt
          · exact (key hlt hk' hb hb' e1 e2 hxy).elim
          · rfl
          · exact (key hlt hk hb' hb e2 e1 hxy.symm).elim
        have := hsort.and hnd
        exact this.imp (fun h => lt_of_le_of_ne h.1 h.2)
  · intro g hg
    have hnum : ∀ b, b ∈ ShiftedDiagram (strictShape p E) → ∃ k, k < w.length ∧ β k = b ∧ g b = sg (signs m β ε k) (rec.getD k 0) := by
      intro b hb
      rw [← hshape] at hb
      obtain ⟨s, hs⟩ := Option.isSome_iff_exists.1 hb
      exact mem_signed h1 rec hs (hg b s hs)
    have hrange : ∀ k, k < w.length → 0 < rec.getD k 0 ∧ rec.getD k 0 ≤ n := by
      intro k hk
      refine ⟨record_pos hrec hpos k hk, ?_⟩
      have hk' : k < rec.length := by have := hrec.1; omega
      rw [List.getD_eq_getElem?_getD, List.getElem?_eq_getElem hk']
      exact hn _ (List.getElem_mem hk')
    refine ⟨?_, ?_, ?_, ?_⟩
    · intro b hb
      obtain ⟨k, hk, _, hgb⟩ := hnum b hb
      have := hrange k hk
      rw [hgb]
      unfold sg
      split
      · rw [abs_neg, abs_of_pos this.1]; omega
      · rw [abs_of_pos this.1]; omega
    · intro i j hb hb'
      obtain ⟨k, hk, e1, e2⟩ := hnum _ hb
      obtain ⟨k', hk', e1', e2'⟩ := hnum _ hb'
      have hlt := (hd.order hk hk').1 i j e1 e1'
      have r1 := (hrange k hk).1
      have r2 := (hrange k' hk').1
      rw [e2, e2']
      rcases h2.2 k k' hlt hk' with h3 | ⟨h3, h4⟩
      · exact Or.inl (sg_lt r1 r2 (Or.inl h3))
      · rw [e1, e1'] at h4
        simp only at h3
        generalize signs m β ε k = n at h4 ⊢
        generalize signs m β ε k' = n' at h4 ⊢
        cases n <;> cases n' <;> simp only [SRel] at h4
        · right; rw [h3]; exact ⟨rfl, r2⟩
        · exact Or.inl (sg_lt r1 r2 (Or.inr ⟨h3, rfl, rfl⟩))
        · rcases h4 with h4 | h4
          · omega
          · have := congrArg Prod.snd h4
            simp only at this
            omega
    · intro i j hb hb'
      obtain ⟨k, hk, e1, e2⟩ := hnum _ hb
      obtain ⟨k', hk', e1', e2'⟩ := hnum _ hb'
      have hlt := (hd.order hk hk').2.1 i j e1 e1'
      have r1 := (hrange k hk).1
      have r2 := (hrange k' hk').1
      rw [e2, e2']
      rcases h2.2 k k' hlt hk' with h3 | ⟨h3, h4⟩
      · exact Or.inl (sg_lt r1 r2 (Or.inl h3))
      · rw [e1, e1'] at h4
        simp only at h3
        generalize signs m β ε k = n at h4 ⊢
        generalize signs m β ε k' = n' at h4 ⊢
        cases n <;> cases n' <;> simp only [SRel] at h4
        · rcases h4 with h4 | h4
          · omega
          · have := congrArg Prod.fst h4
            simp only at this
            omega
        · exact Or.inl (sg_lt r1 r2 (Or.inr ⟨h3, rfl, rfl⟩))
        · right; rw [h3]; refine ⟨rfl, ?_⟩
          unfold sg
          simp only [if_true]
          omega
    · intro _ i hb
      obtain ⟨k, hk, e1, e2⟩ := hnum _ hb
      have hε := (hd.order hk hk).2.2 i e1
      have : signs m β ε k = false := by
        cases m with
        | true => exact hε
        | false =>
          show flip β ε k = false
          rw [flip, e1]
          simp only [if_true]
          exact hε
      rw [e2, this]
      exact (hrange k hk).1

theorem values_boxed (T : Tab) : T.values = (boxed T).map Prod.fst := by
  simp [Tab.values, boxed, List.map_flatMap, List.map_map, Function.comp_def]

theorem weight_signed {m : Bool} (hd : SDone w p q E H f β ε) (hrec : IsRecord w rec m) (hpos : ∀ x ∈ rec, 0 < x) :
    (((signed m q).apply (recMap rec)).values.map (fun x => |x|)).Perm rec := by
  obtain ⟨h1, h2⟩ := hd.signs_std hrec hpos
  rw [values_boxed]
  have hp := ((boxed_apply (signed m q) (recMap rec)).trans (h1.boxed.map _)).map (fun e : Int × Nat × Nat => |e.1|)
  rw [List.map_map]
  refine hp.trans ?_
  rw [List.map_map, List.map_map]
  have : (List.range w.length).map (fun k : Nat => rec.getD k 0) = rec := by rw [hrec.1]; exact map_range_rec rec
  conv_rhs => rw [← this]
  apply List.Perm.of_eq
  apply List.map_congr_left
  intro k hk
  rw [List.mem_range] at hk
  simp only [Function.comp]
  rw [maps_recMap (N := w.length) rec k hk]
  have := record_pos hrec hpos k hk
  unfold sg
  split
  · rw [abs_neg, abs_of_pos this]
  · rw [abs_of_pos this]

/-- C71: for every word in positive integers, every admissible record in `1..n` and both versions, the insertion tableau is an
increasing shifted tableau with positive entries and the recording tableau is a semistandard marked shifted tableau of the same
shape without primes on the diagonal, multiset-valued in the first and set-valued in the second version, whose entries are those
of the record up to primes. -/
theorem C71_tableaux (w rec : List Int) (m : Bool) (n : Nat) (hw : ∀ a ∈ w, 0 < a) (hr : ∀ x ∈ rec, 0 < x ∧ x ≤ n)
    (hrec : IsRecord w rec m) :
    ∃ p q mu g, orthogonalHecke w (some rec) m = some (p, q) ∧ IsStrict mu ∧
      (∀ b ∈ ShiftedDiagram mu, p.get? b = some [g b] ∧ 0 < g b) ∧ (∀ b ∉ ShiftedDiagram mu, p.get? b = none) ∧
      IsIncreasing (ShiftedDiagram mu) g ∧
      IsMultiTableauOf m (ShiftedDiagram mu) (IsMarked false n (ShiftedDiagram mu)) q.get? ∧
      (q.values.map (fun x => |x|)).Perm rec := by
  obtain ⟨p, q, E, H, f, β, ε, hd⟩ := double_exists w hw
  have hpos : ∀ x ∈ rec, 0 < x := fun x hx => (hr x hx).1
  have hinc := hd.inc
  refine ⟨_, _, strictShape p E, fun b => f b.1 b.2 / 2, orthogonal_run hd hrec hpos, strictShape_isStrict hinc, ?_, ?_, ⟨?_, ?_⟩,
    marked_signed hd (isRecord_double.2 hrec) hpos (fun x hx => (hr x hx).2), weight_signed hd (isRecord_double.2 hrec) hpos⟩
  · rintro ⟨i, j⟩ hb
    rw [mem_strictShape hinc] at hb
    rw [get?_half hinc, if_pos hb]
    have h1 := hinc.pos i j hb.1 hb.2.1 hb.2.2
    have h2 := hinc.even i j hb.1 hb.2.1 hb.2.2
    exact ⟨rfl, by simp only; omega⟩
  · rintro ⟨i, j⟩ hb
    rw [mem_strictShape hinc] at hb
    rw [get?_half hinc, if_neg hb]
  · intro i j hb hb'
    rw [mem_strictShape hinc] at hb hb'
    have h1 := hinc.row i j hb.1 hb.2.1 hb'.2.2
    have h2 := hinc.even i j hb.1 hb.2.1 hb.2.2
    have h3 := hinc.even i (j + 1) hb'.1 hb'.2.1 hb'.2.2
    simp only
    omega
  · intro i j hb hb'
    rw [mem_strictShape hinc] at hb hb'
    have h1 := hinc.cinc i j hb.1 hb'.2.1 hb'.2.2
    have h2 := hinc.even i j hb.1 hb.2.1 hb.2.2
    have h3 := hinc.even (i + 1) j hb'.1 hb'.2.1 hb'.2.2
    simp only
    omega

example : ∃ (w rec : List Int) (m : Bool) (n : Nat), (∀ a ∈ w, 0 < a) ∧ (∀ x ∈ rec, 0 < x ∧ x ≤ n) ∧
    (orthogonalHecke w (some rec) m).isSome = true :=
  ⟨[3, 1, 2, 2, 1, 3, 2], [1, 2, 2, 2, 3, 3, 5], true, 5, by decide, by decide, by decide +kernel⟩

end Verif.FInsertion
