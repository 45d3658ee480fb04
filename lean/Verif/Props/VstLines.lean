import Verif.Model.VstLines
import Verif.Props.VstGroups

/-! # C119: the groups of a letter, and `in_same_group` -/

attribute [-simp] List.getD_eq_getElem?_getD

namespace Verif.Vst

open Symm Tableaux Verif.Part Partition

/-! ### specification -/

/-- A group of the positive letter `v`: the boxes `j1, ..., j2` of the row `i`. -/
def HGroup (T G : Tab) (v : Int) (i j1 j2 : Nat) : Prop :=
  j1 ≤ j2 ∧ (∀ j, j1 ≤ j → j ≤ j2 → T.get? (i, j) = some [v]) ∧ (∀ j, j1 ≤ j → j < j2 → G.get? (i, j) = some [1]) ∧
    G.get? (i, j2) = some [0] ∧ ∀ c, ¬ Linked T G c (i, j1)

/-- A group of the negative letter `v`: the boxes in the rows `i1, ..., i2` of the column `j`. -/
def VGroup (T G : Tab) (v : Int) (j i1 i2 : Nat) : Prop :=
  i1 ≤ i2 ∧ (∀ i, i1 ≤ i → i ≤ i2 → T.get? (i, j) = some [v]) ∧ (∀ i, i1 < i → i ≤ i2 → G.get? (i, j) = some [1]) ∧
    G.get? (i1, j) = some [0] ∧ ∀ c, ¬ Linked T G c (i2, j)

/-! ### lemmas -/

section
variable {T G : Tab} (h : Plain T) (hV : IsVst T G)
include h hV

theorem mem_endsOf {v : Int} {b : Nat × Nat} : b ∈ endsOf T G v ↔ T.get? b = some [v] ∧ G.get? b = some [0] := by
  rw [endsOf, List.mem_filter, mem_keys, Bool.and_eq_true, decide_eq_true_iff, entry_some]
  constructor
  · rintro ⟨h1, h2, h3⟩
    refine ⟨h2, ?_⟩
    rcases grouping_cases h hV h1 with ⟨e, _⟩ | ⟨_, e, _⟩
    · exact e
    · rw [e] at h3; simp at h3
  · rintro ⟨h1, h2⟩
    refine ⟨by rw [h1]; rfl, h1, ?_⟩
    rw [truthy, h2]; rfl

theorem truthy_iff {b : Nat × Nat} : truthy G b = true ↔ G.get? b = some [1] := by
  constructor
  · intro h1
    have hb : (G.get? b).isSome := by
      rw [truthy] at h1
      cases hg : G.get? b with
      | none => rw [hg] at h1; simp at h1
      | some s => rfl
    rcases grouping_cases h hV ((hV.1 b).1 hb) with ⟨_, e⟩ | ⟨e, _⟩
    · rw [e] at h1; simp at h1
    · exact e
  · intro h1
    rw [truthy, h1]; rfl

theorem hStep_iff {v : Int} (hv : 0 < v) {b c : Nat × Nat} (hb : T.get? b = some [v]) :
    hStep T G b c = true ↔ G.get? c = some [1] ∧ T.get? c = some [v] := by
  rw [hStep, entry_some.2 hb]
  simp only [Bool.and_eq_true, decide_eq_true_iff, entry_some, truthy_iff h hV, hv, and_true]

theorem vStep_iff {v : Int} (hv : v < 0) {b c : Nat × Nat} (hb : T.get? b = some [v]) :
    vStep T G b c = true ↔ G.get? c = some [1] ∧ T.get? c = some [v] := by
  rw [vStep, entry_some.2 hb]
  simp only [Bool.and_eq_true, decide_eq_true_iff, entry_some, truthy_iff h hV, hv, and_true]

/-- A box with grouping `1` is continued in a box with the same entry. -/
theorem linked_entry {c b : Nat × Nat} (hl : Linked T G c b) : T.get? c = T.get? b := by
  obtain ⟨h1, a, h2, h3⟩ := hl
  obtain ⟨a', e1, e2⟩ : Allowed T c := by
    rcases grouping_cases h hV (b := c) (by rw [h2]; rfl) with ⟨e, _⟩ | ⟨_, _, e⟩
    · rw [e] at h1; simp at h1
    · exact e
  have e3 := e1
  rw [h2] at e1
  simp only [Option.some.injEq, List.cons.injEq, and_true] at e1
  subst e1
  rcases h3 with ⟨h3, rfl⟩ | ⟨h3, rfl⟩
  · rcases e2 with e2 | e2
    · rw [e2.2, e3]
    · omega
  · rcases e2 with e2 | e2
    · omega
    · rw [e3, ← e2.2.2]
      simp only [Nat.add_sub_cancel]

theorem hStart_group {v : Int} (hv : 0 < v) (i : Nat) (j : Nat) (hj : T.get? (i, j) = some [v]) :
    hStart T G i j ≤ j ∧ (∀ k, hStart T G i j ≤ k → k ≤ j → T.get? (i, k) = some [v]) ∧
      (∀ k, hStart T G i j ≤ k → k < j → G.get? (i, k) = some [1]) ∧ ∀ c, ¬ Linked T G c (i, hStart T G i j) := by
  have hno : ∀ j, T.get? (i, j + 1) = some [v] → ¬ (G.get? (i, j) = some [1] ∧ T.get? (i, j) = some [v]) →
      ∀ c, ¬ Linked T G c (i, j + 1) := by
    intro j hj hn c hc
    have hce := linked_entry h hV hc
    rw [hj] at hce
    obtain ⟨h1, a, h2, h3⟩ := hc
    rw [hce] at h2
    simp only [Option.some.injEq, List.cons.injEq, and_true] at h2
    subst h2
    rcases h3 with ⟨_, h3⟩ | ⟨h3, _⟩
    · simp only [Prod.mk.injEq, Nat.add_right_cancel_iff] at h3
      have : c = (i, j) := Prod.ext h3.1.symm h3.2.symm
      subst this
      exact hn ⟨h1, hce⟩
    · omega
  induction j with
  | zero =>
    have := (h.pos (i, 0) (by rw [hj]; rfl)).2
    simp at this
  | succ j ih =>
    rw [hStart]
    by_cases hs : hStep T G (i, j + 1) (i, j) = true
    · rw [if_pos hs]
      obtain ⟨e1, e2⟩ := (hStep_iff h hV hv hj).1 hs
      obtain ⟨h1, h2, h3, h4⟩ := ih e2
      refine ⟨by omega, fun k hk1 hk2 => ?_, fun k hk1 hk2 => ?_, h4⟩
      · rcases Nat.lt_or_ge j k with hk | hk
        · rw [show k = j + 1 by omega]; exact hj
        · exact h2 k hk1 hk
      · rcases Nat.lt_or_ge k j with hk | hk
        · exact h3 k hk1 hk
        · rw [show k = j by omega]; exact e1
    · rw [if_neg hs]
      refine ⟨le_rfl, fun k hk1 hk2 => ?_, fun k hk1 hk2 => by omega, hno j hj (fun hc => hs ((hStep_iff h hV hv hj).2 hc))⟩
      rw [show k = j + 1 by omega]; exact hj

theorem le_maxRow {b : Nat × Nat} (hb : (T.get? b).isSome) : b.1 ≤ T.maxRow := by
  have hf : ∀ (l : List ((Nat × Nat) × List Int)) (m : Nat), m ≤ l.foldl (fun m p => max m p.1.1) m ∧
      ∀ p ∈ l, p.1.1 ≤ l.foldl (fun m p => max m p.1.1) m := by
    intro l
    induction l with
    | nil => intro m; exact ⟨le_rfl, by simp⟩
    | cons p t ih =>
      intro m
      rw [List.foldl_cons]
      refine ⟨(le_max_left _ _).trans (ih _).1, fun q hq => ?_⟩
      rcases List.mem_cons.1 hq with rfl | hq
      · exact (le_max_right _ _).trans (ih _).1
      · exact (ih _).2 q hq
  obtain ⟨p, hp, hpb⟩ := List.mem_map.1 (mem_keys.2 hb)
  rw [← hpb]
  exact (hf T.items 0).2 p hp

theorem vEnd_group {v : Int} (hv : v < 0) (j : Nat) (k i : Nat) (hi : T.get? (i, j) = some [v]) (hk : T.maxRow < i + k) :
    i ≤ vEnd T G j k i ∧ (∀ r, i ≤ r → r ≤ vEnd T G j k i → T.get? (r, j) = some [v]) ∧
      (∀ r, i < r → r ≤ vEnd T G j k i → G.get? (r, j) = some [1]) ∧ ∀ c, ¬ Linked T G c (vEnd T G j k i, j) := by
  induction k generalizing i with
  | zero =>
    have := le_maxRow h hV (b := (i, j)) (by rw [hi]; rfl)
    simp only at this
    omega
  | succ k ih =>
    rw [vEnd]
    by_cases hs : vStep T G (i, j) (i + 1, j) = true
    · rw [if_pos hs]
      obtain ⟨e1, e2⟩ := (vStep_iff h hV hv hi).1 hs
      obtain ⟨h1, h2, h3, h4⟩ := ih (i + 1) e2 (by omega)
      refine ⟨by omega, fun r hr1 hr2 => ?_, fun r hr1 hr2 => ?_, h4⟩
      · rcases Nat.lt_or_ge i r with hr | hr
        · exact h2 r hr hr2
        · rw [show r = i by omega]; exact hi
      · rcases Nat.lt_or_ge (i + 1) r with hr | hr
        · exact h3 r hr hr2
        · rw [show r = i + 1 by omega]; exact e1
    · rw [if_neg hs]
      refine ⟨le_rfl, fun r hr1 hr2 => ?_, fun r hr1 hr2 => by omega, fun c hc => ?_⟩
      · rw [show r = i by omega]; exact hi
      · have hce := linked_entry h hV hc
        rw [hi] at hce
        obtain ⟨h1, a, h2, h3⟩ := hc
        rw [hce] at h2
        simp only [Option.some.injEq, List.cons.injEq, and_true] at h2
        subst h2
        rcases h3 with ⟨h3, _⟩ | ⟨_, h3⟩
        · omega
        · simp only at h3
          subst h3
          exact hs ((vStep_iff h hV hv hi).2 ⟨h1, hce⟩)

omit h hV in
/-- A group is determined by its end. -/
theorem hGroup_start {v : Int} (hv : 0 < v) {i j1 j1' j2 : Nat} (g1 : HGroup T G v i j1 j2) (g2 : HGroup T G v i j1' j2) : j1 = j1' := by
  have key : ∀ a b, HGroup T G v i a j2 → HGroup T G v i b j2 → ¬ a < b := by
    intro a b ga gb hab
    have hb := gb.1
    refine gb.2.2.2.2 (i, b - 1) ⟨ga.2.2.1 (b - 1) (by omega) (by omega), v, ga.2.1 (b - 1) (by omega) (by omega), Or.inl ⟨hv, ?_⟩⟩
    exact Prod.ext rfl (by simp only; omega)
  have := key j1 j1' g1 g2
  have := key j1' j1 g2 g1
  omega

omit h hV in
theorem vGroup_end {v : Int} (hv : v < 0) {j i1 i2 i2' : Nat} (g1 : VGroup T G v j i1 i2) (g2 : VGroup T G v j i1 i2') : i2 = i2' := by
  have key : ∀ a b, VGroup T G v j i1 a → VGroup T G v j i1 b → ¬ a < b := by
    intro a b ga gb hab
    have ha := ga.1
    exact ga.2.2.2.2 (a + 1, j) ⟨gb.2.2.1 (a + 1) (by omega) (by omega), v, gb.2.1 (a + 1) (by omega) (by omega), Or.inr ⟨hv, rfl⟩⟩
  have := key i2 i2' g1 g2
  have := key i2' i2 g2 g1
  omega

/-- Every box with a positive entry is in exactly one group. -/
theorem exists_hGroup {v : Int} (hv : 0 < v) {i j : Nat} (hj : T.get? (i, j) = some [v]) :
    ∃! p : Nat × Nat, HGroup T G v i p.1 p.2 ∧ p.1 ≤ j ∧ j ≤ p.2 := by
  -- the first box with grouping 0
  have hex : ∃ k, j ≤ k ∧ T.get? (i, k) = some [v] ∧ (∀ m, j ≤ m → m ≤ k → T.get? (i, m) = some [v]) ∧
      (∀ m, j ≤ m → m < k → G.get? (i, m) = some [1]) ∧ G.get? (i, k) = some [0] := by
    by_contra hne
    have hall : ∀ d, (∀ m, j ≤ m → m ≤ j + d → T.get? (i, m) = some [v]) ∧ (∀ m, j ≤ m → m < j + d → G.get? (i, m) = some [1]) := by
      intro d
      induction d with
      | zero => exact ⟨fun m h1 h2 => by rw [show m = j by omega]; exact hj, fun m h1 h2 => by omega⟩
      | succ d ih =>
        have hd := ih.1 (j + d) (by omega) (by omega)
        rcases grouping_cases h hV (b := (i, j + d)) (by rw [hd]; rfl) with ⟨e, _⟩ | ⟨e, _, a, e1, e2⟩
        · exact absurd ⟨j + d, by omega, hd, ih.1, ih.2, e⟩ hne
        · rw [hd] at e1
          simp only [Option.some.injEq, List.cons.injEq, and_true] at e1
          subst e1
          refine ⟨fun m h1 h2 => ?_, fun m h1 h2 => ?_⟩
          · rcases Nat.lt_or_ge (j + d) m with hm | hm
            · rcases e2 with e2 | e2
              · rw [show m = j + d + 1 by omega]; exact e2.2
              · omega
            · exact ih.1 m h1 hm
          · rcases Nat.lt_or_ge m (j + d) with hm | hm
            · exact ih.2 m h1 hm
            · rw [show m = j + d by omega]; exact e
    -- infinitely many boxes
    have hinj : Function.Injective (fun d : Nat => ((i, j + d) : Nat × Nat)) := by
      intro a b hab
      simp only [Prod.mk.injEq, true_and] at hab
      omega
    refine Set.infinite_univ_iff.2 (inferInstance : Infinite Nat) ?_
    refine Set.Finite.of_finite_image (f := fun d : Nat => ((i, j + d) : Nat × Nat)) ?_ hinj.injOn
    refine (keySet T).finite_toSet.subset ?_
    rintro _ ⟨d, _, rfl⟩
    rw [Finset.mem_coe, mem_keySet, (hall d).1 (j + d) (by omega) (by omega)]
    rfl
  obtain ⟨k, hk1, hk2, hk3, hk4, hk5⟩ := hex
  obtain ⟨s1, s2, s3, s4⟩ := hStart_group h hV hv i j hj
  refine ⟨(hStart T G i j, k), ⟨⟨by simp only; omega, fun m h1 h2 => ?_, fun m h1 h2 => ?_, hk5, s4⟩, s1, hk1⟩, ?_⟩
  · simp only at h1 h2
    rcases Nat.lt_or_ge m j with hm | hm
    · exact s2 m h1 (by omega)
    · exact hk3 m hm h2
  · simp only at h1 h2
    rcases Nat.lt_or_ge m j with hm | hm
    · exact s3 m h1 hm
    · exact hk4 m hm h2
  · rintro ⟨a, b⟩ ⟨g, h1, h2⟩
    simp only at g h1 h2
    have hb : b = k := by
      rcases Nat.lt_trichotomy b k with hlt | heq | hlt
      · have := hk4 b h2 hlt
        rw [g.2.2.2.1] at this; simp at this
      · exact heq
      · have := g.2.2.1 k (by omega) hlt
        rw [hk5] at this; simp at this
    subst hb
    have hg : HGroup T G v i (hStart T G i j) b := by
      refine ⟨by omega, fun m h1 h2 => ?_, fun m h1 h2 => ?_, hk5, s4⟩
      · rcases Nat.lt_or_ge m j with hm | hm
        · exact s2 m h1 (by omega)
        · exact hk3 m hm h2
      · rcases Nat.lt_or_ge m j with hm | hm
        · exact s3 m h1 hm
        · exact hk4 m hm h2
    rw [hGroup_start hv g hg]

/-- Every box with a negative entry is in exactly one group. -/
theorem exists_vGroup {v : Int} (hv : v < 0) {i j : Nat} (hi : T.get? (i, j) = some [v]) :
    ∃! p : Nat × Nat, VGroup T G v j p.1 p.2 ∧ p.1 ≤ i ∧ i ≤ p.2 := by
  have hex : ∀ i, T.get? (i, j) = some [v] → ∃ k ≤ i, (∀ m, k ≤ m → m ≤ i → T.get? (m, j) = some [v]) ∧
      (∀ m, k < m → m ≤ i → G.get? (m, j) = some [1]) ∧ G.get? (k, j) = some [0] := by
    intro i
    induction i with
    | zero =>
      intro hi
      have := (h.pos (0, j) (by rw [hi]; rfl)).1
      simp at this
    | succ i ih =>
      intro hi
      rcases grouping_cases h hV (b := (i + 1, j)) (by rw [hi]; rfl) with ⟨e, _⟩ | ⟨e, _, a, e1, e2⟩
      · exact ⟨i + 1, le_rfl, fun m h1 h2 => by rw [show m = i + 1 by omega]; exact hi, fun m h1 h2 => by omega, e⟩
      · rw [hi] at e1
        simp only [Option.some.injEq, List.cons.injEq, and_true] at e1
        subst e1
        rcases e2 with e2 | e2
        · omega
        · simp only [Nat.add_sub_cancel] at e2
          obtain ⟨k, h1, h2, h3, h4⟩ := ih e2.2.2
          refine ⟨k, by omega, fun m m1 m2 => ?_, fun m m1 m2 => ?_, h4⟩
          · rcases Nat.lt_or_ge i m with hm | hm
            · rw [show m = i + 1 by omega]; exact hi
            · exact h2 m m1 hm
          · rcases Nat.lt_or_ge i m with hm | hm
            · rw [show m = i + 1 by omega]; exact e
            · exact h3 m m1 hm
  obtain ⟨k, hk1, hk2, hk3, hk4⟩ := hex i hi
  obtain ⟨E, hE⟩ : ∃ E, vEnd T G j (T.maxRow + 1) i = E := ⟨_, rfl⟩
  obtain ⟨s1, s2, s3, s4⟩ := vEnd_group h hV hv j (T.maxRow + 1) i hi (by omega)
  rw [hE] at s1 s2 s3 s4
  have hg : VGroup T G v j k E := by
    refine ⟨by omega, fun m h1 h2 => ?_, fun m h1 h2 => ?_, hk4, s4⟩
    · rcases Nat.lt_or_ge i m with hm | hm
      · exact s2 m (by omega) h2
      · exact hk2 m h1 hm
    · rcases Nat.lt_or_ge i m with hm | hm
      · exact s3 m hm h2
      · exact hk3 m h1 hm
  refine ⟨(k, E), ⟨hg, hk1, s1⟩, ?_⟩
  rintro ⟨a, b⟩ ⟨g, h1, h2⟩
  simp only at g h1 h2
  have ha : a = k := by
    rcases Nat.lt_trichotomy a k with hlt | heq | hlt
    · have := g.2.2.1 k hlt (by omega)
      rw [hk4] at this; simp at this
    · exact heq
    · have := hk3 a hlt h1
      rw [g.2.2.2.1] at this; simp at this
  subst ha
  rw [vGroup_end hv g hg]

end

theorem zip_map_self {α β : Type*} (l : List α) (f : α → β) : (l.map f).zip l = l.map (fun a => (f a, a)) := by
  induction l with
  | nil => rfl
  | cons a t ih => rw [List.map_cons, List.zip_cons_cons, ih, List.map_cons]

theorem zip_self_map {α β : Type*} (l : List α) (f : α → β) : l.zip (l.map f) = l.map (fun a => (a, f a)) := by
  induction l with
  | nil => rfl
  | cons a t ih => rw [List.map_cons, List.zip_cons_cons, ih, List.map_cons]

instance : Std.Total hKeyLe := ⟨fun a b => by unfold hKeyLe; omega⟩
instance : IsTrans (Nat × Nat) hKeyLe := ⟨fun a b c h1 h2 => by unfold hKeyLe at *; omega⟩
instance : Std.Total vKeyLe := ⟨fun a b => by unfold vKeyLe; omega⟩
instance : IsTrans (Nat × Nat) vKeyLe := ⟨fun a b c h1 h2 => by unfold vKeyLe at *; omega⟩

/-! ### C119 -/

/-- C119: for a valued-set tableau and `v > 0`, `get_horizontals(v)` returns two lists whose pairs are the starts and ends of the groups of
the letter `v`, ordered by row and then from right to left; every box with the entry `v` is in exactly one of them. -/
theorem C119_horizontals {T G : Tab} (h : Plain T) (hV : IsVst T G) {v : Int} (hv : 0 < v) :
    ∃ s e, getHorizontals T G v = some (s, e) ∧ s.length = e.length ∧
      e.Pairwise (fun a b => a.1 < b.1 ∨ (a.1 = b.1 ∧ b.2 < a.2)) ∧
      (∀ a b, (a, b) ∈ s.zip e ↔ a.1 = b.1 ∧ HGroup T G v a.1 a.2 b.2) ∧
      ∀ i j, T.get? (i, j) = some [v] → ∃! p, p ∈ s.zip e ∧ p.1.1 = i ∧ p.1.2 ≤ j ∧ j ≤ p.2.2 := by
  obtain ⟨e, he⟩ : ∃ e, (endsOf T G v).insertionSort hKeyLe = e := ⟨_, rfl⟩
  have hmem : ∀ b, b ∈ e ↔ T.get? b = some [v] ∧ G.get? b = some [0] := by
    intro b
    rw [← he, List.mem_insertionSort, mem_endsOf h hV]
  have hpairs : ∀ a b, (a, b) ∈ (e.map (fun b => (b.1, hStart T G b.1 b.2))).zip e ↔ a.1 = b.1 ∧ HGroup T G v a.1 a.2 b.2 := by
    rintro ⟨a1, a2⟩ ⟨b1, b2⟩
    rw [zip_map_self, List.mem_map]
    constructor
    · rintro ⟨c, hc, hce⟩
      simp only [Prod.mk.injEq] at hce
      obtain ⟨⟨rfl, rfl⟩, rfl⟩ := hce
      obtain ⟨h1, h2⟩ := (hmem _).1 hc
      obtain ⟨s1, s2, s3, s4⟩ := hStart_group h hV hv b1 b2 h1
      exact ⟨rfl, s1, s2, s3, h2, s4⟩
    · rintro ⟨h1, g⟩
      simp only at h1 g
      subst h1
      have hb := g.2.1 b2 g.1 le_rfl
      refine ⟨(a1, b2), (hmem _).2 ⟨hb, g.2.2.2.1⟩, ?_⟩
      obtain ⟨s1, s2, s3, s4⟩ := hStart_group h hV hv a1 b2 hb
      rw [hGroup_start hv g ⟨s1, s2, s3, g.2.2.2.1, s4⟩]
  refine ⟨_, e, by rw [getHorizontals, if_pos hv]; simp only [he], by rw [List.length_map], ?_, hpairs, fun i j hj => ?_⟩
  · have h1 : e.Pairwise hKeyLe := by rw [← he]; exact List.pairwise_insertionSort hKeyLe _
    have h2 : e.Nodup := by
      rw [← he, (List.perm_insertionSort hKeyLe _).nodup_iff]
      exact T.keys_nodup.filter _
    refine (h1.and h2).imp (fun {a b} hab => ?_)
    obtain ⟨h3, h4⟩ := hab
    unfold hKeyLe at h3
    have : ¬ (a.1 = b.1 ∧ a.2 = b.2) := fun hc => h4 (Prod.ext hc.1 hc.2)
    omega
  · obtain ⟨⟨p1, p2⟩, ⟨g, h1, h2⟩, hu⟩ := exists_hGroup h hV hv hj
    refine ⟨((i, p1), (i, p2)), ⟨(hpairs _ _).2 ⟨rfl, g⟩, rfl, h1, h2⟩, ?_⟩
    rintro ⟨⟨a1, a2⟩, ⟨b1, b2⟩⟩ ⟨h3, h4, h5, h6⟩
    obtain ⟨h7, h8⟩ := (hpairs _ _).1 h3
    simp only at h4 h5 h6 h7 h8
    subst h4; subst h7
    have := hu (a2, b2) ⟨h8, h5, h6⟩
    simp only [Prod.mk.injEq] at this
    rw [this.1, this.2]

/-- C119: for `v < 0`, `get_verticals(v)` returns the same for the groups of the primed letter, ordered by column from right to left and then
by row. -/
theorem C119_verticals {T G : Tab} (h : Plain T) (hV : IsVst T G) {v : Int} (hv : v < 0) :
    ∃ s e, getVerticals T G v = some (s, e) ∧ s.length = e.length ∧
      s.Pairwise (fun a b => b.2 < a.2 ∨ (a.2 = b.2 ∧ a.1 < b.1)) ∧
      (∀ a b, (a, b) ∈ s.zip e ↔ a.2 = b.2 ∧ VGroup T G v a.2 a.1 b.1) ∧
      ∀ i j, T.get? (i, j) = some [v] → ∃! p, p ∈ s.zip e ∧ p.1.2 = j ∧ p.1.1 ≤ i ∧ i ≤ p.2.1 := by
  obtain ⟨e, he⟩ : ∃ e, (endsOf T G v).insertionSort vKeyLe = e := ⟨_, rfl⟩
  have hmem : ∀ b, b ∈ e ↔ T.get? b = some [v] ∧ G.get? b = some [0] := by
    intro b
    rw [← he, List.mem_insertionSort, mem_endsOf h hV]
  have hpairs : ∀ a b, (a, b) ∈ e.zip (e.map (fun b => (vEnd T G b.2 (T.maxRow + 1) b.1, b.2))) ↔
      a.2 = b.2 ∧ VGroup T G v a.2 a.1 b.1 := by
    rintro ⟨a1, a2⟩ ⟨b1, b2⟩
    rw [zip_self_map, List.mem_map]
    constructor
    · rintro ⟨c, hc, hce⟩
      simp only [Prod.mk.injEq] at hce
      obtain ⟨rfl, rfl, rfl⟩ := hce
      obtain ⟨h1, h2⟩ := (hmem _).1 hc
      obtain ⟨s1, s2, s3, s4⟩ := vEnd_group h hV hv a2 (T.maxRow + 1) a1 h1 (by omega)
      exact ⟨rfl, s1, s2, s3, h2, s4⟩
    · rintro ⟨h1, g⟩
      simp only at h1 g
      subst h1
      have hb := g.2.1 a1 le_rfl g.1
      refine ⟨(a1, a2), (hmem _).2 ⟨hb, g.2.2.2.1⟩, ?_⟩
      obtain ⟨s1, s2, s3, s4⟩ := vEnd_group h hV hv a2 (T.maxRow + 1) a1 hb (by omega)
      rw [vGroup_end hv g ⟨s1, s2, s3, g.2.2.2.1, s4⟩]
  refine ⟨e, _, by rw [getVerticals, if_pos hv]; simp only [he], by rw [List.length_map], ?_, hpairs, fun i j hj => ?_⟩
  · have h1 : e.Pairwise vKeyLe := by rw [← he]; exact List.pairwise_insertionSort vKeyLe _
    have h2 : e.Nodup := by
      rw [← he, (List.perm_insertionSort vKeyLe _).nodup_iff]
      exact T.keys_nodup.filter _
    refine (h1.and h2).imp (fun {a b} hab => ?_)
    obtain ⟨h3, h4⟩ := hab
    unfold vKeyLe at h3
    have : ¬ (a.1 = b.1 ∧ a.2 = b.2) := fun hc => h4 (Prod.ext hc.1 hc.2)
    omega
  · obtain ⟨⟨p1, p2⟩, ⟨g, h1, h2⟩, hu⟩ := exists_vGroup h hV hv hj
    refine ⟨((p1, j), (p2, j)), ⟨(hpairs _ _).2 ⟨rfl, g⟩, rfl, h1, h2⟩, ?_⟩
    rintro ⟨⟨a1, a2⟩, ⟨b1, b2⟩⟩ ⟨h3, h4, h5, h6⟩
    obtain ⟨h7, h8⟩ := (hpairs _ _).1 h3
    simp only at h4 h5 h6 h7 h8
    subst h4; subst h7
    have := hu (a1, b1) ⟨h8, h5, h6⟩
    simp only [Prod.mk.injEq] at this
    rw [this.1, this.2]

/-! ### C120 -/

/-- C120: for two boxes next to each other in a row, `in_same_group` tells whether the first is continued in the second.  (Missing: boxes next
to each other in a column, where this is false, see `C120_violated`.) -/
theorem C120_same_group_partial {T G : Tab} (h : Plain T) (hV : IsVst T G) (i j : Nat) :
    (inSameGroup T G (i, j) (i, j + 1) = true ↔ Linked T G (i, j) (i, j + 1)) ∧
    (inSameGroup T G (i, j + 1) (i, j) = true ↔ Linked T G (i, j) (i, j + 1)) := by
  have key : (truthy G (i, j) && decide (0 < (T.entry (i, j)).getD 0)) = true ↔ Linked T G (i, j) (i, j + 1) := by
    rw [Bool.and_eq_true, decide_eq_true_iff, truthy_iff h hV]
    constructor
    · rintro ⟨h1, h2⟩
      refine ⟨h1, ?_⟩
      have hb := (hV.1 (i, j)).1 (by rw [h1]; rfl)
      obtain ⟨s, hs⟩ := Option.isSome_iff_exists.1 hb
      obtain ⟨a, rfl, ha⟩ := h.single _ s hs
      rw [entry_some.2 hs] at h2
      exact ⟨a, hs, Or.inl ⟨h2, rfl⟩⟩
    · rintro ⟨h1, a, h2, h3⟩
      refine ⟨h1, ?_⟩
      rw [entry_some.2 h2]
      rcases h3 with h3 | h3
      · exact h3.1
      · have := h3.2
        simp only [Prod.mk.injEq] at this
        omega
  refine ⟨?_, ?_⟩
  · rw [inSameGroup, if_pos ⟨rfl, rfl⟩, key]
  · rw [inSameGroup, if_neg (by simp only; omega), if_pos ⟨rfl, rfl⟩, key]

/-- The tableau with the rows `1 2'` and `. 2'`. -/
def columnTab : Tab := ((Tab.empty.set (1, 1) [1]).set (1, 2) [-2]).set (2, 2) [-2]

/-- The grouping with the two boxes of the second column in one group. -/
def columnGroup : Tab := ((Tab.empty.set (1, 1) [0]).set (1, 2) [0]).set (2, 2) [1]

/-- C120: for boxes next to each other in a column `in_same_group` is wrong: of the valued-set tableau `(columnTab, columnGroup)`, which is one
of `ValuedSetTableau.all(2, (2, 1))`, `get_verticals(-2)` returns one group with the boxes `(1, 2)` and `(2, 2)`, but `in_same_group` is
False for them. -/
theorem C120_violated :
    (semistandardShiftedMarked true false [] 2 [2, 1]).map (fun S => decide (columnTab ∈ S)) = some true ∧
    (allOf [columnTab]).map (fun B => decide ((columnTab, columnGroup) ∈ B)) = some true ∧
    getVerticals columnTab columnGroup (-2) = some ([(1, 2)], [(2, 2)]) ∧
    inSameGroup columnTab columnGroup (1, 2) (2, 2) = false ∧ inSameGroup columnTab columnGroup (2, 2) (1, 2) = false := by
  decide +kernel

example : getHorizontals exampleTab exampleGroup 1 = some ([(1, 2)], [(1, 3)]) := by decide +kernel
example : getVerticals exampleTab exampleGroup (-2) = some ([(2, 2)], [(2, 2)]) := by decide +kernel
example : inSameGroup exampleTab exampleGroup (1, 2) (1, 3) = true := by decide +kernel

end Verif.Vst
