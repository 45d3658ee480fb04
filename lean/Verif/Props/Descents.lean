import Verif.Model.Descents
import Verif.Props.ReadingWords

/-!
# C123: `descent_set` and `shifted_reading_word`
-/

attribute [-simp] List.getD_eq_getElem?_getD

namespace Verif.Tab

open Verif

theorem insertItem_absent {K V : Type} [DecidableEq K] (k : K) (v : V) (l : List (K × V)) (h : k ∉ l.map Prod.fst) :
    Dict.insertItem k v l = l ++ [(k, v)] := by
  induction l with
  | nil => rfl
  | cons a t ih =>
    obtain ⟨k', v'⟩ := a
    rw [List.map_cons, List.mem_cons, not_or] at h
    rw [Dict.insertItem, if_neg (fun e => h.1 e.symm), ih h.2, List.cons_append]

theorem set_items_absent (d : Dict Int Nat) (k : Int) (v : Nat) (h : k ∉ d.keys) : (d.set k v).items = d.items ++ [(k, v)] :=
  insertItem_absent k v d.items h

theorem descentLoop_spec (l : List ((Nat × Nat) × Int)) : ∀ rows cols : Dict Int Nat,
    (rows.keys ++ cols.keys ++ l.map (fun q => |q.2|)).Nodup →
    ∃ rows' cols', descentLoop l rows cols = some (rows', cols') ∧
      rows'.items = rows.items ++ (l.filter (fun q => decide (0 < q.2))).map (fun q => (q.2, q.1.1)) ∧
      cols'.items = cols.items ++ (l.filter (fun q => !decide (0 < q.2))).map (fun q => (-q.2, q.1.2)) := by
  induction l with
  | nil => intro rows cols _; exact ⟨rows, cols, rfl, by simp, by simp⟩
  | cons a t ih =>
    intro rows cols hnd
    obtain ⟨b, v⟩ := a
    have hnotin : |v| ∉ rows.keys ++ cols.keys := by
      intro hm
      rw [List.map_cons] at hnd
      exact List.disjoint_of_nodup_append hnd hm (List.mem_cons_self ..)
    rw [List.mem_append, not_or] at hnotin
    rw [descentLoop, if_neg (by
      rw [Bool.or_eq_true, Dict.contains_iff, Dict.contains_iff]
      tauto)]
    split_ifs with hv
    · rw [abs_of_pos hv] at hnotin
      have hi := set_items_absent rows v b.1 hnotin.1
      obtain ⟨r, c, h1, h2, h3⟩ := ih (rows.set v b.1) cols (by
        have : (rows.set v b.1).keys = rows.keys ++ [v] := by unfold Dict.keys; rw [hi, List.map_append]; rfl
        rw [this]
        rw [List.map_cons, abs_of_pos hv] at hnd
        refine (List.Perm.nodup_iff ?_).1 hnd
        rw [List.append_assoc, List.append_assoc, List.append_assoc]
        refine List.Perm.append_left _ ?_
        rw [List.singleton_append]
        exact List.perm_middle)
      refine ⟨r, c, h1, ?_, ?_⟩
      · rw [h2, hi, List.filter_cons, if_pos (by simpa using hv), List.map_cons, List.append_assoc]; rfl
      · rw [h3, List.filter_cons, if_neg (by simpa using hv)]
    · rw [abs_of_nonpos (by omega)] at hnotin
      have hi := set_items_absent cols (-v) b.2 hnotin.2
      obtain ⟨r, c, h1, h2, h3⟩ := ih rows (cols.set (-v) b.2) (by
        have : (cols.set (-v) b.2).keys = cols.keys ++ [-v] := by unfold Dict.keys; rw [hi, List.map_append]; rfl
        rw [this]
        rw [List.map_cons, abs_of_nonpos (by omega)] at hnd
        simpa [List.append_assoc] using hnd)
      refine ⟨r, c, h1, ?_, ?_⟩
      · rw [h2, List.filter_cons, if_neg (by simpa using hv)]
      · rw [h3, hi, List.filter_cons, if_pos (by simpa using hv), List.map_cons, List.append_assoc]; rfl

/-- `x` occurs in the word before `y`. -/
def Before (w : List Int) (x y : Int) : Prop := [x, y].Sublist w

theorem before_or {α : Type} (L : List α) {p q : α} (hp : p ∈ L) (hq : q ∈ L) (hpq : p ≠ q) : [p, q].Sublist L ∨ [q, p].Sublist L := by
  induction L with
  | nil => simp at hp
  | cons a t ih =>
    rcases List.mem_cons.1 hp with rfl | hp'
    · rcases List.mem_cons.1 hq with rfl | hq'
      · exact absurd rfl hpq
      · left; exact (List.singleton_sublist.2 hq').cons_cons p
    · rcases List.mem_cons.1 hq with rfl | hq'
      · right; exact (List.singleton_sublist.2 hp').cons_cons q
      · rcases ih hp' hq' with h | h
        · left; exact h.cons a
        · right; exact h.cons a

theorem before_of_sorted {α : Type} (R : α → α → Prop) (L : List α) (hL : L.Pairwise R) {p q : α} (hp : p ∈ L) (hq : q ∈ L)
    (hpq : p ≠ q) (hR : ¬ R q p) : [p, q].Sublist L := by
  rcases before_or L hp hq hpq with h | h
  · exact h
  · exfalso
    have := hL.sublist h
    rw [List.pairwise_cons] at this
    exact hR (this.1 p (by simp))

theorem not_before {α : Type} (L : List α) (hL : L.Nodup) {p q : α} (h : [p, q].Sublist L) : ¬ [q, p].Sublist L := by
  intro h'
  induction L with
  | nil => simp at h
  | cons a t ih =>
    rw [List.nodup_cons] at hL
    rcases List.sublist_cons_iff.1 h with h1 | ⟨r, hr, h1⟩
    · rcases List.sublist_cons_iff.1 h' with h2 | ⟨r', hr', h2⟩
      · exact ih hL.2 h1 h2
      · rw [List.cons.injEq] at hr'
        exact hL.1 (by rw [← hr'.1]; exact h1.subset (by simp))
    · rw [List.cons.injEq] at hr
      rcases List.sublist_cons_iff.1 h' with h2 | ⟨r', hr', h2⟩
      · exact hL.1 (by rw [← hr.1]; exact h2.subset (by simp))
      · rw [List.cons.injEq] at hr'
        rw [← hr.2] at h1
        exact hL.1 (by rw [← hr'.1]; exact h1.subset (by simp))

theorem flatMap_before {L : List ((Nat × Nat) × List Int)} {p q : (Nat × Nat) × List Int} {x y : Int} (h : [p, q].Sublist L)
    (hx : x ∈ p.2) (hy : y ∈ q.2) : [x, y].Sublist (L.flatMap Prod.snd) := by
  have h1 : ([p, q].flatMap Prod.snd).Sublist (L.flatMap Prod.snd) := h.flatMap _
  refine List.Sublist.trans ?_ h1
  simp only [List.flatMap_cons, List.flatMap_nil, List.append_nil]
  exact (List.singleton_sublist.2 hx).append (List.singleton_sublist.2 hy)

theorem flatMap_before_same {L : List ((Nat × Nat) × List Int)} {p : (Nat × Nat) × List Int} {x y : Int} (hp : p ∈ L)
    (hs : p.2.Pairwise (· ≤ ·)) (hx : x ∈ p.2) (hy : y ∈ p.2) (hxy : x < y) : [x, y].Sublist (L.flatMap Prod.snd) := by
  have h1 : ([p].flatMap Prod.snd).Sublist (L.flatMap Prod.snd) := (List.singleton_sublist.2 hp).flatMap _
  refine List.Sublist.trans ?_ h1
  simp only [List.flatMap_cons, List.flatMap_nil, List.append_nil]
  exact before_of_sorted _ _ hs hx hy (by omega) (by omega)

/-- The specification: the absolute values of the entries are `1, ..., n`, each once, the entries of a box are sorted, and of `i` and
`i + 1` (`-i` and `-i - 1`) in one row (column) the second is not in a column (row) before that of the first. -/
structure StdLines (T : Tab) (n : Nat) : Prop where
  perm : (T.values.map Int.natAbs).Perm (List.range' 1 n)
  sorted : ∀ b s, T.get? b = some s → s.Pairwise (· ≤ ·)
  rows : ∀ (i : Int) (b b' : Nat × Nat), 0 < i → i ∈ T.ent b → i + 1 ∈ T.ent b' → b.1 = b'.1 → b.2 ≤ b'.2
  cols : ∀ (i : Int) (b b' : Nat × Nat), 0 < i → -i ∈ T.ent b → -(i + 1) ∈ T.ent b' → b.2 = b'.2 → b.1 ≤ b'.1

theorem mem_cellValues {T : Tab} {b : Nat × Nat} {v : Int} : (b, v) ∈ T.cellValues ↔ v ∈ T.ent b := by
  unfold cellValues
  rw [List.mem_flatMap]
  constructor
  · rintro ⟨p, hp, hv⟩
    obtain ⟨w, hw, he⟩ := List.mem_map.1 hv
    rw [Prod.mk.injEq] at he
    obtain ⟨rfl, rfl⟩ := he
    rw [ent_of_get? (get?_eq_some.2 hp)]
    exact hw
  · intro hv
    cases hg : T.get? b with
    | none => rw [ent_nil_of_none hg] at hv; simp at hv
    | some s =>
      rw [ent_of_get? hg] at hv
      exact ⟨(b, s), get?_eq_some.1 hg, List.mem_map.2 ⟨v, hv, rfl⟩⟩

theorem cellValues_snd (T : Tab) : T.cellValues.map Prod.snd = T.values := by
  unfold cellValues values
  rw [List.map_flatMap]
  congr 1
  funext p
  rw [List.map_map]
  exact List.map_id _

theorem ent_item {T : Tab} {b : Nat × Nat} {v : Int} (h : v ∈ T.ent b) : ∃ s, (b, s) ∈ T.items ∧ v ∈ s ∧ T.get? b = some s := by
  cases hg : T.get? b with
  | none => rw [ent_nil_of_none hg] at h; simp at h
  | some s =>
    rw [ent_of_get? hg] at h
    exact ⟨s, get?_eq_some.1 hg, h, rfl⟩

theorem row_before {T : Tab} (hs : ∀ b s, T.get? b = some s → s.Pairwise (· ≤ ·)) {b b' : Nat × Nat} {x y : Int} (hx : x ∈ T.ent b)
    (hy : y ∈ T.ent b') (h : b'.1 < b.1 ∨ (b.1 = b'.1 ∧ b.2 < b'.2) ∨ (b = b' ∧ x < y)) : [x, y].Sublist (rowReadingWord T) := by
  obtain ⟨s, hs1, hs2, hs3⟩ := ent_item hx
  obtain ⟨s', hs1', hs2', hs3'⟩ := ent_item hy
  unfold rowReadingWord
  have hm : ∀ p, p ∈ T.items.insertionSort (fun p q => rowKeyLe p q = true) ↔ p ∈ T.items := fun p => (List.perm_insertionSort _ _).mem_iff
  rcases h with h | h | ⟨rfl, h⟩
  · refine flatMap_before (p := (b, s)) (q := (b', s')) ?_ hs2 hs2'
    refine before_of_sorted _ _ (List.pairwise_insertionSort _ _) ((hm _).2 hs1) ((hm _).2 hs1') ?_ ?_
    · intro he
      rw [(Prod.mk.inj he).1] at h
      omega
    · simp only [rowKeyLe, decide_eq_true_eq]; omega
  · refine flatMap_before (p := (b, s)) (q := (b', s')) ?_ hs2 hs2'
    refine before_of_sorted _ _ (List.pairwise_insertionSort _ _) ((hm _).2 hs1) ((hm _).2 hs1') ?_ ?_
    · intro he
      rw [(Prod.mk.inj he).1] at h
      omega
    · simp only [rowKeyLe, decide_eq_true_eq]; omega
  · rw [hs3] at hs3'
    rw [Option.some.injEq] at hs3'
    subst hs3'
    exact flatMap_before_same (p := (b, s)) ((hm _).2 hs1) (hs b s hs3) hs2 hs2' h

theorem column_before {T : Tab} (hs : ∀ b s, T.get? b = some s → s.Pairwise (· ≤ ·)) {b b' : Nat × Nat} {x y : Int} (hx : x ∈ T.ent b)
    (hy : y ∈ T.ent b') (h : b.2 < b'.2 ∨ (b.2 = b'.2 ∧ b'.1 < b.1) ∨ (b = b' ∧ x < y)) : [x, y].Sublist (columnReadingWord T) := by
  obtain ⟨s, hs1, hs2, hs3⟩ := ent_item hx
  obtain ⟨s', hs1', hs2', hs3'⟩ := ent_item hy
  unfold columnReadingWord
  have hm : ∀ p, p ∈ T.items.insertionSort (fun p q => columnKeyLe p q = true) ↔ p ∈ T.items := fun p => (List.perm_insertionSort _ _).mem_iff
  rcases h with h | h | ⟨rfl, h⟩
  · refine flatMap_before (p := (b, s)) (q := (b', s')) ?_ hs2 hs2'
    refine before_of_sorted _ _ (List.pairwise_insertionSort _ _) ((hm _).2 hs1) ((hm _).2 hs1') ?_ ?_
    · intro he
      rw [(Prod.mk.inj he).1] at h
      omega
    · simp only [columnKeyLe, decide_eq_true_eq]; omega
  · refine flatMap_before (p := (b, s)) (q := (b', s')) ?_ hs2 hs2'
    refine before_of_sorted _ _ (List.pairwise_insertionSort _ _) ((hm _).2 hs1) ((hm _).2 hs1') ?_ ?_
    · intro he
      rw [(Prod.mk.inj he).1] at h
      omega
    · simp only [columnKeyLe, decide_eq_true_eq]; omega
  · rw [hs3] at hs3'
    rw [Option.some.injEq] at hs3'
    subst hs3'
    exact flatMap_before_same (p := (b, s)) ((hm _).2 hs1) (hs b s hs3) hs2 hs2' h

theorem rowReadingWord_perm (T : Tab) : (rowReadingWord T).Perm T.values := (List.perm_insertionSort _ _).flatMap_right _

theorem columnReadingWord_perm (T : Tab) : (columnReadingWord T).Perm T.values := (List.perm_insertionSort _ _).flatMap_right _

theorem primed_before {T : Tab} {x y : Int} (hx : 0 < x) (hy : 0 < y) (h : [-x, -y].Sublist (columnReadingWord T)) :
    [y, x].Sublist (shiftedReadingWord T) := by
  unfold shiftedReadingWord
  refine List.Sublist.trans ?_ (List.sublist_append_left _ _)
  have h1 := (h.reverse.filter (fun a => decide (a < 0))).map (fun a => -a)
  simpa [List.filter_cons, hx, hy] using h1

theorem unprimed_before {T : Tab} {x y : Int} (hx : 0 < x) (hy : 0 < y) (h : [x, y].Sublist (rowReadingWord T)) :
    [x, y].Sublist (shiftedReadingWord T) := by
  unfold shiftedReadingWord
  refine List.Sublist.trans ?_ (List.sublist_append_right _ _)
  have h1 := h.filter (fun a => decide (0 < a))
  simpa [List.filter_cons, hx, hy] using h1

theorem mixed_before {T : Tab} {x y : Int} (hx : 0 < x) (hy : 0 < y) (h : -x ∈ T.values) (h' : y ∈ T.values) :
    [x, y].Sublist (shiftedReadingWord T) := by
  unfold shiftedReadingWord
  refine (List.singleton_sublist.2 ?_).append (List.singleton_sublist.2 ?_)
  · refine List.mem_map.2 ⟨-x, ?_, neg_neg x⟩
    rw [List.mem_filter, List.mem_reverse, (columnReadingWord_perm T).mem_iff]
    exact ⟨h, by simpa using hx⟩
  · rw [List.mem_filter, (rowReadingWord_perm T).mem_iff]
    exact ⟨h', by simpa using hy⟩

theorem shiftedReadingWord_nodup {T : Tab} (h : (T.values.map Int.natAbs).Nodup) : (shiftedReadingWord T).Nodup := by
  have hv : T.values.Nodup := h.of_map
  have hinj : ∀ a ∈ T.values, ∀ b ∈ T.values, a.natAbs = b.natAbs → a = b := fun a ha b hb hab => List.inj_on_of_nodup_map h ha hb hab
  unfold shiftedReadingWord
  dsimp only
  rw [List.nodup_append]
  refine ⟨?_, ?_, ?_⟩
  · refine List.Nodup.map neg_injective ?_
    apply List.Nodup.filter
    rw [List.nodup_reverse]
    exact (columnReadingWord_perm T).nodup_iff.2 hv
  · apply List.Nodup.filter
    exact (rowReadingWord_perm T).nodup_iff.2 hv
  · intro a ha b hb hab
    subst hab
    obtain ⟨c, hc, hca⟩ := List.mem_map.1 ha
    rw [List.mem_filter, List.mem_reverse, (columnReadingWord_perm T).mem_iff, decide_eq_true_eq] at hc
    rw [List.mem_filter, (rowReadingWord_perm T).mem_iff, decide_eq_true_eq] at hb
    have := hinj c hc.1 a hb.1 (by omega)
    omega

/-- C123.  For a tableau as in `StdLines` no assertion of `descent_set` fails, and its elements are the `i` such that `i + 1` is before
`i` in `shifted_reading_word`. -/
theorem C123_descents (T : Tab) (n : Nat) (h : StdLines T n) :
    ∃ D, descentSet? T = some D ∧ D.Nodup ∧ ∀ i, i ∈ D ↔ 1 ≤ i ∧ i < n ∧ Before (shiftedReadingWord T) (i + 1) i := by
  have habs : T.cellValues.map (fun q => |q.2|) = (T.values.map Int.natAbs).map (fun k : Nat => (k : Int)) := by
    rw [← cellValues_snd, List.map_map, List.map_map]
    apply List.map_congr_left
    intro q _
    simp
  have hnd0 : (T.values.map Int.natAbs).Nodup := h.perm.nodup_iff.2 List.nodup_range'
  have hwn := shiftedReadingWord_nodup hnd0
  have hval : ∀ k : Int, (k ∈ T.values ∨ -k ∈ T.values) ∧ 0 ≤ k ↔ 1 ≤ k ∧ k ≤ n := by
    intro k
    have hm : ∀ m : Nat, m ∈ T.values.map Int.natAbs ↔ 1 ≤ m ∧ m < 1 + n := by
      intro m
      rw [h.perm.mem_iff, List.mem_range'_1]
    constructor
    · rintro ⟨hk, hk0⟩
      have := (hm k.natAbs).1 (by
        rcases hk with hk | hk
        · exact List.mem_map.2 ⟨k, hk, rfl⟩
        · exact List.mem_map.2 ⟨-k, hk, by simp⟩)
      omega
    · rintro ⟨h1, h2⟩
      obtain ⟨v, hv, hvk⟩ := List.mem_map.1 ((hm k.natAbs).2 (by omega))
      refine ⟨?_, by omega⟩
      rcases Int.natAbs_eq_natAbs_iff.1 hvk with rfl | rfl
      · left; exact hv
      · right; exact hv
  have hv0 : (0 : Int) ∉ T.values := by
    intro h0
    have := (hval 0).1 ⟨Or.inl h0, le_refl _⟩
    omega
  obtain ⟨rows, cols, h1, h2, h3⟩ := descentLoop_spec T.cellValues Dict.empty Dict.empty (by
    simp only [Dict.empty, Dict.keys, List.map_nil, List.nil_append]
    rw [habs]
    exact hnd0.map Nat.cast_injective)
  simp only [Dict.empty, List.nil_append] at h2 h3
  have hr : ∀ (k : Int) (i : Nat), rows.get? k = some i ↔ 0 < k ∧ ∃ j, k ∈ T.ent (i, j) := by
    intro k i
    rw [Dict.get?_eq_some, h2, List.mem_map]
    constructor
    · rintro ⟨⟨b, v⟩, hq, he⟩
      rw [List.mem_filter, mem_cellValues, decide_eq_true_eq] at hq
      rw [Prod.mk.injEq] at he
      dsimp only at he hq
      obtain ⟨rfl, rfl⟩ := he
      exact ⟨hq.2, b.2, hq.1⟩
    · rintro ⟨hk, j, hj⟩
      exact ⟨((i, j), k), by rw [List.mem_filter, mem_cellValues, decide_eq_true_eq]; exact ⟨hj, hk⟩, rfl⟩
  have hc : ∀ (k : Int) (j : Nat), cols.get? k = some j ↔ 0 < k ∧ ∃ i, -k ∈ T.ent (i, j) := by
    intro k j
    rw [Dict.get?_eq_some, h3, List.mem_map]
    constructor
    · rintro ⟨⟨b, v⟩, hq, he⟩
      rw [List.mem_filter, mem_cellValues] at hq
      rw [Prod.mk.injEq] at he
      dsimp only at he hq
      obtain ⟨rfl, rfl⟩ := he
      have hv : v ≠ 0 := by
        rintro rfl
        exact hv0 (Tab.mem_entries.2 ⟨b, hq.1⟩)
      have := hq.2
      simp only [Bool.not_eq_true', decide_eq_false_iff_not] at this
      refine ⟨by omega, b.1, by rw [neg_neg]; exact hq.1⟩
    · rintro ⟨hk, i, hi⟩
      refine ⟨((i, j), -k), ?_, by simp⟩
      rw [List.mem_filter, mem_cellValues]
      exact ⟨hi, by simp; omega⟩
  have hmr : ∀ k : Int, k ∈ rows.keys ↔ 0 < k ∧ k ∈ T.values := by
    intro k
    have hme : k ∈ T.values ↔ ∃ b, k ∈ T.ent b := Tab.mem_entries
    rw [Dict.mem_keys, hme]
    constructor
    · rintro ⟨i, hi⟩
      obtain ⟨h0, j, hj⟩ := (hr k i).1 hi
      exact ⟨h0, _, hj⟩
    · rintro ⟨h0, b, hb⟩
      exact ⟨b.1, (hr k b.1).2 ⟨h0, b.2, hb⟩⟩
  have hmc : ∀ k : Int, k ∈ cols.keys ↔ 0 < k ∧ -k ∈ T.values := by
    intro k
    have hme : -k ∈ T.values ↔ ∃ b, -k ∈ T.ent b := Tab.mem_entries
    rw [Dict.mem_keys, hme]
    constructor
    · rintro ⟨i, hi⟩
      obtain ⟨h0, j, hj⟩ := (hc k i).1 hi
      exact ⟨h0, _, hj⟩
    · rintro ⟨h0, b, hb⟩
      exact ⟨b.2, (hc k b.2).2 ⟨h0, b.1, hb⟩⟩
  have hlen : rows.len + cols.len = n := by
    unfold Dict.len
    rw [h2, h3, List.length_map, List.length_map]
    have e1 : T.cellValues.length = n := by
      have := congrArg List.length (cellValues_snd T)
      have e2 := h.perm.length_eq
      simp only [List.length_map, List.length_range'] at this e2
      omega
    have := List.length_eq_length_filter_add (l := T.cellValues) (fun q => decide (0 < q.2))
    omega
  have hwant : ∀ k : Int, k ∈ (List.range n).map (fun (m : Nat) => (m : Int) + 1) ↔ 1 ≤ k ∧ k ≤ n := by
    intro k
    rw [List.mem_map]
    constructor
    · rintro ⟨m, hm, rfl⟩
      rw [List.mem_range] at hm
      omega
    · rintro ⟨h1, h2⟩
      exact ⟨(k - 1).toNat, by rw [List.mem_range]; omega, by omega⟩
  have hdrop : ∀ k : Int, k ∈ ((List.range n).map (fun (m : Nat) => (m : Int) + 1)).dropLast ↔ 1 ≤ k ∧ k < n := by
    intro k
    cases n with
    | zero => simp; omega
    | succ n =>
      rw [List.range_succ, List.map_append, List.map_singleton, List.dropLast_concat, List.mem_map]
      constructor
      · rintro ⟨m, hm, rfl⟩
        rw [List.mem_range] at hm
        omega
      · rintro ⟨h1, h2⟩
        exact ⟨(k - 1).toNat, by rw [List.mem_range]; omega, by omega⟩
  unfold descentSet?
  rw [h1, Option.bind_some]
  dsimp only
  rw [hlen, if_pos (by
    constructor
    · intro k hk
      rw [hwant, ← hval]
      rcases List.mem_append.1 hk with hk | hk
      · rw [hmr] at hk
        exact ⟨Or.inl hk.2, by omega⟩
      · rw [hmc] at hk
        exact ⟨Or.inr hk.2, by omega⟩
    · intro k hk
      rw [hwant] at hk
      have hk2 := (hval k).2 hk
      rw [List.mem_append, hmr, hmc]
      rcases hk2.1 with h | h
      · left; exact ⟨by omega, h⟩
      · right; exact ⟨by omega, h⟩)]
  refine ⟨_, rfl, ?_, ?_⟩
  · apply List.Nodup.filter
    refine List.Nodup.sublist (List.dropLast_sublist _) ?_
    refine List.Nodup.map ?_ List.nodup_range
    intro a b hab
    simpa using hab
  · intro i
    rw [List.mem_filter, hdrop, and_assoc]
    refine and_congr_right (fun hi1 => and_congr_right (fun hin => ?_))
    have hdisj : ∀ k : Int, k ∈ T.values → -k ∈ T.values → False := by
      intro k hk hk'
      have := List.inj_on_of_nodup_map hnd0 hk hk' (by simp)
      have h0 : k = 0 := by omega
      exact hv0 (h0 ▸ hk)
    have hci := ((hval i).2 ⟨hi1, by omega⟩).1
    have hci' := ((hval (i + 1)).2 ⟨by omega, by omega⟩).1
    have hme : ∀ k : Int, k ∈ T.values ↔ ∃ b, k ∈ T.ent b := fun k => Tab.mem_entries
    have hrn : ∀ k : Int, -k ∈ T.values → rows.get? k = none := by
      intro k hk
      rw [Dict.get?_eq_none, hmr]
      exact fun h => hdisj k h.2 hk
    have hcn : ∀ k : Int, k ∈ T.values → cols.get? k = none := by
      intro k hk
      rw [Dict.get?_eq_none, hmc]
      exact fun h => hdisj k hk h.2
    unfold isDescent Dict.contains Before
    rcases hci with hi | hi
    · obtain ⟨b, hb⟩ := (hme i).1 hi
      rw [(hr i b.1).2 ⟨by omega, b.2, hb⟩, hcn i hi]
      rcases hci' with hi' | hi'
      · obtain ⟨b', hb'⟩ := (hme (i + 1)).1 hi'
        rw [(hr (i + 1) b'.1).2 ⟨by omega, b'.2, hb'⟩, hcn (i + 1) hi']
        simp only [Option.isSome_some, Option.isSome_none, Bool.and_false, Bool.false_or, Bool.or_false, decide_eq_true_eq]
        constructor
        · intro hlt
          exact unprimed_before (by omega) (by omega) (row_before h.sorted hb' hb (Or.inl hlt))
        · intro hsub
          by_contra hge
          refine not_before _ hwn ?_ hsub
          refine unprimed_before (by omega) (by omega) (row_before h.sorted hb hb' ?_)
          rcases Nat.lt_or_ge b'.1 b.1 with hl | hl
          · left; exact hl
          · right
            have he : b.1 = b'.1 := by omega
            have hle := h.rows i b b' (by omega) hb hb' he
            rcases Nat.lt_or_ge b.2 b'.2 with h5 | h5
            · left; exact ⟨he, h5⟩
            · right; exact ⟨Prod.ext he (by omega), by omega⟩
      · obtain ⟨b', hb'⟩ := (hme (-(i + 1))).1 hi'
        rw [(hc (i + 1) b'.2).2 ⟨by omega, b'.1, hb'⟩, hrn (i + 1) hi']
        simp only [Option.isSome_some, Bool.and_true, Bool.true_or, true_iff]
        exact mixed_before (by omega) (by omega) hi' hi
    · obtain ⟨b, hb⟩ := (hme (-i)).1 hi
      rw [(hc i b.2).2 ⟨by omega, b.1, hb⟩, hrn i hi]
      rcases hci' with hi' | hi'
      · rw [hcn (i + 1) hi']
        simp only [Option.isSome_none, Bool.and_false, Bool.false_or, Bool.false_eq_true, false_iff]
        refine not_before _ hwn ?_
        exact mixed_before (by omega) (by omega) hi hi'
      · obtain ⟨b', hb'⟩ := (hme (-(i + 1))).1 hi'
        rw [(hc (i + 1) b'.2).2 ⟨by omega, b'.1, hb'⟩, hrn (i + 1) hi']
        simp only [Option.isSome_none, Bool.false_and, Bool.false_or, decide_eq_true_eq]
        constructor
        · intro hlt
          exact primed_before (by omega) (by omega) (column_before h.sorted hb hb' (Or.inl hlt))
        · intro hsub
          by_contra hge
          refine not_before _ hwn ?_ hsub
          refine primed_before (by omega) (by omega) (column_before h.sorted hb' hb ?_)
          rcases Nat.lt_or_ge b'.2 b.2 with hl | hl
          · left; exact hl
          · right
            have he : b.2 = b'.2 := by omega
            have hle := h.cols i b b' (by omega) hb hb' he
            rcases Nat.lt_or_ge b.1 b'.1 with h5 | h5
            · left; exact ⟨he.symm, h5⟩
            · right; exact ⟨Prod.ext (by omega) he.symm, by omega⟩

theorem descentLoop_nodup (l : List ((Nat × Nat) × Int)) : ∀ (rows cols : Dict Int Nat) (st : Dict Int Nat × Dict Int Nat),
    descentLoop l rows cols = some st → (rows.keys ++ cols.keys).Nodup → (rows.keys ++ cols.keys ++ l.map (fun q => |q.2|)).Nodup := by
  induction l with
  | nil => intro rows cols st _ h; simpa using h
  | cons a t ih =>
    intro rows cols st hst hnd
    obtain ⟨b, v⟩ := a
    rw [descentLoop] at hst
    split_ifs at hst with hc hv
    · rw [Bool.or_eq_true, Dict.contains_iff, Dict.contains_iff, not_or] at hc
      rw [abs_of_pos hv] at hc
      have hk : (rows.set v b.1).keys = rows.keys ++ [v] := by
        unfold Dict.keys; rw [set_items_absent rows v b.1 hc.1, List.map_append]; rfl
      have hp : (rows.keys ++ [v] ++ cols.keys).Perm (v :: (rows.keys ++ cols.keys)) := by
        rw [List.append_assoc, List.singleton_append]
        exact List.perm_middle
      have := ih _ _ st hst (by
        rw [hk, hp.nodup_iff, List.nodup_cons, List.mem_append, not_or]
        exact ⟨hc, hnd⟩)
      rw [hk] at this
      rw [List.map_cons, abs_of_pos hv]
      refine (List.Perm.nodup_iff ?_).1 this
      exact (hp.append_right _).trans List.perm_middle.symm
    · rw [Bool.or_eq_true, Dict.contains_iff, Dict.contains_iff, not_or] at hc
      rw [abs_of_nonpos (by omega)] at hc
      have hk : (cols.set (-v) b.2).keys = cols.keys ++ [-v] := by
        unfold Dict.keys; rw [set_items_absent cols (-v) b.2 hc.2, List.map_append]; rfl
      have hp : (rows.keys ++ (cols.keys ++ [-v])).Perm (-v :: (rows.keys ++ cols.keys)) := by
        rw [← List.append_assoc]
        exact List.perm_append_singleton _ _
      have := ih _ _ st hst (by
        rw [hk, hp.nodup_iff, List.nodup_cons, List.mem_append, not_or]
        exact ⟨hc, hnd⟩)
      rw [hk] at this
      rw [List.map_cons, abs_of_nonpos (by omega)]
      refine (List.Perm.nodup_iff ?_).1 this
      exact (hp.append_right _).trans List.perm_middle.symm

/-- C123.  If no assertion of `descent_set` fails then the absolute values of the entries are `1, ..., n`, each once. -/
theorem C123_asserts (T : Tab) (D : List Int) (h : descentSet? T = some D) :
    ∃ n, (T.values.map Int.natAbs).Perm (List.range' 1 n) := by
  unfold descentSet? at h
  rw [Option.bind_eq_some_iff] at h
  obtain ⟨st, hst, h⟩ := h
  dsimp only at h
  split_ifs at h with hc
  have hnd := descentLoop_nodup _ _ _ _ hst (by simp [Dict.empty, Dict.keys])
  obtain ⟨rows, cols, h1, h2, h3⟩ := descentLoop_spec T.cellValues Dict.empty Dict.empty hnd
  rw [hst, Option.some.injEq] at h1
  subst h1
  simp only [Dict.empty, List.nil_append, Dict.keys, List.map_nil] at h2 h3 hnd hc
  have habs : T.cellValues.map (fun q => |q.2|) = (T.values.map Int.natAbs).map (fun k : Nat => (k : Int)) := by
    rw [← cellValues_snd, List.map_map, List.map_map]
    apply List.map_congr_left
    intro q _
    simp
  rw [habs] at hnd
  refine ⟨rows.len + cols.len, (List.perm_ext_iff_of_nodup hnd.of_map List.nodup_range').2 (fun k => ?_)⟩
  have hk : k ∈ T.values.map Int.natAbs ↔ (k : Int) ∈ rows.items.map Prod.fst ++ cols.items.map Prod.fst := by
    rw [← cellValues_snd, h2, h3, List.mem_append]
    simp only [List.mem_map, List.mem_filter, decide_eq_true_eq, Bool.not_eq_true', decide_eq_false_iff_not]
    constructor
    · rintro ⟨v, ⟨q, hq, rfl⟩, hv⟩
      by_cases h0 : 0 < q.2
      · left; exact ⟨_, ⟨q, ⟨hq, h0⟩, rfl⟩, by dsimp only; omega⟩
      · right; exact ⟨_, ⟨q, ⟨hq, h0⟩, rfl⟩, by dsimp only; omega⟩
    · rintro (⟨_, ⟨q, ⟨hq, h0⟩, rfl⟩, hv⟩ | ⟨_, ⟨q, ⟨hq, h0⟩, rfl⟩, hv⟩)
      · exact ⟨_, ⟨q, hq, rfl⟩, by dsimp only at hv; omega⟩
      · exact ⟨_, ⟨q, hq, rfl⟩, by dsimp only at hv; omega⟩
  rw [hk, List.mem_range'_1]
  constructor
  · intro hm
    obtain ⟨m, hm1, hm2⟩ := List.mem_map.1 (hc.1 _ hm)
    rw [List.mem_range] at hm1
    omega
  · intro hm
    refine hc.2 _ (List.mem_map.2 ⟨k - 1, ?_, ?_⟩)
    · rw [List.mem_range]; omega
    · omega

/-- `StdLines` by a finite check. -/
theorem stdLines_of_check (T : Tab) (n : Nat) (h1 : (T.values.map Int.natAbs).Perm (List.range' 1 n))
    (h2 : ∀ p ∈ T.items, p.2.Pairwise (· ≤ ·))
    (h3 : ∀ p ∈ T.cellValues, ∀ q ∈ T.cellValues,
      (0 < p.2 → q.2 = p.2 + 1 → p.1.1 = q.1.1 → p.1.2 ≤ q.1.2) ∧ (p.2 < 0 → q.2 = p.2 - 1 → p.1.2 = q.1.2 → p.1.1 ≤ q.1.1)) :
    StdLines T n :=
  ⟨h1, fun b s h => h2 _ (get?_eq_some.1 h),
    fun i b b' hi hb hb' he => (h3 _ (mem_cellValues.2 hb) _ (mem_cellValues.2 hb')).1 hi rfl he,
    fun i b b' hi hb hb' he => (h3 _ (mem_cellValues.2 hb) _ (mem_cellValues.2 hb')).2 (by dsimp only; omega) (by dsimp only; omega) he⟩

/-- A shifted tableau with the rows `1 | 2' 3 | 4' | 8' | 9'`, `5 | 6` and `7`. -/
def exampleDescents : Tab :=
  ⟨[((1, 1), [1]), ((1, 2), [-2, 3]), ((1, 3), [-4]), ((1, 4), [-8]), ((1, 5), [-9]), ((2, 2), [5]), ((2, 3), [6]), ((3, 3), [7])],
    by decide +kernel⟩

example : StdLines exampleDescents 9 :=
  stdLines_of_check _ _ (by decide +kernel) (by decide +kernel) (by decide +kernel)

example : descentSet? exampleDescents = some [1, 3, 6, 7, 8] ∧ shiftedReadingWord exampleDescents = [9, 8, 4, 2, 7, 5, 6, 1, 3] := by
  decide +kernel

end Verif.Tab
