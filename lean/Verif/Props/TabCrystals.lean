import Verif.Lemmas.CrystalMultiTab
import Verif.Lemmas.InsertionStd
import Verif.Spec.Partitions

/-!
# C78, C79: the crystal operators on semistandard tableaux
-/

namespace Verif.Tab

open Verif.Part Verif.Words

attribute [-simp] List.getD_eq_getElem?_getD

/-- `k` successive calls of an operator succeed: no exception, and no None. -/
def Succeeds (g : Tab → Option (Option Tab)) : Nat → Tab → Prop
  | 0, _ => True
  | k + 1, T => ∃ U, g T = some (some U) ∧ Succeeds g k U

/-! ### helper lemmas -/

theorem down_diagram {mu : List Nat} (h : IsPartition mu) : Down (Diagram mu) := by
  constructor
  · rintro ⟨r, c⟩ ⟨h1, h2, _⟩; exact ⟨h1, h2⟩
  · rintro i j i' j' ⟨h1, h2, a, ha, h3⟩ h4 h5 h6 h7
    simp only at h1 h2 ha h3
    refine ⟨h4, h6, ?_⟩
    simp only
    have hl : i - 1 < mu.length := by by_contra hc; rw [List.getElem?_eq_none (by omega)] at ha; cases ha
    rw [List.getElem?_eq_getElem hl, Option.some.injEq] at ha
    refine ⟨mu[i' - 1]'(by omega), List.getElem?_eq_getElem _, ?_⟩
    rcases Nat.lt_or_ge (i' - 1) (i - 1) with hlt | hge
    · have := List.pairwise_iff_getElem.1 h.1 (i' - 1) (i - 1) (by omega) hl hlt
      omega
    · have : i' - 1 = i - 1 := by omega
      simp only [this]; omega

theorem convex_skew {mu lam : List Nat} (hmu : IsPartition mu) (hlam : IsPartition lam) : Convex (Diagram mu \ Diagram lam) := by
  intro i j i' j' k l h1 h2 h3 h4 h5 h6
  have hp := (down_diagram hmu).1 _ h1.1
  simp only at hp
  refine ⟨(down_diagram hmu).2 i' j' k l h2.1 (by omega) h4 (by omega) h6, ?_⟩
  intro hc
  exact h1.2 ((down_diagram hlam).2 k l i j hc hp.1 h3 hp.2 h5)

theorem pos_skew {mu lam : List Nat} : Pos (Diagram mu \ Diagram lam) := fun b hb => ⟨hb.1.1, hb.1.2.1⟩

theorem values_boxed (T : Tab) : T.values = (Verif.Insertion.boxed T).map Prod.fst := by
  simp [values, Verif.Insertion.boxed, List.map_flatMap, Function.comp_def]

theorem values_moved {D : Set (Nat × Nat)} {T U : Tab} (hT : Base false D T) (hU : Base false D U) {b c : Nat × Nat} {v w : Int}
    (hv : v ∈ T.ent b) (hw : w ∉ T.ent c) (hvw : v ≠ w) (hm : Moved T U b c v w) :
    ∃ l, T.values.Perm (v :: l) ∧ U.values.Perm (w :: l) := by
  have h1 : (Verif.Insertion.boxed T).Nodup := Verif.Insertion.boxed_nodup (fun b => (hT.strict rfl b).imp (fun h => ne_of_lt h))
  have h2 : (Verif.Insertion.boxed U).Nodup := Verif.Insertion.boxed_nodup (fun b => (hU.strict rfl b).imp (fun h => ne_of_lt h))
  have hm1 : (v, b) ∈ Verif.Insertion.boxed T := Verif.Insertion.mem_boxed.2 hv
  have e1 : (Verif.Insertion.boxed T).Perm ((v, b) :: (Verif.Insertion.boxed T).erase (v, b)) := List.perm_cons_erase hm1
  have e2 : (Verif.Insertion.boxed U).Perm ((w, c) :: (Verif.Insertion.boxed T).erase (v, b)) := by
    rw [List.perm_ext_iff_of_nodup h2]
    · rintro ⟨z, d⟩
      rw [Verif.Insertion.mem_boxed, hm, List.mem_cons, h1.mem_erase_iff, Verif.Insertion.mem_boxed, ne_eq,
        show ((z, d) = (w, c)) = (z = w ∧ d = c) from Prod.mk.injEq .., show ((z, d) = (v, b)) = (z = v ∧ d = b) from Prod.mk.injEq ..]
      tauto
    · rw [List.nodup_cons]
      refine ⟨?_, h1.erase _⟩
      rw [h1.mem_erase_iff, Verif.Insertion.mem_boxed]
      exact fun h => hw h.2
  refine ⟨((Verif.Insertion.boxed T).erase (v, b)).map Prod.fst, ?_, ?_⟩
  · rw [values_boxed]; exact e1.map _
  · rw [values_boxed]; exact e2.map _

theorem crystalReadingWord_perm {m : Bool} {n : Nat} {D : Set (Nat × Nat)} {T : Tab} (_ : Semi m n D T) :
    T.crystalReadingWord.flatten.Perm T.values := by
  have h1 : T.crystalReadingWord.flatten.Perm ((T.usedColumns.map T.columnTuples).flatten.flatten) := by
    rw [crystalReadingWord]
    obtain ⟨l, hl⟩ : ∃ l, T.usedColumns = l := ⟨_, rfl⟩
    rw [hl]
    clear hl
    induction l with
    | nil => simp
    | cons j l ih =>
      rw [List.map_cons, List.map_cons, List.flatten_cons, List.flatten_cons, List.flatten_append]
      exact (columnWord_perm _).append ih
  refine h1.trans ?_
  have h2 : (T.usedColumns.flatMap (fun j => T.items.filter (fun p => decide (p.1.2 = j)))).Perm T.items := by
    have hnd : T.items.Nodup := List.Nodup.of_map _ (keys_nodup T)
    have hcn : T.usedColumns.Nodup := (List.perm_insertionSort _ _).nodup_iff.2 (List.nodup_dedup _)
    rw [List.perm_ext_iff_of_nodup _ hnd]
    · intro p
      rw [List.mem_flatMap]
      constructor
      · rintro ⟨j, _, hp⟩; exact (List.mem_filter.1 hp).1
      · intro hp
        refine ⟨p.1.2, ?_, List.mem_filter.2 ⟨hp, by simp⟩⟩
        unfold usedColumns
        rw [(List.perm_insertionSort _ _).mem_iff, List.mem_dedup, List.mem_map]
        exact ⟨p, hp, rfl⟩
    · rw [List.nodup_flatMap]
      refine ⟨fun j _ => hnd.filter _, ?_⟩
      refine hcn.imp ?_
      intro a b hab p hp hq
      have h3 := (List.mem_filter.1 hp).2
      have h4 := (List.mem_filter.1 hq).2
      simp only [decide_eq_true_eq] at h3 h4
      exact hab (h3.symm.trans h4)
  have h3 : (T.usedColumns.map T.columnTuples).flatten = (T.usedColumns.flatMap (fun j => T.items.filter (fun p => decide (p.1.2 = j)))).map Prod.snd := by
    rw [List.map_flatMap, List.flatMap_def]; rfl
  rw [h3, values, List.flatMap_def]
  exact (h2.map _).flatten

theorem f?_true_eq {n : Nat} {D : Set (Nat × Nat)} {T : Tab} {i : Int} (h : Semi true n D T) (hD : Down D) (hn : i + 1 ≤ n) :
    (f? i true T = some none ∧ f i T.crystalReadingWord.flatten = none) ∨ ∃ U, f? i true T = some (some U) ∧ Semi true n D U ∧
      fArgs i T.crystalReadingWord = some U.crystalReadingWord := by
  rw [f?, if_pos rfl]
  cases hf : fArgs i T.crystalReadingWord with
  | none => left; exact ⟨rfl, (C13_cut i _).1.1 hf⟩
  | some w' =>
    right
    obtain ⟨U, h1, h2⟩ := fMulti h hD hn hf
    refine ⟨U, ?_, h1, by rw [h2]⟩
    rw [← h2]
    simp only
    rw [from_crystalReadingWord h1 hD]; rfl

theorem e?_true_eq {n : Nat} {D : Set (Nat × Nat)} {T : Tab} {i : Int} (h : Semi true n D T) (hD : Down D) (hn : 1 ≤ i) :
    (e? i true T = some none ∧ e i T.crystalReadingWord.flatten = none) ∨ ∃ U, e? i true T = some (some U) ∧ Semi true n D U ∧
      eArgs i T.crystalReadingWord = some U.crystalReadingWord := by
  rw [e?, if_pos rfl]
  cases hf : eArgs i T.crystalReadingWord with
  | none => left; exact ⟨rfl, (C13_cut i _).2.1.1 hf⟩
  | some w' =>
    right
    obtain ⟨U, h1, h2⟩ := eMulti h hD hn hf
    refine ⟨U, ?_, h1, by rw [h2]⟩
    rw [← h2]
    simp only
    rw [from_crystalReadingWord h1 hD]; rfl

theorem succeeds_iff {g : Tab → Option (Option Tab)} {P : Tab → Prop} {φ : Tab → Nat}
    (h0 : ∀ T, P T → φ T = 0 → ∀ U, g T ≠ some (some U))
    (h1 : ∀ T, P T → φ T ≠ 0 → ∃ U, g T = some (some U) ∧ P U ∧ φ T = φ U + 1) (k : Nat) :
    ∀ T, P T → (Succeeds g k T ↔ k ≤ φ T) := by
  induction k with
  | zero => intro T _; simp [Succeeds]
  | succ k ih =>
    intro T hT
    rw [Succeeds]
    by_cases hz : φ T = 0
    · constructor
      · rintro ⟨U, hU, _⟩; exact absurd hU (h0 T hT hz U)
      · intro h; omega
    · obtain ⟨U, hU, hPU, hφ⟩ := h1 T hT hz
      constructor
      · rintro ⟨U', hU', hs⟩
        rw [hU] at hU'
        simp only [Option.some.injEq] at hU'
        subst hU'
        have := (ih U hPU).1 hs
        omega
      · intro h
        exact ⟨U, hU, (ih U hPU).2 (by omega)⟩

/-! ## C78: multiset-valued tableaux -/

/-- C78: for every semistandard multiset-valued tableau of straight shape, decoding the crystal reading word gives the tableau back. -/
theorem C78_reading_word {mu : List ℕ} (hmu : IsPartition mu) {n : ℕ} {T : Tab}
    (hT : IsMultiTableauOf true (Diagram mu) (IsSemistandard n (Diagram mu)) T.get?) :
    fromCrystalReadingWord? T.crystalReadingWord = some T :=
  from_crystalReadingWord (semi_of_spec hT) (down_diagram hmu)

/-- C78: the operators do not raise, and their results are semistandard of the same shape and inverse to each other: if
`f_i(T)` is a tableau `U`, then `e_i(U)` is `T`, one entry `i` has become an entry `i + 1`, and all other entries are the same. -/
theorem C78_f {mu : List ℕ} (hmu : IsPartition mu) {n : ℕ} {i : ℤ} (hn : i + 1 ≤ n) {T : Tab}
    (hT : IsMultiTableauOf true (Diagram mu) (IsSemistandard n (Diagram mu)) T.get?) :
    f? i true T = some none ∨
    ∃ U, f? i true T = some (some U) ∧ IsMultiTableauOf true (Diagram mu) (IsSemistandard n (Diagram mu)) U.get? ∧
      e? i true U = some (some T) ∧ ∃ l, T.values.Perm (i :: l) ∧ U.values.Perm ((i + 1) :: l) := by
  have h := semi_of_spec hT
  have hD := down_diagram hmu
  rcases f?_true_eq h hD hn with h1 | ⟨U, h1, h2, h3⟩
  · exact Or.inl h1.1
  · refine Or.inr ⟨U, h1, h2.spec, ?_, ?_⟩
    · rw [e?, if_pos rfl, (C13_inverse_args i _ _).1 h3]
      simp only
      rw [from_crystalReadingWord h hD]; rfl
    · obtain ⟨u, v, e1, e2, _⟩ := f_local ((C13_cut i _).2.2.1 _ h3).1
      refine ⟨u ++ v, ?_, ?_⟩
      · exact (crystalReadingWord_perm h).symm.trans (by rw [e1]; exact List.perm_middle)
      · exact (crystalReadingWord_perm h2).symm.trans (by rw [e2]; exact List.perm_middle)

/-- C78: the same for `e_i`. -/
theorem C78_e {mu : List ℕ} (hmu : IsPartition mu) {n : ℕ} {i : ℤ} (hi : 1 ≤ i) {T : Tab}
    (hT : IsMultiTableauOf true (Diagram mu) (IsSemistandard n (Diagram mu)) T.get?) :
    e? i true T = some none ∨
    ∃ U, e? i true T = some (some U) ∧ IsMultiTableauOf true (Diagram mu) (IsSemistandard n (Diagram mu)) U.get? ∧
      f? i true U = some (some T) ∧ ∃ l, T.values.Perm ((i + 1) :: l) ∧ U.values.Perm (i :: l) := by
  have h := semi_of_spec hT
  have hD := down_diagram hmu
  rcases e?_true_eq h hD hi with h1 | ⟨U, h1, h2, h3⟩
  · exact Or.inl h1.1
  · refine Or.inr ⟨U, h1, h2.spec, ?_, ?_⟩
    · rw [f?, if_pos rfl, (C13_inverse_args i _ _).2 h3]
      simp only
      rw [from_crystalReadingWord h hD]; rfl
    · obtain ⟨u, v, e1, e2, _⟩ := e_local ((C13_cut i _).2.2.2 _ h3).1
      refine ⟨u ++ v, ?_, ?_⟩
      · exact (crystalReadingWord_perm h).symm.trans (by rw [e1]; exact List.perm_middle)
      · exact (crystalReadingWord_perm h2).symm.trans (by rw [e2]; exact List.perm_middle)

/-- C78: `f_i` can be applied `a` times, `e_i` can be applied `b` times, and `a - b` is the number of entries `i` minus the
number of entries `i + 1`. -/
theorem C78_strings {mu : List ℕ} (hmu : IsPartition mu) {n : ℕ} {i : ℤ} (hi : 1 ≤ i) (hn : i + 1 ≤ n) {T : Tab}
    (hT : IsMultiTableauOf true (Diagram mu) (IsSemistandard n (Diagram mu)) T.get?) :
    ∃ a b : ℕ, (∀ k, Succeeds (f? i true) k T ↔ k ≤ a) ∧ (∀ k, Succeeds (e? i true) k T ↔ k ≤ b) ∧
      (a : ℤ) - b = T.values.count i - T.values.count (i + 1) := by
  have h := semi_of_spec hT
  have hD := down_diagram hmu
  refine ⟨(pqw i T.crystalReadingWord.flatten).1.length, (pqw i T.crystalReadingWord.flatten).2.length, ?_, ?_, ?_⟩
  · intro k
    refine succeeds_iff (P := Semi true n (Diagram mu)) (φ := fun T => (pqw i T.crystalReadingWord.flatten).1.length) ?_ ?_ k T h
    · intro T hT h0 U hU
      rcases f?_true_eq hT hD hn with h1 | ⟨U, h1, h2, h3⟩
      · rw [h1.1] at hU; simp at hU
      · have := ((C13_cut i _).2.2.1 _ h3).1
        rw [(f_none i _).2 h0] at this; cases this
    · intro T hT h0
      rcases f?_true_eq hT hD hn with h1 | ⟨U, h1, h2, h3⟩
      · exact absurd ((f_none i _).1 h1.2) h0
      · obtain ⟨_, _, _, _, _, h4⟩ := f_some i _ _ ((C13_cut i _).2.2.1 _ h3).1
        exact ⟨U, h1, h2, h4⟩
  · intro k
    refine succeeds_iff (P := Semi true n (Diagram mu)) (φ := fun T => (pqw i T.crystalReadingWord.flatten).2.length) ?_ ?_ k T h
    · intro T hT h0 U hU
      rcases e?_true_eq hT hD hi with h1 | ⟨U, h1, h2, h3⟩
      · rw [h1.1] at hU; simp at hU
      · have := ((C13_cut i _).2.2.2 _ h3).1
        rw [(e_none i _).2 h0] at this; cases this
    · intro T hT h0
      rcases e?_true_eq hT hD hi with h1 | ⟨U, h1, h2, h3⟩
      · exact absurd ((e_none i _).1 h1.2) h0
      · obtain ⟨_, _, _, _, _, h4⟩ := e_some i _ _ ((C13_cut i _).2.2.2 _ h3).1
        exact ⟨U, h1, h2, h4⟩
  · rw [(pqw_char i _).1, diff, (crystalReadingWord_perm h).count_eq, (crystalReadingWord_perm h).count_eq]

/-- The tableau with boxes `(1, 1)`: `1, 1`; `(1, 2)`: `2`; `(2, 1)`: `2`. -/
def multiExample : Tab := ((empty.set (1, 1) [1, 1]).set (1, 2) [2]).set (2, 1) [2]

theorem semi_multiExample : Semi true 3 (Diagram [2, 1]) multiExample := by
  have hent : ∀ b, multiExample.ent b = if b = (2, 1) then [2] else if b = (1, 2) then [2] else if b = (1, 1) then [1, 1] else [] := by
    intro b
    rw [multiExample, ent_set, ent_set, ent_set]; rfl
  have hget : ∀ b, multiExample.get? b = if b = (2, 1) then some [2] else if b = (1, 2) then some [2] else
      if b = (1, 1) then some [1, 1] else none := by
    intro b
    rw [multiExample, get?_set, get?_set, get?_set]; rfl
  have hD : ∀ b, b ∈ Diagram [2, 1] ↔ b = (2, 1) ∨ b = (1, 2) ∨ b = (1, 1) := by
    rintro ⟨r, c⟩
    simp only [Diagram, Set.mem_ofPred_eq, Prod.mk.injEq]
    constructor
    · rintro ⟨h1, h2, a, ha, h3⟩
      obtain ⟨d, rfl⟩ : ∃ d, r = d + 1 := ⟨r - 1, by omega⟩
      rcases d with _ | _ | d
      · simp at ha; omega
      · simp at ha; omega
      · simp at ha
    · rintro (⟨rfl, rfl⟩ | ⟨rfl, rfl⟩ | ⟨rfl, rfl⟩) <;> simp
  refine ⟨⟨?_, ?_, ?_, by simp⟩, ?_, ?_, ?_⟩
  · intro b; rw [hget, hD]; split_ifs <;> simp_all
  · intro b hb; rw [hD] at hb; rw [hent]; rcases hb with rfl | rfl | rfl <;> simp
  · intro b; rw [hent]; split_ifs <;> simp
  · intro b v hv; rw [hent] at hv; split_ifs at hv <;> simp at hv <;> omega
  · intro i j v hv w hw
    rw [hent] at hv hw
    split_ifs at hv hw <;> simp_all
  · intro i j v hv w hw
    rw [hent] at hv hw
    split_ifs at hv hw <;> simp_all

example : IsMultiTableauOf true (Diagram [2, 1]) (IsSemistandard 3 (Diagram [2, 1])) multiExample.get? ∧ IsPartition [2, 1] ∧
    f? 1 true multiExample = some (some (((empty.set (1, 1) [1]).set (1, 2) [2]).set (2, 1) [2, 2])) := by
  refine ⟨semi_multiExample.spec, by simp [IsPartition], by decide +kernel⟩

/-- C78: for skew shapes the claim is false, since decoding moves all columns to the top: the tableau with boxes `(1, 2)`: `1`
and `(2, 1)`: `1` becomes one with boxes `(1, 1)` and `(1, 2)`. -/
theorem C78_skew_fails : f? 1 true ((empty.set (1, 2) [1]).set (2, 1) [1]) = some (some ((empty.set (1, 1) [1]).set (1, 2) [2])) ∧
    e? 1 true ((empty.set (1, 1) [1]).set (1, 2) [2]) = some (some ((empty.set (1, 1) [1]).set (1, 2) [1])) := by
  decide +kernel

/-! ## C79: set-valued tableaux -/

/-- C79: on set-valued tableaux of any (also skew) shape the operators do not raise; if `f_i(T)` is a tableau `U`, then `U` is
semistandard set-valued of the same shape, `e_i(U)` is `T`, one entry `i` has become an entry `i + 1`, and all other entries are
the same. -/
theorem C79_f {mu lam : List ℕ} (hmu : IsPartition mu) (hlam : IsPartition lam) {n : ℕ} {i : ℤ} (hn : i + 1 ≤ n) {T : Tab}
    (hT : IsMultiTableauOf false (Diagram mu \ Diagram lam) (IsSemistandard n (Diagram mu \ Diagram lam)) T.get?) :
    f? i false T = some none ∨
    ∃ U, f? i false T = some (some U) ∧
      IsMultiTableauOf false (Diagram mu \ Diagram lam) (IsSemistandard n (Diagram mu \ Diagram lam)) U.get? ∧
      e? i false U = some (some T) ∧ ∃ l, T.values.Perm (i :: l) ∧ U.values.Perm ((i + 1) :: l) := by
  have h := semi_of_spec hT
  rw [f?, if_neg (by simp)]
  by_cases hP : (pq i (svEntries i T)).1 = []
  · left; rw [fSet?_eq, hP]
  · right
    obtain ⟨U, h1, h2, h3, _, _, b, c, h4, _, h5, h6⟩ := fSet?_some h (convex_skew hmu hlam) pos_skew hn hP
    exact ⟨U, h1, h2.spec, by rw [e?, if_neg (by simp)]; exact h3, values_moved h.toBase h2.toBase h4 h5 (by omega) h6⟩

/-- C79: the same for `e_i`. -/
theorem C79_e {mu lam : List ℕ} (hmu : IsPartition mu) (hlam : IsPartition lam) {n : ℕ} {i : ℤ} (hi : 1 ≤ i) {T : Tab}
    (hT : IsMultiTableauOf false (Diagram mu \ Diagram lam) (IsSemistandard n (Diagram mu \ Diagram lam)) T.get?) :
    e? i false T = some none ∨
    ∃ U, e? i false T = some (some U) ∧
      IsMultiTableauOf false (Diagram mu \ Diagram lam) (IsSemistandard n (Diagram mu \ Diagram lam)) U.get? ∧
      f? i false U = some (some T) ∧ ∃ l, T.values.Perm ((i + 1) :: l) ∧ U.values.Perm (i :: l) := by
  have h := semi_of_spec hT
  rw [e?, if_neg (by simp)]
  by_cases hP : (pq i (svEntries i T)).2 = []
  · left; rw [eSet?_eq, hP]; rfl
  · right
    obtain ⟨U, h1, h2, h3, _, _, b, c, h4, _, h5, h6⟩ := eSet?_some h (convex_skew hmu hlam) pos_skew hi hP
    exact ⟨U, h1, h2.spec, by rw [f?, if_neg (by simp)]; exact h3, values_moved h.toBase h2.toBase h4 h5 (by omega) h6⟩

theorem pq_count (i : ℤ) {α : Type} (s : List (α × ℤ)) (hs : Two i s) :
    ((pq i s).1.length : ℤ) - (pq i s).2.length = (s.map Prod.snd).count i - (s.map Prod.snd).count (i + 1) := by
  induction s using List.reverseRecOn with
  | nil => simp [pq]
  | append_singleton s c ih =>
    have ih := ih (fun p hp => hs p (by simp [hp]))
    rw [pq_snoc, List.map_append, List.count_append, List.count_append]
    have hc := hs c (by simp)
    rcases hPQ : pq i s with ⟨P, Q⟩
    rw [hPQ] at ih
    change (P.length : ℤ) - Q.length = _ at ih
    simp only [List.map_cons, List.map_nil, List.count_singleton]
    by_cases h1 : c.2 = i + 1
    · rw [step_J h1]
      have h2 : ¬ c.2 = i := by omega
      simp only [h1, List.length_cons, beq_self_eq_true, if_true]
      rw [if_neg (by simp)]
      push_cast; omega
    · have h2 : c.2 = i := by omega
      have e1 : (if (c.2 == i) = true then 1 else 0) = 1 := by simp [h2]
      have e2 : (if (c.2 == i + 1) = true then 1 else 0) = 0 := by simp [h1]
      rw [e1, e2]
      cases Q with
      | nil => rw [step_I_nil h1]; simp only [List.length_cons]; push_cast at ih ⊢; omega
      | cons q Q => rw [step_I_cons h1]; simp only [List.length_cons] at ih ⊢; push_cast at ih ⊢; omega

theorem count_svEntries (i : ℤ) (T : Tab) (v : ℤ) (hv : v = i ∨ v = i + 1) :
    ((svEntries i T).map Prod.snd).count v = T.values.count v := by
  have h1 : ((svEntries i T).map Prod.snd).Perm (T.values.filter (fun v => decide (v = i ∨ v = i + 1))) := by
    unfold svEntries
    refine ((List.perm_insertionSort _ _).map _).trans ?_
    rw [List.map_flatMap, values, List.filter_flatMap]
    simp only [List.map_map, Function.comp_def, List.map_id']
    exact List.Perm.refl _
  rw [h1.count_eq, List.count_filter (by simpa using hv)]

/-- C79: `f_i` can be applied `a` times, `e_i` can be applied `b` times, and `a - b` is the number of entries `i` minus the
number of entries `i + 1`. -/
theorem C79_strings {mu lam : List ℕ} (hmu : IsPartition mu) (hlam : IsPartition lam) {n : ℕ} {i : ℤ} (hi : 1 ≤ i) (hn : i + 1 ≤ n)
    {T : Tab} (hT : IsMultiTableauOf false (Diagram mu \ Diagram lam) (IsSemistandard n (Diagram mu \ Diagram lam)) T.get?) :
    ∃ a b : ℕ, (∀ k, Succeeds (f? i false) k T ↔ k ≤ a) ∧ (∀ k, Succeeds (e? i false) k T ↔ k ≤ b) ∧
      (a : ℤ) - b = T.values.count i - T.values.count (i + 1) := by
  have h := semi_of_spec hT
  have hf : f? i false = fSet? i := by funext T; rw [f?, if_neg (by simp)]
  have he : e? i false = eSet? i := by funext T; rw [e?, if_neg (by simp)]
  rw [hf, he]
  refine ⟨(pq i (svEntries i T)).1.length, (pq i (svEntries i T)).2.length, ?_, ?_, ?_⟩
  · intro k
    refine succeeds_iff (P := Semi false n (Diagram mu \ Diagram lam)) (φ := fun T => (pq i (svEntries i T)).1.length) ?_ ?_ k T h
    · intro T _ h0 U hU
      rw [fSet?_eq, List.length_eq_zero_iff.1 h0] at hU; simp at hU
    · intro T hT h0
      obtain ⟨U, h1, h2, _, h4, _⟩ := fSet?_some hT (convex_skew hmu hlam) pos_skew hn (by simpa using h0)
      exact ⟨U, h1, h2, h4⟩
  · intro k
    refine succeeds_iff (P := Semi false n (Diagram mu \ Diagram lam)) (φ := fun T => (pq i (svEntries i T)).2.length) ?_ ?_ k T h
    · intro T _ h0 U hU
      rw [eSet?_eq, List.length_eq_zero_iff.1 h0] at hU; simp at hU
    · intro T hT h0
      obtain ⟨U, h1, h2, _, h4, _⟩ := eSet?_some hT (convex_skew hmu hlam) pos_skew hi (by simpa using h0)
      exact ⟨U, h1, h2, h4⟩
  · rw [pq_count i _ (two_svEntries i T), count_svEntries i T i (Or.inl rfl), count_svEntries i T (i + 1) (Or.inr rfl)]

/-- The set-valued tableau with boxes `(1, 2)`: `1, 2`; `(1, 3)`: `2`; `(2, 1)`: `1`. -/
def setExample : Tab := ((empty.set (1, 2) [1, 2]).set (1, 3) [2]).set (2, 1) [1]

theorem semi_setExample : Semi false 3 (Diagram [3, 1] \ Diagram [1]) setExample := by
  have hent : ∀ b, setExample.ent b = if b = (2, 1) then [1] else if b = (1, 3) then [2] else if b = (1, 2) then [1, 2] else [] := by
    intro b
    rw [setExample, ent_set, ent_set, ent_set]; rfl
  have hget : ∀ b, setExample.get? b = if b = (2, 1) then some [1] else if b = (1, 3) then some [2] else
      if b = (1, 2) then some [1, 2] else none := by
    intro b
    rw [setExample, get?_set, get?_set, get?_set]; rfl
  have hD : ∀ b, b ∈ Diagram [3, 1] \ Diagram [1] ↔ b = (2, 1) ∨ b = (1, 3) ∨ b = (1, 2) := by
    rintro ⟨r, c⟩
    simp only [Diagram, Set.mem_sdiff, Set.mem_ofPred_eq, Prod.mk.injEq]
    constructor
    · rintro ⟨⟨h1, h2, a, ha, h3⟩, h4⟩
      obtain ⟨d, rfl⟩ : ∃ d, r = d + 1 := ⟨r - 1, by omega⟩
      rcases d with _ | _ | d
      · simp at ha
        have : ¬ c ≤ 1 := by intro hc; apply h4; exact ⟨by omega, h2, 1, by simp, hc⟩
        omega
      · simp at ha; omega
      · simp at ha
    · rintro (⟨rfl, rfl⟩ | ⟨rfl, rfl⟩ | ⟨rfl, rfl⟩) <;> simp
  refine ⟨⟨?_, ?_, ?_, ?_⟩, ?_, ?_, ?_⟩
  · intro b; rw [hget, hD]; split_ifs <;> simp_all
  · intro b hb; rw [hD] at hb; rw [hent]; rcases hb with rfl | rfl | rfl <;> simp
  · intro b; rw [hent]; split_ifs <;> simp
  · intro _ b; rw [hent]; split_ifs <;> simp
  · intro b v hv; rw [hent] at hv; split_ifs at hv <;> simp at hv <;> omega
  · intro i j v hv w hw
    rw [hent] at hv hw
    split_ifs at hv hw <;> simp_all <;> omega
  · intro i j v hv w hw
    rw [hent] at hv hw
    split_ifs at hv hw <;> simp_all

example : IsMultiTableauOf false (Diagram [3, 1] \ Diagram [1]) (IsSemistandard 3 (Diagram [3, 1] \ Diagram [1])) setExample.get? ∧
    f? 2 false setExample = some (some (((empty.set (1, 2) [1, 2]).set (1, 3) [3]).set (2, 1) [1])) ∧
    e? 1 false setExample = some (some (((empty.set (1, 2) [1]).set (1, 3) [1, 2]).set (2, 1) [1])) := by
  refine ⟨semi_setExample.spec, by decide +kernel, by decide +kernel⟩

end Verif.Tab
