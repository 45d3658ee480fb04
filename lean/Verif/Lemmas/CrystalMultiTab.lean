import Verif.Lemmas.CrystalMulti
import Verif.Props.Words

/-! The crystal operators on semistandard multiset-valued tableaux: helper lemmas. -/

namespace Verif.Tab

open Verif.Part Verif.Words

attribute [-simp] List.getD_eq_getElem?_getD

/-! ### the letter changed by the operators -/

theorem signature_split (i : Int) : ∀ (w : List Int) (k : Nat) (u v : List (Nat × Int)) (j : Nat) (a : Int),
    signature i k w = u ++ (j, a) :: v → k ≤ j ∧ w[j - k]? = some a ∧ u.map Prod.snd = sig i (w.take (j - k)) ∧
      v.map Prod.snd = sig i (w.drop (j - k + 1)) := by
  have hs : ∀ (w : List Int) (k : Nat), (signature i k w).map Prod.snd = sig i w := by
    intro w
    induction w with
    | nil => intro k; rfl
    | cons x w ih =>
      intro k
      rw [signature]
      by_cases h : x = i ∨ x = i + 1
      · rw [if_pos h, List.map_cons, ih, sig, sig, List.filter_cons_of_pos (by simpa using h)]
      · rw [if_neg h, ih, sig, sig, List.filter_cons_of_neg (by simpa using h)]
  intro w
  induction w with
  | nil => intro k u v j a h; simp [signature] at h
  | cons x w ih =>
    intro k u v j a h
    rw [signature] at h
    by_cases hx : x = i ∨ x = i + 1
    · rw [if_pos hx] at h
      cases u with
      | nil =>
        simp only [List.nil_append, List.cons.injEq, Prod.mk.injEq] at h
        obtain ⟨⟨rfl, rfl⟩, rfl⟩ := h
        refine ⟨le_rfl, by simp, by simp [sig], ?_⟩
        rw [hs]; simp
      | cons p u =>
        rw [List.cons_append, List.cons.injEq] at h
        obtain ⟨rfl, h⟩ := h
        obtain ⟨h1, h2, h3, h4⟩ := ih (k + 1) u v j a h
        have e : j - k = j - (k + 1) + 1 := by omega
        refine ⟨by omega, by rw [e, List.getElem?_cons_succ]; exact h2, ?_, ?_⟩
        · rw [e, List.take_succ_cons, List.map_cons, h3, sig, sig, List.filter_cons_of_pos (by simpa using hx)]
        · rw [e, List.drop_succ_cons]; exact h4
    · rw [if_neg hx] at h
      obtain ⟨h1, h2, h3, h4⟩ := ih (k + 1) u v j a h
      have e : j - k = j - (k + 1) + 1 := by omega
      refine ⟨by omega, by rw [e, List.getElem?_cons_succ]; exact h2, ?_, ?_⟩
      · rw [e, List.take_succ_cons, h3, sig, sig, List.filter_cons_of_neg (by simpa using hx)]
      · rw [e, List.drop_succ_cons]; exact h4

theorem pq_fst_nil_head {i : Int} {v Q : List (Nat × Int)} (h : pq i v = ([], Q)) : (v.map Prod.snd).head? ≠ some i := by
  cases v with
  | nil => simp
  | cons p v =>
    simp only [List.map_cons, List.head?_cons, ne_eq, Option.some.injEq]
    intro hp
    rw [pq, List.foldl_cons, step_I_nil (by omega)] at h
    have := fold_fst_ne i v ([p], []) (by simp)
    rw [h] at this
    exact this rfl

theorem pq_snd_nil_last {i : Int} {u P : List (Nat × Int)} (h : pq i u = (P, [])) : (u.map Prod.snd).getLast? ≠ some (i + 1) := by
  rcases List.eq_nil_or_concat u with rfl | ⟨u, p, rfl⟩
  · simp
  · rw [List.concat_eq_append] at h ⊢
    rw [List.map_append, List.map_singleton, List.getLast?_append]
    simp only [List.getLast?_singleton, Option.some_or, ne_eq, Option.some.injEq]
    intro hp
    rw [pq_snoc, step_J hp] at h
    simp at h

theorem f_local {i : Int} {w w' : List Int} (h : f i w = some w') : ∃ u v, w = u ++ i :: v ∧ w' = u ++ (i + 1) :: v ∧
    (sig i v).head? ≠ some i ∧ (sig i u).getLast? ≠ some (i + 1) := by
  rw [f_eq] at h
  rcases hP : (pqw i w).1 with _ | ⟨⟨j, a⟩, P⟩
  · rw [hP] at h; simp at h
  · rw [hP] at h
    simp only [Option.some.injEq] at h
    obtain ⟨u, v, hw, hu, hv, ha⟩ := decomp_I i (signature i 0 w) (j, a) P (pqw i w).2 (by rw [← hP]; rfl)
    obtain ⟨_, h2, h3, h4⟩ := signature_split i w 0 u v j a hw
    rw [Nat.sub_zero] at h2 h3 h4
    have ha' : a = i := by
      have := two_signature i 0 w (j, a) (by rw [hw]; simp)
      simp only at this ha; omega
    subst ha'
    have hj : j < w.length := by
      by_contra hc; rw [List.getElem?_eq_none (by omega)] at h2; cases h2
    rw [List.getElem?_eq_getElem hj, Option.some.injEq] at h2
    refine ⟨w.take j, w.drop (j + 1), ?_, by rw [← h]; simp, ?_, ?_⟩
    · rw [← h2, ← List.drop_eq_getElem_cons hj, List.take_append_drop]
    · rw [← h4]; exact pq_fst_nil_head hv
    · rw [← h3]; exact pq_snd_nil_last hu

theorem e_local {i : Int} {w w' : List Int} (h : e i w = some w') : ∃ u v, w = u ++ (i + 1) :: v ∧ w' = u ++ i :: v ∧
    (sig i v).head? ≠ some i ∧ (sig i u).getLast? ≠ some (i + 1) := by
  rw [e_eq] at h
  rcases List.eq_nil_or_concat (pqw i w).2 with hQ | ⟨Q, ⟨j, a⟩, hQ⟩
  · rw [hQ] at h; simp at h
  · rw [List.concat_eq_append] at hQ
    rw [hQ, List.getLast?_append] at h
    simp only [List.getLast?_singleton, Option.some_or, Option.some.injEq] at h
    obtain ⟨u, v, hw, hu, hv, ha⟩ := decomp_J i (signature i 0 w) (j, a) (pqw i w).1 Q (by rw [← hQ]; rfl)
    obtain ⟨_, h2, h3, h4⟩ := signature_split i w 0 u v j a hw
    rw [Nat.sub_zero] at h2 h3 h4
    simp only at ha
    subst ha
    have hj : j < w.length := by
      by_contra hc; rw [List.getElem?_eq_none (by omega)] at h2; cases h2
    rw [List.getElem?_eq_getElem hj, Option.some.injEq] at h2
    refine ⟨w.take j, w.drop (j + 1), ?_, by rw [← h]; simp, ?_, ?_⟩
    · rw [← h2, ← List.drop_eq_getElem_cons hj, List.take_append_drop]
    · rw [← h4]; exact pq_fst_nil_head hv
    · rw [← h3]; exact pq_snd_nil_last hu

/-! ### columns of tableaux of straight shape -/

/-- Sets of boxes that contain all boxes to the north-west. -/
def Down (D : Set (Nat × Nat)) : Prop :=
  Pos D ∧ ∀ i j i' j', (i, j) ∈ D → 1 ≤ i' → i' ≤ i → 1 ≤ j' → j' ≤ j → (i', j') ∈ D

/-- An initial interval of the positive numbers as a sorted list. -/
theorem eq_range' {l : List Nat} (hs : l.Pairwise (· < ·)) (hpos : ∀ a ∈ l, 1 ≤ a) (hd : ∀ a ∈ l, ∀ b, 1 ≤ b → b ≤ a → b ∈ l) :
    l = List.range' 1 l.length := by
  induction l using List.reverseRecOn with
  | nil => rfl
  | append_singleton l a ih =>
    rw [List.pairwise_append] at hs
    have ih := ih hs.1 (fun b hb => hpos b (by simp [hb])) (by
      intro b hb c hc hcb
      have := hd b (by simp [hb]) c hc hcb
      rcases List.mem_append.1 this with h | h
      · exact h
      · simp at h; have := hs.2.2 b hb a (by simp); omega)
    have hm : ∀ b, b ∈ l ↔ 1 ≤ b ∧ b < 1 + l.length := by
      intro b; rw [ih, List.mem_range'_1]; simp
    have ha : a = 1 + l.length := by
      have h1 : ¬ a < 1 + l.length := by
        intro hc
        have := hs.2.2 a ((hm a).2 ⟨hpos a (by simp), hc⟩) a (by simp)
        omega
      by_contra hc
      have h2 := hd a (by simp) (1 + l.length) (by omega) (by omega)
      rcases List.mem_append.1 h2 with h | h
      · have := (hm _).1 h; omega
      · simp at h; omega
    rw [List.length_append, List.length_singleton, List.range'_concat]
    conv_lhs => rw [ih, ha]
    simp

theorem columnTuples_getElem? {m : Bool} {D : Set (Nat × Nat)} {T : Tab} (h : Base m D T) (hD : Down D) (j k : Nat) :
    (T.columnTuples j)[k]? = T.get? (k + 1, j) := by
  obtain ⟨F, hF⟩ : ∃ F, T.items.filter (fun p => decide (p.1.2 = j)) = F := ⟨_, rfl⟩
  have hmem : ∀ p, p ∈ F ↔ T.get? p.1 = some p.2 ∧ p.1.2 = j := by
    intro p
    rw [← hF, List.mem_filter, decide_eq_true_eq, get?_eq_some]
  have hrows : F.map (fun p => p.1.1) = List.range' 1 F.length := by
    have hl : F.length = (F.map (fun p => p.1.1)).length := by simp
    rw [hl]
    have hmr : ∀ a, a ∈ F.map (fun p => p.1.1) ↔ (a, j) ∈ D := by
      intro a
      rw [List.mem_map]
      constructor
      · rintro ⟨⟨⟨r, c⟩, s⟩, hp, rfl⟩
        rw [hmem] at hp
        obtain ⟨h1, h2⟩ := hp
        simp only at h1 h2
        subst h2
        rw [← h.shape, h1]; rfl
      · intro ha
        exact ⟨((a, j), T.ent (a, j)), (hmem _).2 ⟨h.get? ha, rfl⟩, rfl⟩
    apply eq_range'
    · have h1 : (T.items.filter (fun p => decide (p.1.2 = j))).Pairwise (fun p q => boxLt p.1 q.1) :=
        (List.pairwise_map.1 T.sorted).sublist List.filter_sublist
      rw [hF] at h1
      rw [List.pairwise_map]
      refine List.Pairwise.imp_of_mem ?_ h1
      intro p q hp hq hpq
      have e1 := ((hmem p).1 hp).2
      have e2 := ((hmem q).1 hq).2
      unfold boxLt at hpq
      omega
    · intro a ha
      exact (hD.1 _ ((hmr a).1 ha)).1
    · intro a ha b hb hba
      rw [hmr] at ha ⊢
      exact hD.2 a j b j ha hb hba (hD.1 _ ha).2 le_rfl
  unfold columnTuples
  rw [hF, List.getElem?_map]
  by_cases hk : k < F.length
  · rw [List.getElem?_eq_getElem hk]
    have h1 : F[k] ∈ F := List.getElem_mem hk
    rw [hmem] at h1
    have h2 : (F.map (fun p => p.1.1))[k]'(by simpa using hk) = k + 1 := by
      simp only [hrows, List.getElem_range']; omega
    rw [List.getElem_map] at h2
    have h3 : F[k].1 = (k + 1, j) := Prod.ext h2 h1.2
    rw [h3] at h1
    rw [h1.1]; rfl
  · rw [List.getElem?_eq_none (by omega)]
    symm
    by_contra hc
    obtain ⟨s, hs⟩ := Option.ne_none_iff_exists'.1 hc
    have : (((k + 1, j), s) : (Nat × Nat) × List Int) ∈ F := (hmem _).2 ⟨hs, rfl⟩
    have h4 : k + 1 ∈ F.map (fun p => p.1.1) := List.mem_map.2 ⟨_, this, rfl⟩
    rw [hrows, List.mem_range'_1] at h4
    omega

theorem columnTuples_getD {m : Bool} {D : Set (Nat × Nat)} {T : Tab} (h : Base m D T) (hD : Down D) (j k : Nat) :
    (T.columnTuples j).getD k [] = T.ent (k + 1, j) := by
  rw [List.getD_eq_getElem?_getD, columnTuples_getElem? h hD]; rfl

theorem usedColumns_eq {m : Bool} {D : Set (Nat × Nat)} {T : Tab} (h : Base m D T) (hD : Down D) :
    ∃ w, T.usedColumns = List.range' 1 w ∧ ∀ j, (1, j) ∈ D ↔ 1 ≤ j ∧ j ≤ w := by
  have hmem : ∀ j, j ∈ T.usedColumns ↔ (1, j) ∈ D := by
    intro j
    unfold usedColumns
    rw [(List.perm_insertionSort _ _).mem_iff, List.mem_dedup, List.mem_map]
    constructor
    · rintro ⟨⟨⟨r, c⟩, s⟩, hp, rfl⟩
      rw [← get?_eq_some] at hp
      have : (r, c) ∈ D := by rw [← h.shape, hp]; rfl
      exact hD.2 r c 1 c this le_rfl (hD.1 _ this).1 (hD.1 _ this).2 le_rfl
    · intro hj
      exact ⟨((1, j), T.ent (1, j)), get?_eq_some.1 (h.get? hj), rfl⟩
  refine ⟨T.usedColumns.length, ?_, ?_⟩
  · apply eq_range'
    · have h1 : T.usedColumns.Pairwise (· ≤ ·) := List.pairwise_insertionSort _ _
      have h2 : T.usedColumns.Nodup := (List.perm_insertionSort _ _).nodup_iff.2 (List.nodup_dedup _)
      exact (h1.and h2).imp (fun ⟨a, b⟩ => lt_of_le_of_ne a b)
    · intro a ha; exact (hD.1 _ ((hmem a).1 ha)).2
    · intro a ha b hb hba
      rw [hmem] at ha ⊢
      exact hD.2 1 a 1 b ha le_rfl le_rfl hb hba
  · intro j
    rw [← hmem]
    have : T.usedColumns = List.range' 1 T.usedColumns.length := by
      apply eq_range'
      · have h1 : T.usedColumns.Pairwise (· ≤ ·) := List.pairwise_insertionSort _ _
        have h2 : T.usedColumns.Nodup := (List.perm_insertionSort _ _).nodup_iff.2 (List.nodup_dedup _)
        exact (h1.and h2).imp (fun ⟨a, b⟩ => lt_of_le_of_ne a b)
      · intro a ha; exact (hD.1 _ ((hmem a).1 ha)).2
      · intro a ha b hb hba
        rw [hmem] at ha ⊢
        exact hD.2 1 a 1 b ha le_rfl le_rfl hb hba
    rw [this, List.mem_range'_1]
    simp only [List.length_range']
    omega

theorem Down.convex {D : Set (Nat × Nat)} (hD : Down D) : Convex D := by
  intro i j i' j' k l h1 h2 h3 h4 h5 h6
  have := hD.1 _ h1
  exact hD.2 i' j' k l h2 (by simp only at this; omega) h4 (by simp only at this; omega) h6

theorem isCol_columnTuples {m : Bool} {n : Nat} {D : Set (Nat × Nat)} {T : Tab} (h : Semi m n D T) (hD : Down D) (j : Nat) :
    IsCol (T.columnTuples j) := by
  have hg := columnTuples_getElem? h.toBase hD j
  have hk : ∀ k (hk : k < (T.columnTuples j).length), (T.columnTuples j)[k] = T.ent (k + 1, j) ∧ (k + 1, j) ∈ D := by
    intro k hk
    have h1 := hg k
    rw [List.getElem?_eq_getElem hk] at h1
    have h2 : (k + 1, j) ∈ D := by rw [← h.shape, ← h1]; rfl
    rw [h.get? h2, Option.some.injEq] at h1
    exact ⟨h1, h2⟩
  constructor
  · intro B hB
    obtain ⟨k, hk', rfl⟩ := List.mem_iff_getElem.1 hB
    rw [(hk k hk').1]
    exact ⟨h.ne _ (hk k hk').2, h.srt _⟩
  · rw [List.pairwise_iff_getElem]
    intro k l hk' hl hkl v hv w hw
    rw [(hk k hk').1] at hv
    rw [(hk l hl).1] at hw
    have := h.colLt hD.convex (by omega : k + 1 < l + 1) hv hw
    omega

/-! ### decoding words of columns -/

theorem columnsLoop_eq (Cs : List (List (List Int))) : (∀ C ∈ Cs, IsCol C ∧ C ≠ []) → ∀ (j0 : Nat) (ans : Tab),
    (∀ r j, j0 ≤ j → ans.get? (r, j) = none) →
    ∃ U, columnsLoop j0 (Cs.map columnWord) ans = some U ∧ ∀ r j, U.get? (r, j) =
      if j < j0 then ans.get? (r, j) else if r = 0 then none else (Cs[j - j0]?).bind (fun C => C[r - 1]?) := by
  induction Cs with
  | nil =>
    intro _ j0 ans hans
    refine ⟨ans, rfl, ?_⟩
    intro r j
    by_cases h : j < j0
    · rw [if_pos h]
    · rw [if_neg h, hans r j (by omega)]; simp
  | cons C Cs ih =>
    intro hC j0 ans hans
    obtain ⟨U1, h1, h2⟩ := columnLoop_eq (hC C (by simp)).1 (hC C (by simp)).2 j0 ans (fun r => hans r j0 le_rfl)
    obtain ⟨U, h3, h4⟩ := ih (fun C' hC' => hC C' (by simp [hC'])) (j0 + 1) U1 (by
      intro r j hj
      rw [h2]
      simp only
      rw [if_neg (by omega), hans r j (by omega)])
    refine ⟨U, ?_, ?_⟩
    · rw [List.map_cons, columnsLoop, h1]; exact h3
    · intro r j
      rw [h4, h2]
      simp only
      rcases Nat.lt_trichotomy j j0 with h | h | h
      · rw [if_pos (by omega), if_neg (by omega), if_pos h]
      · subst h
        rw [if_pos (by omega), if_neg (by omega : ¬ j < j), Nat.sub_self]
        rw [if_pos rfl]
        simp only [List.getElem?_cons_zero, Option.bind_some]
      · rw [if_neg (by omega : ¬ j < j0 + 1), if_neg (by omega : ¬ j < j0)]
        have : j - j0 = j - (j0 + 1) + 1 := by omega
        rw [this, List.getElem?_cons_succ]

theorem from_cols (Cs : List (List (List Int))) (h : ∀ C ∈ Cs, IsCol C ∧ C ≠ []) :
    ∃ U, fromCrystalReadingWord? (Cs.map columnWord) = some U ∧ ∀ r j, U.get? (r, j) =
      if r = 0 ∨ j = 0 then none else (Cs[j - 1]?).bind (fun C => C[r - 1]?) := by
  obtain ⟨U, h1, h2⟩ := columnsLoop_eq Cs h 1 empty (fun r j _ => rfl)
  refine ⟨U, h1, ?_⟩
  intro r j
  rw [h2]
  by_cases hj : j = 0
  · subst hj; rw [if_pos (by omega), if_pos (Or.inr rfl)]; rfl
  · rw [if_neg (by omega)]
    by_cases hr : r = 0
    · rw [if_pos hr, if_pos (Or.inl hr)]
    · rw [if_neg hr, if_neg (by omega)]

/-- The columns of a tableau. -/
def cols (T : Tab) : List (List (List Int)) := T.usedColumns.map T.columnTuples

theorem crystalReadingWord_eq (T : Tab) : T.crystalReadingWord = (cols T).map columnWord := by
  simp [crystalReadingWord, cols, Function.comp_def]

theorem cols_ok {m : Bool} {n : Nat} {D : Set (Nat × Nat)} {T : Tab} (h : Semi m n D T) (hD : Down D) :
    ∀ C ∈ cols T, IsCol C ∧ C ≠ [] := by
  intro C hC
  obtain ⟨w, hw, hw'⟩ := usedColumns_eq h.toBase hD
  rw [cols, List.mem_map] at hC
  obtain ⟨j, hj, rfl⟩ := hC
  rw [hw, List.mem_range'_1] at hj
  refine ⟨isCol_columnTuples h hD j, ?_⟩
  intro h0
  have h1 := columnTuples_getElem? h.toBase hD j 0
  have h2 : (1, j) ∈ D := (hw' j).2 ⟨hj.1, by omega⟩
  rw [h0, h.get? h2] at h1
  simp at h1

theorem cols_getElem? {m : Bool} {D : Set (Nat × Nat)} {T : Tab} (h : Base m D T) (hD : Down D) {r j : Nat} (hr : 1 ≤ r) (hj : 1 ≤ j) :
    ((cols T)[j - 1]?).bind (fun C => C[r - 1]?) = T.get? (r, j) := by
  obtain ⟨w, hw, hw'⟩ := usedColumns_eq h hD
  rw [cols, hw, List.getElem?_map]
  by_cases h1 : j ≤ w
  · rw [List.getElem?_range' (by omega)]
    simp only [Option.map_some, Option.bind_some]
    have e1 : 1 + 1 * (j - 1) = j := by omega
    rw [e1, columnTuples_getElem? h hD]
    have e2 : r - 1 + 1 = r := by omega
    rw [e2]
  · rw [List.getElem?_eq_none (by simp; omega)]
    simp only [Option.map_none, Option.bind_none]
    symm
    apply h.get?_none
    intro hc
    have := (hw' j).1 (hD.2 r j 1 j hc le_rfl hr hj le_rfl)
    omega

/-- The round trip from tableaux of straight shape. -/
theorem from_crystalReadingWord {m : Bool} {n : Nat} {D : Set (Nat × Nat)} {T : Tab} (h : Semi m n D T) (hD : Down D) :
    fromCrystalReadingWord? T.crystalReadingWord = some T := by
  rw [crystalReadingWord_eq]
  obtain ⟨U, h1, h2⟩ := from_cols (cols T) (cols_ok h hD)
  rw [h1, Option.some.injEq]
  apply ext_get?
  rintro ⟨r, j⟩
  rw [h2]
  by_cases h0 : r = 0 ∨ j = 0
  · rw [if_pos h0, h.get?_none]
    intro hc
    have := hD.1 _ hc
    simp only at this; omega
  · rw [if_neg h0, cols_getElem? h.toBase hD (by omega) (by omega)]

/-- A list of columns with the shape of `D` comes from the tableau. -/
theorem cols_of_get? {m : Bool} {D : Set (Nat × Nat)} {T U : Tab} (hT : Base m D T) (hU : Base m D U) (hD : Down D)
    {Cs : List (List (List Int))} (hlen : Cs.length = (cols T).length)
    (h : ∀ r j, U.get? (r, j) = if r = 0 ∨ j = 0 then none else (Cs[j - 1]?).bind (fun C => C[r - 1]?)) : cols U = Cs := by
  obtain ⟨w, hw, hw'⟩ := usedColumns_eq hT hD
  obtain ⟨w1, hw1, hw1'⟩ := usedColumns_eq hU hD
  have hww : w1 = w := by
    have h1 := hw' w1
    have h2 := hw1' w1
    have h3 := hw' w
    have h4 := hw1' w
    rw [h1] at h2; rw [h3] at h4
    omega
  subst hww
  have hl : Cs.length = w1 := by rw [hlen, cols, hw]; simp
  apply List.ext_getElem?
  intro k
  by_cases hk : k < w1
  · rw [cols, hw1, List.getElem?_map, List.getElem?_range' hk, List.getElem?_eq_getElem (by omega)]
    simp only [Option.map_some, Option.some.injEq]
    apply List.ext_getElem?
    intro r
    have e1 : 1 + 1 * k = k + 1 := by omega
    rw [e1, columnTuples_getElem? hU hD, h, if_neg (by omega), Nat.add_sub_cancel, Nat.add_sub_cancel,
      List.getElem?_eq_getElem (by omega)]
    rfl
  · rw [List.getElem?_eq_none (by rw [cols, hw1]; simp; omega), List.getElem?_eq_none (by omega)]

/-! ### one column is replaced -/

theorem cols_mid {m : Bool} {D : Set (Nat × Nat)} {T : Tab} (h : Base m D T) (hD : Down D) {Cs1 Cs2 : List (List (List Int))}
    {C : List (List Int)} (hc : cols T = Cs1 ++ C :: Cs2) : C = T.columnTuples (Cs1.length + 1) := by
  obtain ⟨w, hw, hw'⟩ := usedColumns_eq h hD
  have h1 : (cols T)[Cs1.length]? = some C := by rw [hc]; simp
  have hl : Cs1.length < w := by
    have : (cols T).length = w := by rw [cols, hw]; simp
    rw [← this, hc]; simp
  rw [cols, hw, List.getElem?_map, List.getElem?_range' hl] at h1
  simp only [Option.map_some, Option.some.injEq] at h1
  rw [← h1]
  congr 1
  omega

theorem replace_col {n : Nat} {D : Set (Nat × Nat)} {T : Tab} (h : Semi true n D T) (hD : Down D) {Cs1 Cs2 : List (List (List Int))}
    {C C' : List (List Int)} (hc : cols T = Cs1 ++ C :: Cs2) (hC' : IsCol C') (hlen : C'.length = C.length)
    (hbd : ∀ k, ∀ x ∈ C'.getD k [], 1 ≤ x ∧ x ≤ n)
    (hleft : ∀ k, ∀ v ∈ T.ent (k + 1, Cs1.length), ∀ x ∈ C'.getD k [], v ≤ x)
    (hright : ∀ k, ∀ w ∈ T.ent (k + 1, Cs1.length + 2), ∀ x ∈ C'.getD k [], x ≤ w) :
    ∃ U, Semi true n D U ∧ U.crystalReadingWord = (Cs1 ++ C' :: Cs2).map columnWord := by
  have hC := cols_mid h.toBase hD hc
  have hok := cols_ok h hD
  rw [hc] at hok
  obtain ⟨U, h1, h2⟩ := from_cols (Cs1 ++ C' :: Cs2) (by
    intro B hB
    simp only [List.mem_append, List.mem_cons] at hB
    rcases hB with hB | hB | hB
    · exact hok B (by simp [hB])
    · subst hB
      refine ⟨hC', ?_⟩
      rw [← List.length_pos_iff, hlen, List.length_pos_iff]
      exact (hok C (by simp)).2
    · exact hok B (by simp [hB]))
  have hother : ∀ r j, j ≠ Cs1.length + 1 → U.get? (r, j) = T.get? (r, j) := by
    intro r j hj
    rw [h2]
    by_cases h0 : r = 0 ∨ j = 0
    · rw [if_pos h0, h.get?_none]
      intro hcc
      have := hD.1 _ hcc
      simp only at this; omega
    · rw [if_neg h0, ← cols_getElem? h.toBase hD (r := r) (j := j) (by omega) (by omega), hc]
      congr 1
      rcases Nat.lt_or_ge (j - 1) Cs1.length with hl | hl
      · rw [List.getElem?_append_left hl, List.getElem?_append_left hl]
      · rw [List.getElem?_append_right hl, List.getElem?_append_right hl]
        obtain ⟨d, hd⟩ : ∃ d, j - 1 - Cs1.length = d + 1 := ⟨j - 1 - Cs1.length - 1, by omega⟩
        rw [hd, List.getElem?_cons_succ, List.getElem?_cons_succ]
  have hcol : ∀ k, U.get? (k + 1, Cs1.length + 1) = C'[k]? := by
    intro k
    rw [h2, if_neg (by omega), Nat.add_sub_cancel, Nat.add_sub_cancel]
    simp
  have hzero : U.get? (0, Cs1.length + 1) = none := by rw [h2, if_pos (Or.inl rfl)]
  have hcolE : ∀ k, U.ent (k + 1, Cs1.length + 1) = C'.getD k [] := by
    intro k; rw [ent, hcol, List.getD_eq_getElem?_getD]
  have hotherE : ∀ r j, j ≠ Cs1.length + 1 → U.ent (r, j) = T.ent (r, j) := by
    intro r j hj; rw [ent, hother r j hj, ent]
  have hzeroE : U.ent (0, Cs1.length + 1) = [] := by rw [ent, hzero]; rfl
  have hCT : ∀ k, C[k]? = T.get? (k + 1, Cs1.length + 1) := by
    intro k; rw [hC, columnTuples_getElem? h.toBase hD]
  have hUS : Semi true n D U := by
    refine ⟨⟨?_, ?_, ?_, by simp⟩, ?_, ?_, ?_⟩
    · rintro ⟨r, j⟩
      rw [← h.shape]
      by_cases hj : j = Cs1.length + 1
      · subst hj
        cases r with
        | zero =>
          rw [hzero, h.get?_none]
          intro hcc
          have := hD.1 _ hcc
          simp only at this; omega
        | succ k =>
          rw [hcol, ← hCT]
          rw [Option.isSome_iff_ne_none, Option.isSome_iff_ne_none, ne_eq, ne_eq, List.getElem?_eq_none_iff, List.getElem?_eq_none_iff, hlen]
      · rw [hother r j hj]
    · rintro ⟨r, j⟩ hb
      by_cases hj : j = Cs1.length + 1
      · subst hj
        cases r with
        | zero => have := hD.1 _ hb; simp only at this; omega
        | succ k =>
          rw [← h.shape, ← hCT] at hb
          have hk : k < C'.length := by rw [hlen]; simpa using hb
          rw [hcolE, List.getD_eq_getElem _ _ hk]
          exact (hC'.1 _ (List.getElem_mem hk)).1
      · rw [hotherE r j hj]; exact h.ne _ hb
    · rintro ⟨r, j⟩
      by_cases hj : j = Cs1.length + 1
      · subst hj
        cases r with
        | zero => rw [hzeroE]; simp
        | succ k =>
          rw [hcolE]
          by_cases hk : k < C'.length
          · rw [List.getD_eq_getElem _ _ hk]
            exact (hC'.1 _ (List.getElem_mem hk)).2
          · rw [List.getD_eq_default _ _ (by omega)]; simp
      · rw [hotherE r j hj]; exact h.srt _
    · rintro ⟨r, j⟩ x hx
      by_cases hj : j = Cs1.length + 1
      · subst hj
        cases r with
        | zero => rw [hzeroE] at hx; simp at hx
        | succ k => rw [hcolE] at hx; exact hbd k x hx
      · rw [hotherE r j hj] at hx; exact h.bd _ x hx
    · intro r j v hv w hw
      by_cases hj : j = Cs1.length + 1
      · subst hj
        rw [hotherE r _ (by omega)] at hw
        cases r with
        | zero => rw [hzeroE] at hv; simp at hv
        | succ k => rw [hcolE] at hv; exact hright k w hw v hv
      · rw [hotherE r j hj] at hv
        by_cases hj' : j = Cs1.length
        · subst hj'
          cases r with
          | zero => rw [hzeroE] at hw; simp at hw
          | succ k => rw [hcolE] at hw; exact hleft k v hv w hw
        · rw [hotherE r _ (by omega)] at hw; exact h.row r j v hv w hw
    · intro r j v hv w hw
      by_cases hj : j = Cs1.length + 1
      · subst hj
        cases r with
        | zero => rw [hzeroE] at hv; simp at hv
        | succ k =>
          rw [hcolE] at hv hw
          exact hC'.getD_lt (Nat.lt_succ_self k) hv hw
      · rw [hotherE _ j hj] at hv hw; exact h.col r j v hv w hw
  refine ⟨U, hUS, ?_⟩
  rw [crystalReadingWord_eq, cols_of_get? h.toBase hUS.toBase hD (by rw [hc]; simp) h2]

theorem flatten_split (L : List (List Int)) : ∀ (u v : List Int) (a : Int), L.flatten = u ++ a :: v →
    ∃ L1 c1 c2 L2, L = L1 ++ (c1 ++ a :: c2) :: L2 ∧ u = L1.flatten ++ c1 ∧ v = c2 ++ L2.flatten := by
  induction L with
  | nil => intro u v a h; simp at h
  | cons c L ih =>
    intro u v a h
    rw [List.flatten_cons] at h
    rcases List.append_eq_append_iff.1 h with ⟨w, h1, h2⟩ | ⟨w, h1, h2⟩
    · obtain ⟨L1, c1, c2, L2, rfl, rfl, rfl⟩ := ih w v a h2
      exact ⟨c :: L1, c1, c2, L2, by simp, by rw [h1]; simp, rfl⟩
    · cases w with
      | nil =>
        obtain ⟨L1, c1, c2, L2, rfl, h3, rfl⟩ := ih [] v a (by simpa using h2.symm)
        exact ⟨c :: L1, c1, c2, L2, by simp, by rw [List.flatten_cons, List.append_assoc, ← h3, h1]; simp, rfl⟩
      | cons b w =>
        rw [List.cons_append, List.cons.injEq] at h2
        obtain ⟨rfl, rfl⟩ := h2
        exact ⟨[], u, w, L, by rw [h1]; simp, by simp, rfl⟩

/-- The changed letter, in terms of columns. -/
theorem args_split {Cs : List (List (List Int))} {w' : List (List Int)} {u v : List Int} {a b : Int}
    (hlen : w'.map List.length = (Cs.map columnWord).map List.length)
    (h1 : (Cs.map columnWord).flatten = u ++ a :: v) (h2 : w'.flatten = u ++ b :: v) :
    ∃ Cs1 C Cs2 c1 c2, Cs = Cs1 ++ C :: Cs2 ∧ columnWord C = c1 ++ a :: c2 ∧ u = (Cs1.map columnWord).flatten ++ c1 ∧
      v = c2 ++ (Cs2.map columnWord).flatten ∧ w' = Cs1.map columnWord ++ (c1 ++ b :: c2) :: Cs2.map columnWord := by
  obtain ⟨L1, c1, c2, L2, hL, rfl, rfl⟩ := flatten_split _ u v a h1
  obtain ⟨Cs1, Cs', rfl, e1, e2⟩ := List.map_eq_append_iff.1 hL
  obtain ⟨C, Cs2, rfl, e3, e4⟩ := List.map_eq_cons_iff.1 e2
  refine ⟨Cs1, C, Cs2, c1, c2, rfl, e3, by rw [e1], by rw [e4], ?_⟩
  rw [List.eq_iff_flatten_eq]
  constructor
  · rw [h2, e1, e4]; simp
  · rw [hlen, hL, e1, e4]; simp

theorem fMulti {n : Nat} {D : Set (Nat × Nat)} {T : Tab} {i : Int} (h : Semi true n D T) (hD : Down D) (hn : i + 1 ≤ n)
    {w' : List (List Int)} (hf : fArgs i T.crystalReadingWord = some w') : ∃ U, Semi true n D U ∧ U.crystalReadingWord = w' := by
  obtain ⟨hf1, hf2⟩ := (C13_cut i T.crystalReadingWord).2.2.1 w' hf
  obtain ⟨u, v, e1, e2, hv, hu⟩ := f_local hf1
  rw [crystalReadingWord_eq] at hf2 e1
  obtain ⟨Cs1, C, Cs2, c1, c2, hc, hw, rfl, rfl, rfl⟩ := args_split hf2 e1 e2
  have hCe := cols_mid h.toBase hD hc
  have hC : IsCol C := by rw [hCe]; exact isCol_columnTuples h hD _
  have hCT : ∀ k, C.getD k [] = T.ent (k + 1, Cs1.length + 1) := by
    intro k; rw [hCe, columnTuples_getD h.toBase hD]
  rw [sig_append] at hv hu
  obtain ⟨C', h1, h2, h3, h4⟩ := col_f hC hw (fun hh => hv (head?_append_ne hh)) (fun hh => hu (last?_append_ne hh))
  obtain ⟨U, hU, hU'⟩ := replace_col h hD hc h1 h3
    (by
      intro k x hx
      rcases h4 k x hx with hx | ⟨rfl, hx, _⟩
      · rw [hCT] at hx; exact h.bd _ x hx
      · rw [hCT] at hx; have := h.bd _ _ hx; omega)
    (by
      intro k z hz x hx
      rcases h4 k x hx with hx | ⟨rfl, hx, _⟩
      · rw [hCT] at hx; exact h.row _ _ z hz x hx
      · rw [hCT] at hx; have := h.row _ _ z hz i hx; omega)
    (by
      intro k z hz x hx
      rcases h4 k x hx with hx | ⟨rfl, hx, hx2, hx3⟩
      · rw [hCT] at hx; exact h.row _ _ x hx z hz
      · rw [hCT] at hx hx2 hx3
        by_contra hcc
        have hz1 := h.row _ _ i hx z hz
        have hz2 : z = i := by omega
        subst hz2
        have hs := hx3 (fun hh => by have := h.row _ _ _ hh z hz; omega)
        rw [hs, List.nil_append] at hv
        -- the next column
        have hne : Cs2 ≠ [] := by
          rintro rfl
          have h5 := cols_getElem? h.toBase hD (r := k + 1) (j := Cs1.length + 2) (by omega) (by omega)
          rw [hc, List.getElem?_eq_none (by simp)] at h5
          rw [ent, ← h5] at hz
          simp at hz
        obtain ⟨C2, Cs3, rfl⟩ := List.exists_cons_of_ne_nil hne
        have hc2 : cols T = (Cs1 ++ [C]) ++ C2 :: Cs3 := by rw [hc]; simp
        have hC2 := cols_mid h.toBase hD hc2
        have hC2T : ∀ k, C2.getD k [] = T.ent (k + 1, Cs1.length + 2) := by
          intro k; rw [hC2, columnTuples_getD h.toBase hD]; simp
        have hC2c : IsCol C2 := by rw [hC2]; exact isCol_columnTuples h hD _
        apply hv
        rw [List.map_cons, List.flatten_cons, sig_append]
        apply head?_append_ne
        apply first_sig_i hC2c (k := k) (by rw [hC2T]; exact hz)
        rw [hC2T]
        intro hh
        have hm : (k + 1 + 1, Cs1.length + 1) ∈ D := hD.2 _ _ _ _ (h.mem_D hh) (by omega) le_rfl (by omega) (by omega)
        obtain ⟨y, hy⟩ := List.exists_mem_of_ne_nil _ (h.ne _ hm)
        have h5 := h.col _ _ z hx y hy
        have h6 := h.row _ _ y hy _ hh
        have : y = z + 1 := by omega
        subst this
        exact hx2 hy)
  exact ⟨U, hU, by rw [hU', List.map_append, List.map_cons, h2]⟩

theorem eMulti {n : Nat} {D : Set (Nat × Nat)} {T : Tab} {i : Int} (h : Semi true n D T) (hD : Down D) (hn : 1 ≤ i)
    {w' : List (List Int)} (hf : eArgs i T.crystalReadingWord = some w') : ∃ U, Semi true n D U ∧ U.crystalReadingWord = w' := by
  obtain ⟨hf1, hf2⟩ := (C13_cut i T.crystalReadingWord).2.2.2 w' hf
  obtain ⟨u, v, e1, e2, hv, hu⟩ := e_local hf1
  rw [crystalReadingWord_eq] at hf2 e1
  obtain ⟨Cs1, C, Cs2, c1, c2, hc, hw, rfl, rfl, rfl⟩ := args_split hf2 e1 e2
  have hCe := cols_mid h.toBase hD hc
  have hC : IsCol C := by rw [hCe]; exact isCol_columnTuples h hD _
  have hCT : ∀ k, C.getD k [] = T.ent (k + 1, Cs1.length + 1) := by
    intro k; rw [hCe, columnTuples_getD h.toBase hD]
  rw [sig_append] at hv hu
  obtain ⟨C', h1, h2, h3, h4⟩ := col_e hC hw (fun hh => hv (head?_append_ne hh)) (fun hh => hu (last?_append_ne hh))
  obtain ⟨U, hU, hU'⟩ := replace_col h hD hc h1 h3
    (by
      intro k x hx
      rcases h4 k x hx with hx | ⟨rfl, hx, _⟩
      · rw [hCT] at hx; exact h.bd _ x hx
      · rw [hCT] at hx; have := h.bd _ _ hx; omega)
    (by
      intro k z hz x hx
      rcases h4 k x hx with hx | ⟨rfl, hx, hx2⟩
      · rw [hCT] at hx; exact h.row _ _ z hz x hx
      · rw [hCT] at hx hx2
        rcases hx2 with ⟨y, hy, hyi⟩ | ⟨hno, hs⟩
        · have := h.row _ _ z hz y hy; omega
        · by_contra hcc
          have hz1 := h.row _ _ z hz _ hx
          have hz2 : z = x + 1 := by omega
          subst hz2
          rw [hs, List.append_nil] at hu
          -- the previous column
          have hne : Cs1 ≠ [] := by
            rintro rfl
            have := hD.1 _ (h.mem_D hz)
            simp at this
          obtain ⟨Cs0, C0, rfl⟩ : ∃ Cs0 C0, Cs1 = Cs0 ++ [C0] := by
            rcases List.eq_nil_or_concat Cs1 with h0 | ⟨Cs0, C0, h0⟩
            · exact absurd h0 hne
            · exact ⟨Cs0, C0, by rw [h0, List.concat_eq_append]⟩
          have hc0 : cols T = Cs0 ++ C0 :: (C :: Cs2) := by rw [hc]; simp
          have hC0 := cols_mid h.toBase hD hc0
          have hC0T : ∀ k, C0.getD k [] = T.ent (k + 1, Cs0.length + 1) := by
            intro k; rw [hC0, columnTuples_getD h.toBase hD]
          have hC0c : IsCol C0 := by rw [hC0]; exact isCol_columnTuples h hD _
          have hlen0 : (Cs0 ++ [C0]).length = Cs0.length + 1 := by simp
          rw [hlen0] at hz hx hCT hCe
          apply hu
          rw [List.map_append, List.flatten_append, sig_append]
          apply last?_append_ne
          have e0 : (List.map columnWord [C0]).flatten = columnWord C0 := by simp
          rw [e0]
          apply last_sig_j hC0c (k := k) (by rw [hC0T]; exact hz)
          intro l hl hh
          subst hl
          rw [hC0T] at hh
          have hm : (l + 1, Cs0.length + 1 + 1) ∈ D := hD.2 _ _ _ _ (h.mem_D hx) (by omega) (by omega) (by omega) le_rfl
          obtain ⟨y, hy⟩ := List.exists_mem_of_ne_nil _ (h.ne _ hm)
          have h5 := h.col _ _ y hy _ hx
          have h6 := h.row _ _ _ hh y hy
          have hyx : y = x := by omega
          subst hyx
          rw [← hCT] at hy
          have hl : l < C.length := by
            by_contra hcc
            rw [List.getD_eq_default _ _ (by omega)] at hy; simp at hy
          rw [List.getD_eq_getElem _ _ hl] at hy
          exact hno _ (List.getElem_mem hl) hy)
    (by
      intro k z hz x hx
      rcases h4 k x hx with hx | ⟨rfl, hx, _⟩
      · rw [hCT] at hx; exact h.row _ _ x hx z hz
      · rw [hCT] at hx; have := h.row _ _ _ hx z hz; omega)
  exact ⟨U, hU, by rw [hU', List.map_append, List.map_cons, h2]⟩

end Verif.Tab
