import Verif.Lemmas.Unprime
import Verif.Lemmas.Insertion

/-!
# What `setvalued_column_insert` does to a tableau
-/

attribute [-simp] List.getD_eq_getElem?_getD

namespace Verif.Unprime

open Verif

theorem content_insertBox (b : Nat × Nat) (s : List Int) (l : List ((Nat × Nat) × List Int))
    (h : (l.map Prod.fst).Pairwise boxLt) :
    Multiset.ofList ((Tab.insertBox b s l).flatMap Prod.snd) + Multiset.ofList ((Dict.lookup b l).getD []) =
      Multiset.ofList (l.flatMap Prod.snd) + Multiset.ofList s := by
  induction l with
  | nil => simp [Tab.insertBox, Dict.lookup]
  | cons a t ih =>
    obtain ⟨b', s'⟩ := a
    rw [List.map_cons, List.pairwise_cons] at h
    rw [Tab.insertBox, Dict.lookup]
    split_ifs with h1 h2
    · simp only [List.flatMap_cons, Option.getD_some, ← Multiset.coe_add]
      abel
    · have hn : Dict.lookup b t = none := by
        cases hl : Dict.lookup b t with
        | none => rfl
        | some s2 =>
          have hm := Dict.lookup_mem hl
          have := h.1 b (List.mem_map.2 ⟨_, hm, rfl⟩)
          exact absurd (Tab.boxLt_trans h2 this) (Tab.boxLt_irrefl b)
      rw [hn]
      simp only [List.flatMap_cons, Option.getD_none, ← Multiset.coe_add, Multiset.coe_nil]
      abel
    · simp only [List.flatMap_cons, ← Multiset.coe_add]
      rw [add_assoc, ih h.2, add_assoc]

theorem content_set (T : Tab) (b : Nat × Nat) (s : List Int) :
    Multiset.ofList (T.set b s).values + Multiset.ofList (T.ent b) = Multiset.ofList T.values + Multiset.ofList s :=
  content_insertBox b s T.items T.sorted

/-- The entries of `n` boxes of a column below the row `i`. -/
def colSum (T : Tab) (c : Nat) : Nat → Nat → Multiset Int
  | _, 0 => 0
  | i, n + 1 => Multiset.ofList (T.ent (i + 1, c)) + colSum T c (i + 1) n

theorem colSum_congr {T U : Tab} {c : Nat} (n : Nat) : ∀ i, (∀ k, i < k → T.ent (k, c) = U.ent (k, c)) → colSum T c i n = colSum U c i n := by
  induction n with
  | zero => intro i _; rfl
  | succ n ih =>
    intro i h
    rw [colSum, colSum, h (i + 1) (by omega), ih (i + 1) (fun k hk => h k (by omega))]

theorem colSum_succ (T : Tab) (c : Nat) (n : Nat) : ∀ i, colSum T c i (n + 1) = colSum T c i n + Multiset.ofList (T.ent (i + n + 1, c)) := by
  induction n with
  | zero => intro i; simp [colSum]
  | succ n ih =>
    intro i
    rw [colSum, ih (i + 1), colSum, show i + 1 + n + 1 = i + (n + 1) + 1 by omega, ← add_assoc]

theorem coe_decode (s : List Int) : Multiset.ofList (decode s) = (Multiset.ofList s).map dec := by
  rw [Multiset.map_coe]; exact Multiset.coe_eq_coe.2 (decode_perm s)

theorem map_coe_encode (s : List Int) : (Multiset.ofList (encode s)).map dec = Multiset.ofList s := by
  rw [Multiset.map_coe]; exact Multiset.coe_eq_coe.2 (map_dec_encode s)

theorem cont_cons (b : List Int) (t : List (List Int)) : cont (b :: t) = Multiset.ofList b + cont t := by
  unfold cont; rw [List.map_cons, List.sum_cons]

theorem setColumn_content (c : Nat) (boxes : List (List Int)) : ∀ (i : Nat) (T : Tab),
    Multiset.ofList (setColumn c boxes i T).values + colSum T c i boxes.length =
      Multiset.ofList T.values + (cont boxes).map dec := by
  induction boxes with
  | nil => intro i T; simp [setColumn, colSum, cont]
  | cons b t ih =>
    intro i T
    rw [setColumn, List.length_cons, colSum, cont_cons, Multiset.map_add, ← coe_decode]
    have h1 := ih (i + 1) (T.set (i + 1, c) (decode b))
    rw [colSum_congr (U := T) t.length (i + 1) (by
      intro k hk
      rw [Tab.ent_set, if_neg (by
        intro h
        have := congrArg Prod.fst h
        dsimp only at this
        omega)])] at h1
    have h2 := content_set T (i + 1, c) (decode b)
    rw [add_left_comm, h1, ← add_assoc, add_comm (Multiset.ofList (T.ent (i + 1, c))), h2, add_assoc]

theorem setColumn_get? (c : Nat) (boxes : List (List Int)) : ∀ (i : Nat) (T : Tab) (b : Nat × Nat),
    (setColumn c boxes i T).get? b =
      if b.2 = c ∧ i < b.1 ∧ b.1 ≤ i + boxes.length then some (decode (boxes.getD (b.1 - i - 1) [])) else T.get? b := by
  induction boxes with
  | nil =>
    intro i T b
    rw [setColumn, if_neg (by simp only [List.length_nil]; omega)]
  | cons x t ih =>
    intro i T b
    rw [setColumn, ih, Tab.get?_set]
    obtain ⟨r, k⟩ := b
    simp only [List.length_cons, Prod.mk.injEq]
    by_cases hk : k = c
    · by_cases h1 : r = i + 1
      · subst h1
        rw [if_neg (by omega), if_pos ⟨rfl, hk⟩, if_pos ⟨hk, by omega, by omega⟩, show i + 1 - i - 1 = 0 by omega, List.getD_cons_zero]
      · by_cases h2 : i + 1 < r ∧ r ≤ i + 1 + t.length
        · rw [if_pos ⟨hk, h2⟩, if_pos ⟨hk, by omega, by omega⟩, show r - i - 1 = (r - (i + 1) - 1) + 1 by omega, List.getD_cons_succ]
        · rw [if_neg (by tauto), if_neg (by tauto), if_neg (by omega)]
    · rw [if_neg (by tauto), if_neg (by tauto), if_neg (by tauto)]

theorem cont_column (T : Tab) (c : Nat) (n : Nat) : ∀ i,
    (cont ((List.range' i n).map (fun k => encode ((T.get? (k + 1, c)).getD [])))).map dec = colSum T c i n := by
  induction n with
  | zero => intro i; simp [cont, colSum]
  | succ n ih =>
    intro i
    rw [List.range'_succ, List.map_cons, cont_cons, Multiset.map_add, map_coe_encode, ih, colSum]
    rfl

theorem mapM_some {α β : Type} (f : α → Option β) (l : List α) (h : ∀ x ∈ l, ∃ y, f x = some y) :
    ∃ r, l.mapM f = some r ∧ r.length = l.length := by
  induction l with
  | nil => exact ⟨[], rfl, rfl⟩
  | cons a t ih =>
    obtain ⟨r, hr, hl⟩ := ih (fun x hx => h x (List.mem_cons_of_mem _ hx))
    obtain ⟨y, hy⟩ := h a (List.mem_cons_self ..)
    refine ⟨y :: r, ?_, by simp [hl]⟩
    rw [List.mapM_cons, hy, hr]
    rfl

theorem countRows_spec (T : Tab) (c : Nat) (k : Nat) : ∀ i, T.maxRow < i + k → 1 ≤ i → (∀ r, 1 ≤ r → r ≤ i → T.has (r, c) = true) →
    1 ≤ countRows T c k i ∧ T.has (countRows T c k i + 1, c) = false ∧ ∀ r, 1 ≤ r → r ≤ countRows T c k i → T.has (r, c) = true := by
  induction k with
  | zero =>
    intro i hi h1 h
    rw [countRows]
    refine ⟨h1, ?_, h⟩
    by_contra hc
    rw [Bool.not_eq_false] at hc
    have := Tab.le_maxRow hc
    dsimp only at this
    omega
  | succ k ih =>
    intro i hi h1 h
    rw [countRows]
    split_ifs with hc
    · refine ih (i + 1) (by omega) (by omega) ?_
      intro r hr hr'
      rcases Nat.lt_or_ge i r with h2 | h2
      · rw [show r = i + 1 by omega]; exact hc
      · exact h r hr h2
    · exact ⟨h1, by simpa using hc, h⟩

/-- No box of the tableau is empty. -/
def Full (T : Tab) : Prop := ∀ b s, T.get? b = some s → s ≠ []

theorem columnInsert_spec (T : Tab) (s : List Int) (c : Nat) (hT : Full T) (hs : s ≠ []) :
    ∃ T' r, columnInsert T s c = some (T', r) ∧
      Multiset.ofList T'.values + Multiset.ofList r = Multiset.ofList T.values + Multiset.ofList s ∧
      Full T' ∧ (∀ b : Nat × Nat, b.2 ≠ c → T'.get? b = T.get? b) ∧ (∀ b, T.has b = true → T'.has b = true) ∧
      (∀ k, T'.has (k, c) = true → T.has (k, c) = true ∨ k = 1 ∨ T.has (k - 1, c) = true) ∧
      (T.has (1, c) = false → r = []) := by
  unfold columnInsert
  split_ifs with h1
  · dsimp only
    obtain ⟨hn1, hn2, hn3⟩ := countRows_spec T c T.maxRow 1 (by omega) (le_refl _) (by
      intro r hr hr'
      rw [show r = 1 by omega]; exact h1)
    obtain ⟨n, hn⟩ : ∃ n, countRows T c T.maxRow 1 = n := ⟨_, rfl⟩
    rw [hn] at hn1 hn2 hn3 ⊢
    obtain ⟨bound, hb, hbl⟩ := mapM_some (boundAt T c) (List.range (n + 1)) (by
      intro x _
      unfold boundAt
      cases hx : T.get? (x + 1, c - 1) with
      | none => exact ⟨0, rfl⟩
      | some l =>
        dsimp only
        exact ⟨_, List.getLast?_eq_some_getLast (encode_ne_nil (hT _ _ hx))⟩)
    rw [List.length_range] at hbl
    rw [hb]
    dsimp only
    obtain ⟨boxes, hbx⟩ : ∃ boxes, (List.range n).map (fun i => encode ((T.get? (i + 1, c)).getD [])) = boxes := ⟨_, rfl⟩
    rw [hbx]
    have hlen : boxes.length = n := by rw [← hbx]; simp
    have hbne : ∀ b ∈ boxes, b ≠ [] := by
      intro b hb
      rw [← hbx] at hb
      obtain ⟨i, hi, rfl⟩ := List.mem_map.1 hb
      rw [List.mem_range] at hi
      have := hn3 (i + 1) (by omega) (by omega)
      unfold Tab.has at this
      obtain ⟨l, hl⟩ := Option.isSome_iff_exists.1 this
      rw [hl]
      exact encode_ne_nil (hT _ _ hl)
    obtain ⟨hg, hgv⟩ := bumps_fold boxes (encode s) (Tab.sortInts_sorted _) [] ⟨List.Pairwise.nil, by simp⟩ (by simp) (by simp)
    obtain ⟨B, A, hr1, hr2, hr3, hr4⟩ := bumps_run bound boxes (by omega) _ boxes [] hg hbne (fun _ _ _ _ => rfl) (Or.inl rfl)
    rw [hr1]
    rw [hgv] at hr2
    refine ⟨_, _, rfl, ?_, ?_, ?_, ?_, ?_, ?_⟩
    · have hc := setColumn_content c B 0 T
      have hcol : colSum T c 0 B.length = colSum T c 0 n := by
        rcases hr4 with h | h
        · rw [h, hlen]
        · rw [h, hlen, colSum_succ]
          have : T.ent (0 + n + 1, c) = [] := by
            rw [Nat.zero_add]
            unfold Tab.has at hn2
            unfold Tab.ent
            rw [Option.isSome_eq_false_iff, Option.isNone_iff_eq_none] at hn2
            rw [hn2]; rfl
          rw [this]; simp
      have h2 := congrArg (Multiset.map dec) hr2
      have h3 := cont_column T c n 0
      rw [← List.range_eq_range', hbx] at h3
      simp only [Multiset.map_add, bumpVals, List.map_nil, List.sum_nil, zero_add, Multiset.coe_nil, add_zero] at h2
      rw [h3, map_coe_encode, ← coe_decode] at h2
      rw [hcol] at hc
      dsimp only
      have : Multiset.ofList (setColumn c B 0 T).values + Multiset.ofList (decode A) + colSum T c 0 n =
          Multiset.ofList T.values + Multiset.ofList s + colSum T c 0 n := by
        rw [add_right_comm, hc, add_assoc, h2]; abel
      exact add_right_cancel this
    · intro b l hl
      dsimp only at hl
      rw [setColumn_get?] at hl
      split_ifs at hl with h
      · rw [Option.some.injEq] at hl
        rw [← hl]
        apply decode_ne_nil
        rw [List.getD_eq_getElem _ _ (by omega)]
        exact hr3 _ (List.getElem_mem _)
      · exact hT b l hl
    · intro b hb
      dsimp only
      rw [setColumn_get?, if_neg (by tauto)]
    · intro b hb
      unfold Tab.has at hb ⊢
      dsimp only
      rw [setColumn_get?]
      split_ifs
      · rfl
      · exact hb
    · intro k hk
      unfold Tab.has at hk
      dsimp only at hk
      rw [setColumn_get?] at hk
      split_ifs at hk with h
      · dsimp only at h
        rcases Nat.lt_or_ge n k with h2 | h2
        · right; right
          rw [show k - 1 = n by omega]
          exact hn3 n hn1 (le_refl _)
        · left; exact hn3 k (by omega) h2
      · left; exact hk
    · intro h
      rw [h] at h1
      exact absurd h1 (by simp)
  · rw [Bool.not_eq_true] at h1
    refine ⟨_, _, rfl, ?_, ?_, ?_, ?_, ?_, fun _ => rfl⟩
    · have := content_set T (1, c) (Tab.sortInts s)
      have he : T.ent (1, c) = [] := by
        unfold Tab.has at h1
        unfold Tab.ent
        rw [Option.isSome_eq_false_iff, Option.isNone_iff_eq_none] at h1
        rw [h1]; rfl
      rw [he] at this
      rw [this]
      rw [Multiset.coe_eq_coe.2 (Tab.sortInts_perm' s)]
    · intro b l hl
      rw [Tab.get?_set] at hl
      split_ifs at hl with h
      · rw [Option.some.injEq] at hl
        rw [← hl]
        intro h0
        have := (Tab.sortInts_perm' s).length_eq
        rw [h0] at this
        exact hs (List.length_eq_zero_iff.1 this.symm)
      · exact hT b l hl
    · intro b hb
      rw [Tab.get?_set, if_neg (by rintro rfl; exact hb rfl)]
    · intro b hb
      unfold Tab.has at hb ⊢
      rw [Tab.get?_set]
      split_ifs
      · rfl
      · exact hb
    · intro k hk
      unfold Tab.has at hk
      rw [Tab.get?_set] at hk
      split_ifs at hk with h
      · right; left
        exact congrArg Prod.fst h
      · left; exact hk

theorem pushRight_spec (M : Nat) (k : Nat) : ∀ (T : Tab) (s : List Int) (j : Nat), Full T → M + 1 < j + k → 1 ≤ k →
    (∀ b, T.has b = true → b.2 ≤ M ∨ b.2 < j) →
    ∃ T', pushRight k T s j = some T' ∧
      Multiset.ofList T'.values = Multiset.ofList T.values + Multiset.ofList s ∧ Full T' ∧
      (∀ b : Nat × Nat, b.2 < j → T'.get? b = T.get? b) ∧ (∀ b, T.has b = true → T'.has b = true) := by
  induction k with
  | zero => intro T s j _ _ h; omega
  | succ k ih =>
    intro T s j hT hM _ hcol
    cases s with
    | nil => exact ⟨T, by rw [pushRight], by simp, hT, fun _ _ => rfl, fun _ h => h⟩
    | cons a s =>
      obtain ⟨T1, r, h1, h2, h3, h4, h5, h6, h7⟩ := columnInsert_spec T (a :: s) j hT (by simp)
      rw [pushRight, h1, Option.bind_some]
      rcases Nat.eq_zero_or_pos k with hk | hk
      · have hr : r = [] := by
          apply h7
          by_contra hc
          rw [Bool.not_eq_false] at hc
          have := hcol _ hc
          dsimp only at this
          omega
        subst hr
        refine ⟨T1, by cases k <;> rw [pushRight], ?_, h3, fun b hb => h4 b (by omega), h5⟩
        simpa using h2
      · obtain ⟨T2, g1, g2, g3, g4, g5⟩ := ih T1 r (j + 1) h3 (by omega) hk (by
          intro b hb
          by_cases hbj : b.2 = j
          · right; omega
          · have : T.has b = true := by
              unfold Tab.has at hb ⊢
              rwa [h4 b hbj] at hb
            rcases hcol b this with h | h
            · left; exact h
            · right; omega)
        refine ⟨T2, g1, by rw [g2, h2], g3, ?_, fun b hb => g5 b (h5 b hb)⟩
        intro b hb
        rw [g4 b (by omega), h4 b (by omega)]

end Verif.Unprime
