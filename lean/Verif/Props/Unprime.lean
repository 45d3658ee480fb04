import Verif.Lemmas.UnprimeTab

/-!
# C121: `unprime_diagonal` keeps the weight and settles the diagonal
-/

attribute [-simp] List.getD_eq_getElem?_getD

namespace Verif.Unprime

open Verif

/-- The specification of a settled box: all its entries are positive, or it has one negative entry, whose absolute value is
larger than all the other (positive) entries. -/
def Settled (s : List Int) : Prop :=
  (∀ x ∈ s, 0 < x) ∨ ∃ (v : Int) (w : List Int), s.Perm (-v :: w) ∧ 0 < v ∧ ∀ x ∈ w, 0 < x ∧ x < v

/-- The multiset of the absolute values of the entries, which determines the weight. -/
def absValues (T : Tab) : Multiset Nat := (Multiset.ofList T.values).map Int.natAbs

/-- No entry of the tableau is zero. -/
def NoZero (T : Tab) : Prop := ∀ b s, T.get? b = some s → (0 : Int) ∉ s

theorem noZero_iff (T : Tab) : NoZero T ↔ 0 ∉ absValues T := by
  have hv : ∀ x, x ∈ T.values ↔ ∃ b, x ∈ T.ent b := fun x => Tab.mem_entries
  unfold absValues NoZero
  rw [Multiset.mem_map]
  simp only [Multiset.mem_coe, Int.natAbs_eq_zero, exists_eq_right, hv, not_exists]
  constructor
  · intro h b hb
    cases hg : T.get? b with
    | none =>
      rw [Tab.ent_nil_of_none hg] at hb
      simp at hb
    | some s =>
      rw [Tab.ent_of_get? hg] at hb
      exact h b s hg hb
  · intro h b s hs h0
    apply h b
    rw [Tab.ent_of_get? hs]
    exact h0

theorem split_signs (u : List Int) (h0 : (0 : Int) ∉ u) :
    Multiset.ofList u = Multiset.ofList (u.filter (fun x => decide (x < 0))) + Multiset.ofList (u.filter (fun x => decide (0 < x))) := by
  induction u with
  | nil => simp
  | cons a t ih =>
    have ha : a ≠ 0 := fun h => h0 (by rw [h]; exact List.mem_cons_self ..)
    have := ih (fun h => h0 (List.mem_cons_of_mem _ h))
    rw [← Multiset.cons_coe, this, List.filter_cons, List.filter_cons]
    rcases lt_or_gt_of_ne ha with h | h
    · rw [if_pos (by simpa using h), if_neg (by simp; omega), ← Multiset.cons_coe, Multiset.cons_add]
    · rw [if_neg (by simp; omega), if_pos (by simpa using h), ← Multiset.cons_coe, Multiset.add_cons]

theorem settled_not_moved (u : List Int) (v0 : Int) (vs : List Int)
    (hv : (v0 :: vs).Perm ((u.filter (fun x => decide (x < 0))).map (fun x => -x))) (h : Settled u) :
    vs = [] ∧ ∀ x ∈ u, 0 < x → x < v0 := by
  rcases h with h | ⟨v, w, hp, hv0, hw⟩
  · exfalso
    have hm : v0 ∈ (u.filter (fun x => decide (x < 0))).map (fun x => -x) := hv.subset (List.mem_cons_self ..)
    obtain ⟨x, hx, _⟩ := List.mem_map.1 hm
    rw [List.mem_filter, decide_eq_true_eq] at hx
    have := h x hx.1
    omega
  · have hf := hp.filter (fun x => decide (x < 0))
    rw [List.filter_cons, if_pos (by simp; omega)] at hf
    have hw0 : w.filter (fun x => decide (x < 0)) = [] := by
      rw [List.filter_eq_nil_iff]
      intro x hx hd
      rw [decide_eq_true_eq] at hd
      have := (hw x hx).1
      omega
    rw [hw0] at hf
    have h2 := hv.trans (hf.map (fun x => -x))
    simp only [List.map_cons, List.map_nil, neg_neg] at h2
    have h3 := List.perm_singleton.1 h2
    rw [List.cons.injEq] at h3
    obtain ⟨rfl, h4⟩ := h3
    refine ⟨h4, ?_⟩
    intro x hx hx0
    rcases List.mem_cons.1 (hp.subset hx) with h5 | h5
    · omega
    · exact (hw x h5).2

/-- The entries of `T'` are those of `T`, except that at most `n` entries `-v < 0` have become `v`. -/
def Flips (n : Nat) (T T' : Tab) : Prop :=
  ∃ vs : List Int, vs.length ≤ n ∧ (∀ v ∈ vs, 0 < v) ∧
    Multiset.ofList T'.values + Multiset.ofList (vs.map (fun x => -x)) = Multiset.ofList T.values + Multiset.ofList vs

theorem Flips.trans {n m : Nat} {T U V : Tab} (h : Flips n T U) (h' : Flips m U V) : Flips (n + m) T V := by
  obtain ⟨a, a1, a2, a3⟩ := h
  obtain ⟨b, b1, b2, b3⟩ := h'
  refine ⟨a ++ b, by rw [List.length_append]; omega, ?_, ?_⟩
  · intro v hv
    rcases List.mem_append.1 hv with h | h
    · exact a2 v h
    · exact b2 v h
  · rw [List.map_append, ← Multiset.coe_add, ← Multiset.coe_add, add_comm (Multiset.ofList (a.map _)), ← add_assoc, b3, add_right_comm, a3,
      add_assoc]

theorem Flips.mono {n m : Nat} {T U : Tab} (h : Flips n T U) (hnm : n ≤ m) : Flips m T U := by
  obtain ⟨a, a1, a2⟩ := h
  exact ⟨a, by omega, a2⟩

theorem diagStep_spec (T : Tab) (i : Nat) (hi : 1 ≤ i) (hT : Full T) (h0 : NoZero T) (hh : T.has (i, i) = true) :
    ∃ T', diagStep T i = some T' ∧ absValues T' = absValues T ∧ Full T' ∧
      (∀ b : Nat × Nat, b.2 ≤ i → b ≠ (i, i) → T'.get? b = T.get? b) ∧ (∀ b, T.has b = true → T'.has b = true) ∧
      Settled (T'.ent (i, i)) ∧ (Settled (T.ent (i, i)) → T' = T) ∧
      (¬ Settled (T.ent (i, i)) → ∃ v, -v ∈ T.ent (i, i) ∧ 0 < v ∧ (∀ y ∈ T.ent (i, i), y < 0 → v ≤ -y) ∧
        (T'.ent (i, i)).Perm (v :: (T.ent (i, i)).filter (fun x => decide (0 < x ∧ x < v)))) ∧
      Flips 1 T T' := by
  obtain ⟨u, hu⟩ := Tab.has_iff.1 hh
  have hent : T.ent (i, i) = u := Tab.ent_of_get? hu
  have hun := hT _ _ hu
  have hu0 := h0 _ _ hu
  rw [hent]
  have stay : Settled u → ∃ T', some T = some T' ∧ absValues T' = absValues T ∧ Full T' ∧
      (∀ b : Nat × Nat, b.2 ≤ i → b ≠ (i, i) → T'.get? b = T.get? b) ∧ (∀ b, T.has b = true → T'.has b = true) ∧
      Settled (T'.ent (i, i)) ∧ (Settled u → T' = T) ∧
      (¬ Settled u → ∃ v, -v ∈ u ∧ 0 < v ∧ (∀ y ∈ u, y < 0 → v ≤ -y) ∧
        (T'.ent (i, i)).Perm (v :: u.filter (fun x => decide (0 < x ∧ x < v)))) ∧ Flips 1 T T' :=
    fun h => ⟨T, rfl, rfl, hT, fun _ _ _ => rfl, fun _ h => h, by rw [hent]; exact h, fun _ => rfl, fun hn => absurd h hn,
      [], by simp, by simp, rfl⟩
  unfold diagStep
  rw [hu]
  dsimp only
  have hneg := hu0
  split_ifs with hc
  · obtain ⟨V, hV⟩ : ∃ V, Tab.sortInts ((u.filter (fun x => decide (x < 0))).map (fun x => -x)) = V := ⟨_, rfl⟩
    obtain ⟨W, hW⟩ : ∃ W, Tab.sortInts (u.filter (fun x => decide (0 < x))) = W := ⟨_, rfl⟩
    have hVp := Tab.sortInts_perm' ((u.filter (fun x => decide (x < 0))).map (fun x => -x))
    have hVs := Tab.sortInts_sorted ((u.filter (fun x => decide (x < 0))).map (fun x => -x))
    have hWp := Tab.sortInts_perm' (u.filter (fun x => decide (0 < x)))
    rw [hV] at hVp hVs ⊢
    rw [hW] at hWp ⊢
    have hWm : ∀ x, x ∈ W ↔ x ∈ u ∧ 0 < x := by
      intro x
      rw [hWp.mem_iff, List.mem_filter, decide_eq_true_eq]
    have hVm : ∀ x, x ∈ V ↔ -x ∈ u ∧ 0 < x := by
      intro x
      rw [hVp.mem_iff, List.mem_map]
      constructor
      · rintro ⟨y, hy, rfl⟩
        rw [List.mem_filter, decide_eq_true_eq] at hy
        rw [neg_neg]
        exact ⟨hy.1, by omega⟩
      · rintro ⟨h1, h2⟩
        exact ⟨-x, by rw [List.mem_filter, decide_eq_true_eq]; exact ⟨h1, by omega⟩, neg_neg x⟩
    have hsplit := split_signs u hu0
    have hVmap : (V.map (fun x => -x)).Perm (u.filter (fun x => decide (x < 0))) := by
      have := hVp.map (fun x => -x)
      rw [List.map_map] at this
      have hid : ((fun x : Int => -x) ∘ fun x => -x) = id := by funext x; simp
      rwa [hid, List.map_id] at this
    rw [← Multiset.coe_eq_coe.2 hVmap, ← Multiset.coe_eq_coe.2 hWp] at hsplit
    cases V with
    | nil =>
      exfalso
      obtain ⟨x, hx, hx0⟩ := hc.2
      have := (hVm (-x)).2 ⟨by rwa [neg_neg], by omega⟩
      simp at this
    | cons v0 vs =>
      dsimp only
      have hv0 := (hVm v0).1 (List.mem_cons_self ..)
      split_ifs with hc1 hc2
      · exfalso
        obtain ⟨rfl, rfl⟩ := hc1
        have := congrArg Multiset.card hsplit
        simp at this
        omega
      · apply stay
        obtain ⟨rfl, hlt⟩ := hc2
        right
        refine ⟨v0, W, ?_, hv0.2, fun x hx => ⟨((hWm x).1 hx).2, hlt x hx⟩⟩
        rw [← Multiset.coe_eq_coe, hsplit, Multiset.coe_add]
        rfl
      · have hns : ¬ Settled u := by
          intro hset
          obtain ⟨h1, h2⟩ := settled_not_moved u v0 vs hVp hset
          exact hc2 ⟨h1, fun x hx => h2 x ((hWm x).1 hx).1 ((hWm x).1 hx).2⟩
        obtain ⟨N, hN⟩ : ∃ N, Tab.sortInts (v0 :: W.filter (fun x => decide (x < v0))) = N := ⟨_, rfl⟩
        obtain ⟨A, hA⟩ : ∃ A, Tab.sortInts (vs.map (fun x => -x) ++ W.filter (fun x => decide (v0 ≤ x))) = A := ⟨_, rfl⟩
        have hNp := Tab.sortInts_perm' (v0 :: W.filter (fun x => decide (x < v0)))
        have hAp := Tab.sortInts_perm' (vs.map (fun x => -x) ++ W.filter (fun x => decide (v0 ≤ x)))
        rw [hN] at hNp ⊢
        rw [hA] at hAp ⊢
        have hNne : N ≠ [] := by
          intro h
          rw [h] at hNp
          simpa using hNp.length_eq
        have hF : Full (T.set (i, i) N) := by
          intro b s hs
          rw [Tab.get?_set] at hs
          split_ifs at hs with hb
          · rw [Option.some.injEq] at hs
            rw [← hs]; exact hNne
          · exact hT b s hs
        obtain ⟨T', g1, g2, g3, g4, g5⟩ := pushRight_spec T.maxColumn (T.maxColumn + 1) (T.set (i, i) N) A (i + 1) hF
          (by omega) (by omega) (by
            intro b hb
            unfold Tab.has at hb
            rw [Tab.get?_set] at hb
            split_ifs at hb with h
            · right; rw [h]; dsimp only; omega
            · left; exact Tab.le_maxColumn hb)
        have hii : T'.ent (i, i) = N := by
          apply Tab.ent_of_get?
          rw [g4 (i, i) (by dsimp only; omega), Tab.get?_set, if_pos rfl]
        have hW2 : Multiset.ofList W = Multiset.ofList (W.filter (fun x => decide (x < v0))) + Multiset.ofList (W.filter (fun x => decide (v0 ≤ x))) := by
          rw [Multiset.coe_add, Multiset.coe_eq_coe]
          have := List.filter_append_perm (fun x => decide (x < v0)) W
          have he : W.filter (fun x => !decide (x < v0)) = W.filter (fun x => decide (v0 ≤ x)) := by
            apply List.filter_congr
            intro x _
            rw [← decide_not, decide_eq_decide]
            omega
          rw [he] at this
          exact this.symm
        refine ⟨T', g1, ?_, g3, ?_, ?_, ?_, fun h => absurd h hns, fun _ => ?_, ?_⟩
        · have hset := content_set T (i, i) N
          rw [hent] at hset
          unfold absValues
          have e1 : (Multiset.ofList T'.values).map Int.natAbs + (Multiset.ofList u).map Int.natAbs =
              (Multiset.ofList T.values).map Int.natAbs + (Multiset.ofList u).map Int.natAbs := by
            rw [g2, Multiset.map_add, add_right_comm, ← Multiset.map_add, hset, Multiset.map_add, add_assoc]
            congr 1
            rw [hsplit, Multiset.coe_eq_coe.2 hNp, Multiset.coe_eq_coe.2 hAp, hW2, ← Multiset.cons_coe, ← Multiset.coe_add, List.map_cons,
              ← Multiset.cons_coe]
            simp only [Multiset.map_add, Multiset.map_cons, Int.natAbs_neg, Multiset.cons_add]
            congr 1
            abel
          exact add_right_cancel e1
        · intro b hb hbi
          rw [g4 b (by omega), Tab.get?_set, if_neg hbi]
        · intro b hb
          apply g5
          unfold Tab.has at hb ⊢
          rw [Tab.get?_set]
          split_ifs
          · rfl
          · exact hb
        · rw [hii]
          left
          intro x hx
          rcases List.mem_cons.1 (hNp.subset hx) with h | h
          · rw [h]; exact hv0.2
          · exact ((hWm x).1 (List.mem_filter.1 h).1).2
        · refine ⟨v0, hv0.1, hv0.2, ?_, ?_⟩
          · intro y hy hy0
            rcases List.mem_cons.1 ((hVm (-y)).2 ⟨by rwa [neg_neg], by omega⟩) with h | h
            · omega
            · exact (List.pairwise_cons.1 hVs).1 _ h
          · rw [hii]
            refine hNp.trans (List.Perm.cons _ ?_)
            have := hWp.filter (fun x => decide (x < v0))
            rw [List.filter_filter] at this
            refine this.trans (List.Perm.of_eq ?_)
            apply List.filter_congr
            intro x _
            simp only [Bool.decide_and]
            rw [Bool.and_comm]
        · refine ⟨[v0], le_refl _, by intro v hv; rw [List.mem_singleton] at hv; rw [hv]; exact hv0.2, ?_⟩
          have hset := content_set T (i, i) N
          rw [hent] at hset
          have hu2 : Multiset.ofList u = Multiset.ofList [-v0] + (Multiset.ofList (vs.map (fun x => -x)) + Multiset.ofList W) := by
            rw [hsplit, List.map_cons, Multiset.coe_add, Multiset.coe_add, Multiset.coe_add]; rfl
          have hNA : Multiset.ofList N + Multiset.ofList A = Multiset.ofList [v0] + (Multiset.ofList (vs.map (fun x => -x)) + Multiset.ofList W) := by
            rw [Multiset.coe_eq_coe.2 hNp, Multiset.coe_eq_coe.2 hAp, hW2, ← Multiset.cons_coe, ← Multiset.coe_add, ← Multiset.singleton_add,
              Multiset.coe_singleton]
            abel
          have e1 : Multiset.ofList T'.values + Multiset.ofList [-v0] + (Multiset.ofList (vs.map (fun x => -x)) + Multiset.ofList W) =
              Multiset.ofList T.values + Multiset.ofList [v0] + (Multiset.ofList (vs.map (fun x => -x)) + Multiset.ofList W) := by
            rw [add_assoc, ← hu2, g2, add_right_comm, hset, add_assoc, hNA, add_assoc]
          exact add_right_cancel e1
  · apply stay
    by_cases hlen : u.length > 1
    · left
      intro x hx
      by_contra hx0
      have : x ≠ 0 := fun h => hu0 (by rw [← h]; exact hx)
      exact hc ⟨hlen, x, hx, by omega⟩
    · obtain ⟨x, t, rfl⟩ := List.exists_cons_of_ne_nil hun
      have : t = [] := by
        rw [← List.length_eq_zero_iff]
        rw [List.length_cons] at hlen
        omega
      subst this
      have hx0 : x ≠ 0 := fun h => hu0 (by rw [h]; exact List.mem_cons_self ..)
      rcases lt_or_gt_of_ne hx0 with h | h
      · right
        exact ⟨-x, [], by simp, by omega, by simp⟩
      · left
        intro y hy
        rw [List.mem_singleton] at hy
        rw [hy]; exact h

theorem items_le_values (T : Tab) (hT : Full T) : T.items.length ≤ T.values.length := by
  have : ∀ l : List ((Nat × Nat) × List Int), (∀ p ∈ l, p.2 ≠ []) → l.length ≤ (l.flatMap Prod.snd).length := by
    intro l
    induction l with
    | nil => intro _; simp
    | cons a t ih =>
      intro h
      have h1 := ih (fun p hp => h p (List.mem_cons_of_mem _ hp))
      have h2 := List.length_pos_iff.2 (h a (List.mem_cons_self ..))
      simp only [List.length_cons, List.flatMap_cons, List.length_append]
      omega
  exact this T.items (fun p hp => hT p.1 p.2 (Tab.get?_eq_some.2 hp))

theorem diag_le (T : Tab) (hT : Full T) (m : Nat) (h : ∀ r, 1 ≤ r → r ≤ m → T.has (r, r) = true) : m ≤ T.values.length := by
  refine le_trans ?_ (items_le_values T hT)
  have hnd : ((List.range m).map (fun r => (r + 1, r + 1))).Nodup := by
    apply List.Nodup.map _ List.nodup_range
    intro a b hab
    have := congrArg Prod.fst hab
    dsimp only at this
    omega
  have hsub : (List.range m).map (fun r => (r + 1, r + 1)) ⊆ T.items.map Prod.fst := by
    intro b hb
    obtain ⟨r, hr, rfl⟩ := List.mem_map.1 hb
    rw [List.mem_range] at hr
    exact Tab.mem_keys.2 (h (r + 1) (by omega) (by omega))
  have := (hnd.subperm hsub).length_le
  simpa using this

theorem diagLoop_spec (k : Nat) : ∀ (i : Nat) (T : Tab), 1 ≤ i → Full T → NoZero T → T.values.length + 1 ≤ i + k →
    (∀ r, 1 ≤ r → r < i → T.has (r, r) = true ∧ Settled (T.ent (r, r))) →
    ∃ T' n, diagLoop k i T = some T' ∧ absValues T' = absValues T ∧ Full T' ∧ (∀ b, T.has b = true → T'.has b = true) ∧
      (∀ b : Nat × Nat, b.2 < i → T'.get? b = T.get? b) ∧
      T'.has (n + 1, n + 1) = false ∧ (∀ r, 1 ≤ r → r ≤ n → T'.has (r, r) = true ∧ Settled (T'.ent (r, r))) ∧
      ((∀ r, i ≤ r → T.has (r, r) = true → Settled (T.ent (r, r))) → T' = T) ∧ i ≤ n + 1 ∧ Flips (n + 1 - i) T T' := by
  induction k with
  | zero =>
    intro i T hi hT h0 hk hr
    rw [diagLoop]
    have hno : T.has (i, i) = false := by
      by_contra hc
      rw [Bool.not_eq_false] at hc
      have := diag_le T hT i (by
        intro r h1 h2
        rcases Nat.lt_or_ge r i with h | h
        · exact (hr r h1 h).1
        · rw [show r = i by omega]; exact hc)
      omega
    rw [hno]
    exact ⟨T, i - 1, rfl, rfl, hT, fun _ h => h, fun _ _ => rfl, by rw [show i - 1 + 1 = i by omega]; exact hno,
      fun r h1 h2 => hr r h1 (by omega), fun _ => rfl, by omega, [], by simp, by simp, rfl⟩
  | succ k ih =>
    intro i T hi hT h0 hk hr
    rw [diagLoop]
    split_ifs with hh
    · obtain ⟨T1, g1, g2, g3, g4, g5, g6, g7, _, g9⟩ := diagStep_spec T i hi hT h0 hh
      rw [g1, Option.bind_some]
      have hz : NoZero T1 := by
        rw [noZero_iff, g2, ← noZero_iff]; exact h0
      have hl : T1.values.length = T.values.length := by
        have := congrArg Multiset.card g2
        simpa [absValues] using this
      have hsame : ∀ r, r < i → T1.get? (r, r) = T.get? (r, r) := by
        intro r h
        apply g4 _ (by dsimp only; omega)
        intro he
        have := congrArg Prod.fst he
        dsimp only at this
        omega
      obtain ⟨T2, n, f1, f2, f3, f4, f5, f6, f7, f8, f9, f10⟩ := ih (i + 1) T1 (by omega) g3 hz (by omega) (by
        intro r h1 h2
        rcases Nat.lt_or_ge r i with h | h
        · have := hr r h1 h
          unfold Tab.has Tab.ent at this ⊢
          rwa [hsame r h]
        · rw [show r = i by omega]
          exact ⟨g5 _ hh, g6⟩)
      refine ⟨T2, n, f1, by rw [f2, g2], f3, fun b hb => f4 b (g5 b hb), ?_, f6, f7, ?_, by omega,
        (g9.trans f10).mono (by omega)⟩
      · intro b hb
        rw [f5 b (by omega), g4 b (by omega) (by rintro rfl; dsimp only at hb; omega)]
      · intro hs
        have h1 := g7 (hs i (le_refl _) hh)
        subst h1
        exact f8 (fun r h => hs r (by omega))
    · rw [Bool.not_eq_true] at hh
      exact ⟨T, i - 1, rfl, rfl, hT, fun _ h => h, fun _ _ => rfl, by rw [show i - 1 + 1 = i by omega]; exact hh,
        fun r h1 h2 => hr r h1 (by omega), fun _ => rfl, by omega, [], by simp, by simp, rfl⟩

/-- C121, first part.  Inserting a nonempty tuple into a column of a tableau without empty boxes always returns; no entry is lost or
made, the other columns do not change, no box vanishes or becomes empty, and a new box is at the end of the column. -/
theorem C121_column (T : Tab) (s : List Int) (c : Nat) (hT : Full T) (hs : s ≠ []) :
    ∃ T' r, columnInsert T s c = some (T', r) ∧ (T'.values ++ r).Perm (T.values ++ s) ∧
      Full T' ∧ (∀ b : Nat × Nat, b.2 ≠ c → T'.get? b = T.get? b) ∧ (∀ b, T.has b = true → T'.has b = true) ∧
      (∀ k, T'.has (k, c) = true → T.has (k, c) = true ∨ k = 1 ∨ T.has (k - 1, c) = true) := by
  obtain ⟨T', r, h1, h2, h3, h4, h5, h6, _⟩ := columnInsert_spec T s c hT hs
  refine ⟨T', r, h1, ?_, h3, h4, h5, h6⟩
  rw [← Multiset.coe_eq_coe, ← Multiset.coe_add, ← Multiset.coe_add]
  exact h2

/-- C121, second part.  On a tableau without empty boxes and zeros `unprime_diagonal` stops without an exception; the multiset of the
absolute values of the entries is kept, no box vanishes, every box of the diagonal up to the first absent one is settled, and
at most one prime for each of these boxes is lost. -/
theorem C121_unprime (T : Tab) (hT : Full T) (h0 : NoZero T) :
    ∃ T', unprimeDiag T = some T' ∧ absValues T' = absValues T ∧ Full T' ∧ NoZero T' ∧ (∀ b, T.has b = true → T'.has b = true) ∧
      ∃ n, T'.has (n + 1, n + 1) = false ∧ (∀ i, 1 ≤ i → i ≤ n → T'.has (i, i) = true ∧ Settled (T'.ent (i, i))) ∧
        ∃ vs : List Int, vs.length ≤ n ∧ (∀ v ∈ vs, 0 < v) ∧ (T'.values ++ vs.map (fun x => -x)).Perm (T.values ++ vs) := by
  obtain ⟨T', n, h1, h2, h3, h4, _, h6, h7, _, _, h10⟩ := diagLoop_spec T.values.length 1 T (le_refl _) hT h0 (by omega) (by intro r _ _; omega)
  refine ⟨T', h1, h2, h3, by rw [noZero_iff, h2, ← noZero_iff]; exact h0, h4, n, h6, h7, ?_⟩
  obtain ⟨vs, v1, v2, v3⟩ := h10
  refine ⟨vs, by omega, v2, ?_⟩
  rw [← Multiset.coe_eq_coe, ← Multiset.coe_add, ← Multiset.coe_add]
  exact v3

/-- C121, third part.  A tableau whose diagonal is settled does not change. -/
theorem C121_fixed (T : Tab) (hT : Full T) (h0 : NoZero T) (hs : ∀ i, 1 ≤ i → T.has (i, i) = true → Settled (T.ent (i, i))) :
    unprimeDiag T = some T := by
  obtain ⟨T', n, h1, _, _, _, _, _, _, h8, _⟩ := diagLoop_spec T.values.length 1 T (le_refl _) hT h0 (by omega) (by intro r _ _; omega)
  rw [← h8 (fun r hr => hs r hr)]
  unfold unprimeDiag
  rw [h8 (fun r hr => hs r hr)] at h1 ⊢
  exact h1

/-- C121, fourth part.  The box `(1, 1)`, if it is not settled, afterwards has the least absolute value `v` of its negative entries and
its positive entries smaller than `v`. -/
theorem C121_corner (T T' : Tab) (hT : Full T) (h0 : NoZero T) (h : unprimeDiag T = some T') (hh : T.has (1, 1) = true)
    (hns : ¬ Settled (T.ent (1, 1))) :
    ∃ v, -v ∈ T.ent (1, 1) ∧ 0 < v ∧ (∀ y ∈ T.ent (1, 1), y < 0 → v ≤ -y) ∧
      (T'.ent (1, 1)).Perm (v :: (T.ent (1, 1)).filter (fun x => decide (0 < x ∧ x < v))) := by
  obtain ⟨T1, g1, g2, g3, g4, g5, g6, _, g8, _⟩ := diagStep_spec T 1 (le_refl _) hT h0 hh
  obtain ⟨v, hv⟩ := g8 hns
  refine ⟨v, hv.1, hv.2.1, hv.2.2.1, ?_⟩
  unfold unprimeDiag at h
  have hpos : 1 ≤ T.values.length := diag_le T hT 1 (by
    intro r h1 h2
    rw [show r = 1 by omega]; exact hh)
  have hl : T1.values.length = T.values.length := by
    have := congrArg Multiset.card g2
    simpa [absValues] using this
  obtain ⟨k, hk⟩ : ∃ k, T.values.length = k + 1 := ⟨T.values.length - 1, by omega⟩
  rw [hk, diagLoop, if_pos hh, g1, Option.bind_some] at h
  obtain ⟨T2, n, f1, _, _, _, f5, _⟩ := diagLoop_spec k 2 T1 (by omega) g3 (by rw [noZero_iff, g2, ← noZero_iff]; exact h0) (by omega) (by
    intro r h1 h2
    rw [show r = 1 by omega]
    exact ⟨g5 _ hh, g6⟩)
  rw [f1, Option.some.injEq] at h
  have : T'.ent (1, 1) = T1.ent (1, 1) := by
    unfold Tab.ent
    rw [← h, f5 (1, 1) (by decide)]
  rw [this]
  exact hv.2.2.2

/-- The third tableau of tests/test_unpriming.py. -/
def exampleUnprime : Tab := ⟨[((1, 1), [-2, -1, 1]), ((1, 2), [2]), ((1, 3), [-3]), ((2, 2), [3])], by decide +kernel⟩

example : Full exampleUnprime ∧ NoZero exampleUnprime := by
  constructor <;>
  · intro b s h
    have := Tab.get?_eq_some.1 h
    revert this
    simp only [exampleUnprime, List.mem_cons, List.not_mem_nil, or_false, Prod.mk.injEq]
    rintro (⟨_, rfl⟩ | ⟨_, rfl⟩ | ⟨_, rfl⟩ | ⟨_, rfl⟩) <;> decide

example : (unprimeDiag exampleUnprime).map (fun T => T.items) =
    some [((1, 1), [1]), ((1, 2), [-2, 1]), ((1, 3), [2]), ((1, 4), [-3]), ((2, 2), [3])] := by decide +kernel

end Verif.Unprime
