import Verif.Lemmas.MarkedPoly

/-! Leading terms of the polynomials of shifted marked tableaux. -/

attribute [-simp] List.getD_eq_getElem?_getD

namespace Verif.Tableaux

open Tab Verif.Part Partition Symm

variable {sv dp : Bool} {mu : List Nat} {n : Nat} {T : Tab}

/-- In row `i` there are only letters from `i'` on. -/
theorem rank_row (hm : IsStrict mu) (h : IsTab (markRules true sv dp) [] (2 * n) mu T) {i j k : Nat}
    (hk : (markRules true sv dp).val k ∈ T.ent (i, j)) : 2 * i ≤ k + 1 := by
  have hdom : ∀ b, T.ent b ≠ [] ↔ b ∈ shapeSet true mu := by
    intro b
    rw [h.dom]
    refine and_iff_left_of_imp (fun _ => ?_)
    obtain ⟨i, j⟩ := b
    show (i, j) ∉ shapeSet true []
    rw [mem_shapeSet]
    simp only [List.getD_nil]
    omega
  have hex : ∀ b, b ∈ shapeSet true mu → ∃ k, (markRules true sv dp).val k ∈ T.ent b := by
    intro b hb
    obtain ⟨x, hx⟩ := List.exists_mem_of_ne_nil _ ((hdom b).2 hb)
    obtain ⟨k, _, _, rfl⟩ := h.range b x hx
    exact ⟨k, hx⟩
  have hdiag : ∀ i k, (markRules true sv dp).val k ∈ T.ent (i, i) → 2 * i ≤ k + 1 := by
    intro i
    induction i with
    | zero => intro k _; omega
    | succ i ih =>
      intro k hk
      have hk1 : 1 ≤ k := by
        by_contra hc
        obtain ⟨l, h1, _, h3⟩ := h.range _ _ hk
        have := markRules_inj _ _ _ h3
        omega
      rcases Nat.eq_zero_or_pos i with rfl | hi
      · omega
      have hs := (hdom _).1 (List.ne_nil_of_mem hk)
      have hs1 : (i, i + 1) ∈ shapeSet true mu := by
        rw [mem_shapeSet] at hs ⊢
        simp only [off, if_true] at hs ⊢
        have := IsShape.next (sh := true) hm (i - 1) (by rw [Nat.sub_add_cancel hi]; have := hs.2.2; simp at this; omega)
        rw [Nat.sub_add_cancel hi] at this
        have h3 := hs.2.2
        simp only [Nat.add_sub_cancel, if_true] at h3 this
        omega
      have hs2 : (i, i) ∈ shapeSet true mu := by
        rw [mem_shapeSet] at hs1 ⊢
        simp only [off, if_true] at hs1 ⊢
        omega
      obtain ⟨a, ha⟩ := hex _ hs2
      obtain ⟨b, hb⟩ := hex _ hs1
      have h1 := h.row i i a b ha hb
      have h2 := h.col i (i + 1) b k hb hk
      have h3 := ih a ha
      simp only [markRules] at h1 h2
      by_cases e1 : a = b
      · have := h1.2 e1
        by_cases e2 : b = k
        · have := h2.2 e2; omega
        · omega
      · by_cases e2 : b = k
        · have := h2.2 e2; omega
        · omega
  obtain ⟨d, rfl⟩ : ∃ d, j = i + d := by
    have := (hdom _).1 (List.ne_nil_of_mem hk)
    rw [mem_shapeSet] at this
    simp only [off, if_true] at this
    exact ⟨j - i, by omega⟩
  induction d generalizing k with
  | zero => exact hdiag i k hk
  | succ d ih =>
    have hs := (hdom _).1 (List.ne_nil_of_mem hk)
    have hs2 : (i, i + d) ∈ shapeSet true mu := by
      rw [mem_shapeSet] at hs ⊢
      simp only [off, if_true] at hs ⊢
      omega
    obtain ⟨a, ha⟩ := hex _ hs2
    have h1 := h.row i (i + d) a k ha hk
    have := ih ha
    omega

/-- The boxes of the first `k` rows. -/
def rowBoxes (mu : List Nat) (k : Nat) : Finset (Nat × Nat) :=
  ((Finset.range k).sigma (fun i => Finset.Ioc 0 (mu.getD i 0))).image (fun p => (p.1 + 1, p.1 + p.2))

theorem mem_rowBoxes {k i j : Nat} : (i, j) ∈ rowBoxes mu k ↔ (i, j) ∈ shapeSet true mu ∧ i ≤ k := by
  rw [rowBoxes, Finset.mem_image, mem_shapeSet]
  simp only [Finset.mem_sigma, Finset.mem_range, Finset.mem_Ioc, Prod.mk.injEq, off, if_true]
  constructor
  · rintro ⟨⟨a, b⟩, ⟨h1, h2⟩, rfl, rfl⟩
    simp only at h1 h2
    simp only [Nat.add_sub_cancel]
    omega
  · rintro ⟨⟨h1, h2, h3⟩, h4⟩
    exact ⟨⟨i - 1, j - (i - 1)⟩, ⟨by simp only; omega, by simp only; omega⟩, by simp only; omega, by simp only; omega⟩

theorem card_rowBoxes (mu : List Nat) (k : Nat) : (rowBoxes mu k).card = ∑ i ∈ Finset.range k, mu.getD i 0 := by
  rw [rowBoxes, Finset.card_image_of_injective, Finset.card_sigma]
  · simp
  · rintro ⟨a, b⟩ ⟨c, d⟩ he
    simp only [Prod.mk.injEq] at he
    obtain ⟨h1, h2⟩ := he
    obtain rfl : a = c := by omega
    obtain rfl : b = d := by omega
    rfl

/-- A tableau with as many entries as boxes is not properly set-valued. -/
theorem isTab_single (h : IsTab (markRules true sv dp) [] (2 * n) mu T) (hl : T.entries.length = T.items.length) :
    IsTab (markRules true false dp) [] (2 * n) mu T := by
  have hone : ∀ p ∈ T.items, p.2.length = 1 := by
    have hne : ∀ p ∈ T.items, p.2 ≠ [] := by
      intro p hp hc
      refine h.canon.ne p.1 ?_
      rw [get?_eq_some, ← hc]
      exact hp
    rw [entries] at hl
    generalize T.items = l at hl hne
    induction l with
    | nil => simp
    | cons a l ih =>
      have h1 : 1 ≤ a.2.length := List.length_pos_iff.2 (hne a (by simp))
      have h2 : l.length ≤ (l.flatMap Prod.snd).length := by
        have : ∀ l : List ((Nat × Nat) × List Int), (∀ p ∈ l, p.2 ≠ []) → l.length ≤ (l.flatMap Prod.snd).length := by
          intro l hl
          induction l with
          | nil => simp
          | cons b l ih =>
            have := List.length_pos_iff.2 (hl b (by simp))
            have := ih (fun p hp => hl p (by simp [hp]))
            simp only [List.flatMap_cons, List.length_append, List.length_cons]
            omega
        exact this l (fun p hp => hne p (by simp [hp]))
      simp only [List.flatMap_cons, List.length_append, List.length_cons] at hl
      intro p hp
      rcases List.mem_cons.1 hp with rfl | hp
      · omega
      · exact ih (by omega) (fun p hp => hne p (by simp [hp])) p hp
  refine ⟨h.canon, h.sub, h.dom, h.range, fun _ b x hx y hy => ?_, h.row, h.col, h.diag⟩
  rw [ent] at hx hy
  cases hg : T.get? b with
  | none => rw [hg] at hx; simp at hx
  | some s =>
    rw [hg] at hx hy
    have := hone (b, s) (get?_eq_some.1 hg)
    obtain ⟨z, hz⟩ := List.length_eq_one_iff.1 this
    simp only at hz
    subst hz
    simp only [Option.getD_some, List.mem_singleton] at hx hy
    rw [hx, hy]

/-- The boxes with one of the first `k` pairs of letters. -/
def lowBoxes (T : Tab) (k : Nat) : Finset (Nat × Nat) :=
  (Finset.range k).biUnion (fun i => boxesWith T ((i : Int) + 1) ∪ boxesWith T (-((i : Int) + 1)))

theorem mem_lowBoxes {k : Nat} {b : Nat × Nat} : b ∈ lowBoxes T k ↔ ∃ x ∈ T.ent b, 1 ≤ x.natAbs ∧ x.natAbs ≤ k := by
  simp only [lowBoxes, Finset.mem_biUnion, Finset.mem_range, Finset.mem_union, mem_boxesWith]
  constructor
  · rintro ⟨i, hi, h | h⟩
    · exact ⟨_, h, by omega, by omega⟩
    · exact ⟨_, h, by omega, by omega⟩
  · rintro ⟨x, hx, h1, h2⟩
    refine ⟨x.natAbs - 1, by omega, ?_⟩
    rcases lt_or_ge x 0 with h | h
    · right; rwa [show -(((x.natAbs - 1 : Nat) : Int) + 1) = x by omega]
    · left; rwa [show ((x.natAbs - 1 : Nat) : Int) + 1 = x by omega]

theorem card_lowBoxes (h : IsTab (markRules true false dp) [] (2 * n) mu T) (k : Nat) :
    (lowBoxes T k).card = ∑ i ∈ Finset.range k, markWeight T i := by
  have hs := h.single rfl
  rw [lowBoxes, Finset.card_biUnion]
  · refine Finset.sum_congr rfl (fun i _ => ?_)
    rw [markWeight, Finset.card_union_of_disjoint]
    rw [Finset.disjoint_left]
    intro b h1 h2
    have := hs b _ (mem_boxesWith.1 h1) _ (mem_boxesWith.1 h2)
    omega
  · intro i _ j _ hij
    rw [Function.onFun, Finset.disjoint_left]
    intro b h1 h2
    rw [Finset.mem_union, mem_boxesWith, mem_boxesWith] at h1 h2
    rcases h1 with h1 | h1 <;> rcases h2 with h2 | h2 <;> have := hs b _ h1 _ h2 <;> omega

theorem natAbs_val (sh sv dp : Bool) (k : Nat) : ((markRules sh sv dp).val k).natAbs = (k + 1) / 2 := by
  simp only [markRules]
  split <;> omega

theorem lowBoxes_subset (hm : IsStrict mu) (h : IsTab (markRules true sv dp) [] (2 * n) mu T) (k : Nat) :
    lowBoxes T k ⊆ rowBoxes mu k := by
  rintro ⟨i, j⟩ hb
  obtain ⟨x, hx, h1, h2⟩ := mem_lowBoxes.1 hb
  obtain ⟨l, _, _, rfl⟩ := h.range _ x hx
  have := rank_row hm h hx
  rw [natAbs_val] at h1 h2
  rw [mem_rowBoxes]
  exact ⟨((h.dom _).1 (List.ne_nil_of_mem hx)).1, by omega⟩

theorem mark_dominance (hm : IsStrict mu) (h : IsTab (markRules true sv dp) [] (2 * n) mu T)
    (hl : T.entries.length = T.items.length) (k : Nat) :
    ∑ i ∈ Finset.range k, markWeight T i ≤ ∑ i ∈ Finset.range k, mu.getD i 0 := by
  rw [← card_lowBoxes (isTab_single h hl), ← card_rowBoxes]
  exact Finset.card_le_card (lowBoxes_subset hm h k)

theorem getD_pos_iff (hm : IsStrict mu) (i : Nat) : 0 < mu.getD i 0 ↔ i < mu.length := by
  constructor
  · intro h
    by_contra hc
    rw [List.getD_eq_default _ _ (by omega)] at h
    omega
  · intro h
    rw [List.getD_eq_getElem _ _ h]
    exact hm.2 _ (List.getElem_mem _)

/-- The entry of a tableau whose weight is its shape. -/
def topEntry (s : Finset Nat) (b : Nat × Nat) : Int :=
  if b.1 = b.2 ∧ b.1 ∈ s then -(b.1 : Int) else b.1

/-- Tableaux whose weight is their shape. -/
theorem isTab_top_iff (hm : IsStrict mu) (hl : mu.length ≤ n) :
    (IsTab (markRules true sv dp) [] (2 * n) mu T ∧ ∀ i < n, markWeight T i = mu.getD i 0) ↔
      T.Canon ∧ ∃ s ⊆ Finset.Icc 1 mu.length, (dp = false → s = ∅) ∧
        ∀ b x, x ∈ T.ent b ↔ b ∈ shapeSet true mu ∧ x = topEntry s b := by
  classical
  have hnil : ∀ b, b ∉ shapeSet true [] := by
    rintro ⟨i, j⟩
    rw [mem_shapeSet]
    simp only [List.getD_nil]
    omega
  constructor
  · rintro ⟨h, hw⟩
    have hlen : T.entries.length = T.items.length := by
      have h1 := isTab_length h
      rw [← sum_markWeight h, sum_wtL, Finset.sum_congr rfl (fun i hi => hw i (Finset.mem_range.1 hi)),
        sum_range_length hl]
      simpa using h1.symm
    have h1 := isTab_single h hlen
    have hs := h1.single rfl
    have heq : ∀ k ≤ n, lowBoxes T k = rowBoxes mu k := by
      intro k hk
      refine Finset.eq_of_subset_of_card_le (lowBoxes_subset hm h k) ?_
      rw [card_rowBoxes, card_lowBoxes h1]
      exact (Finset.sum_congr rfl (fun i hi => hw i (by have := Finset.mem_range.1 hi; omega))).ge
    have habs : ∀ i j x, x ∈ T.ent (i, j) → x.natAbs = i := by
      intro i j x hx
      have hb := ((h.dom _).1 (List.ne_nil_of_mem hx)).1
      have hin : i ≤ n := by
        have := mem_shapeSet.1 hb
        have := (getD_pos_iff hm (i - 1)).1 (by omega)
        omega
      have : (i, j) ∈ lowBoxes T i := by
        rw [heq i hin, mem_rowBoxes]
        exact ⟨hb, le_rfl⟩
      obtain ⟨y, hy, h2, h3⟩ := mem_lowBoxes.1 this
      rw [hs _ x hx y hy]
      obtain ⟨l, _, _, rfl⟩ := h.range _ y hy
      have := rank_row hm h hy
      rw [natAbs_val] at h2 h3 ⊢
      omega
    refine ⟨h.canon, (Finset.Icc 1 mu.length).filter (fun i => (-(i : Int)) ∈ T.ent (i, i)), Finset.filter_subset _ _,
      ?_, ?_⟩
    · intro hdp
      rw [Finset.filter_eq_empty_iff]
      intro i hi hc
      obtain ⟨k, h1, h2, h3⟩ := h.range _ _ hc
      have h4 := h.diag i k (h3 ▸ hc)
      simp only [markRules] at h3 h4
      rw [Finset.mem_Icc] at hi
      rcases h4 with h4 | h4
      · rw [hdp] at h4; cases h4
      · rw [if_pos h4] at h3
        omega
    · rintro ⟨i, j⟩ x
      have hmain : ∀ x ∈ T.ent (i, j), x = topEntry ((Finset.Icc 1 mu.length).filter
          (fun i => (-(i : Int)) ∈ T.ent (i, i))) (i, j) := by
        intro x hx
        have hb := ((h.dom _).1 (List.ne_nil_of_mem hx)).1
        have hsh := mem_shapeSet.1 hb
        simp only [off, markRules, if_true] at hsh
        have hlt := (getD_pos_iff hm (i - 1)).1 (by omega)
        have hx' := habs i j x hx
        rw [topEntry]
        simp only [Finset.mem_filter, Finset.mem_Icc]
        by_cases hij : i = j
        · subst hij
          by_cases hneg : -(i : Int) ∈ T.ent (i, i)
          · rw [if_pos ⟨rfl, ⟨by omega, by omega⟩, hneg⟩]
            exact hs _ x hx _ hneg
          · rw [if_neg (fun h => hneg h.2.2)]
            have : x ≠ -(i : Int) := fun h => hneg (h ▸ hx)
            omega
        · rw [if_neg (fun h => hij h.1)]
          obtain ⟨j, rfl⟩ : ∃ k, j = k + 1 := ⟨j - 1, by omega⟩
          have hb2 : (i, j) ∈ shapeSet true mu := by
            rw [mem_shapeSet]
            simp only [off, if_true]
            omega
          obtain ⟨y, hy⟩ := List.exists_mem_of_ne_nil _ ((h.dom (i, j)).2 ⟨hb2, hnil _⟩)
          have hy' := habs i j y hy
          obtain ⟨k, k1, k2, rfl⟩ := h.range _ x hx
          obtain ⟨l, l1, l2, rfl⟩ := h.range _ y hy
          have hr := h.row i j l k hy hx
          rw [natAbs_val] at hx' hy'
          simp only [markRules] at hr ⊢
          by_cases hlk : l = k
          · have := hr.2 hlk
            rw [if_pos (by omega)]
            omega
          · rw [if_pos (by omega)]
            omega
      constructor
      · intro hx
        exact ⟨((h.dom _).1 (List.ne_nil_of_mem hx)).1, hmain x hx⟩
      · rintro ⟨hb, rfl⟩
        obtain ⟨y, hy⟩ := List.exists_mem_of_ne_nil _ ((h.dom (i, j)).2 ⟨hb, hnil _⟩)
        rw [← hmain y hy]
        exact hy
  · rintro ⟨hc, s, hs, hdp, hT⟩
    have hval : ∀ i j k, (markRules true sv dp).val k ∈ T.ent (i, j) → 1 ≤ i ∧ i ≤ j ∧
        ((i = j ∧ i ∈ s ∧ k + 1 = 2 * i) ∨ k = 2 * i) := by
      intro i j k hk
      obtain ⟨h1, h2⟩ := (hT _ _).1 hk
      have hsh := mem_shapeSet.1 h1
      simp only [off, if_true] at hsh
      refine ⟨hsh.1, by omega, ?_⟩
      rw [topEntry] at h2
      simp only [markRules] at h2
      by_cases h3 : i = j ∧ i ∈ s
      · rw [if_pos h3] at h2
        left
        refine ⟨h3.1, h3.2, ?_⟩
        split at h2 <;> omega
      · rw [if_neg h3] at h2
        right
        split at h2 <;> omega
    have habs : ∀ b x, x ∈ T.ent b → x.natAbs = b.1 := by
      intro b x hx
      rw [((hT b x).1 hx).2, topEntry]
      split <;> omega
    refine ⟨⟨hc, fun b hb => absurd hb (hnil b), fun b => ?_, fun b x hx => ?_, fun _ b x hx y hy => ?_,
      fun i j k l hk hl => ?_, fun i j k l hk hl => ?_, fun i k hk => ?_⟩, fun i hi => ?_⟩
    · constructor
      · intro h
        obtain ⟨x, hx⟩ := List.exists_mem_of_ne_nil _ h
        exact ⟨((hT b x).1 hx).1, hnil b⟩
      · rintro ⟨h, _⟩
        exact List.ne_nil_of_mem ((hT b _).2 ⟨h, rfl⟩)
    · obtain ⟨i, j⟩ := b
      have h1 := habs _ x hx
      have hsh := mem_shapeSet.1 ((hT _ x).1 hx).1
      have hlt := (getD_pos_iff hm (i - 1)).1 (by omega)
      simp only at h1
      have hx1 : 1 ≤ |x| := by rw [Int.abs_eq_natAbs]; omega
      refine ⟨letterRank x, ?_, ?_, (val_letterRank true sv dp hx1).symm⟩
      · rw [letterRank]; split <;> omega
      · rw [letterRank]; split <;> omega
    · rw [((hT b x).1 hx).2, ((hT b y).1 hy).2]
    · have h1 := hval _ _ _ hk
      have h2 := hval _ _ _ hl
      simp only [markRules]
      omega
    · have h1 := hval _ _ _ hk
      have h2 := hval _ _ _ hl
      simp only [markRules]
      omega
    · simp only [markRules]
      by_cases hd : dp = true
      · exact Or.inl hd
      · have h0 := hdp (by simpa using hd)
        have h1 := hval _ _ _ hk
        rw [h0] at h1
        simp only [Finset.notMem_empty, false_and, and_false, false_or] at h1
        right; omega
    · have e : boxesWith T ((i : Int) + 1) ∪ boxesWith T (-((i : Int) + 1)) =
          (Finset.Ioc 0 (mu.getD i 0)).image (fun p => (i + 1, i + p)) := by
        ext ⟨a, b⟩
        rw [Finset.mem_union, mem_boxesWith, mem_boxesWith, Finset.mem_image]
        simp only [Finset.mem_Ioc, Prod.mk.injEq]
        constructor
        · intro h
          have : a = i + 1 ∧ (a, b) ∈ shapeSet true mu := by
            rcases h with h | h
            · have h1 := habs _ _ h
              exact ⟨by simp only at h1; omega, ((hT _ _).1 h).1⟩
            · have h1 := habs _ _ h
              exact ⟨by simp only at h1; omega, ((hT _ _).1 h).1⟩
          obtain ⟨rfl, h1⟩ := this
          rw [mem_shapeSet] at h1
          simp only [off, if_true, Nat.add_sub_cancel] at h1
          exact ⟨b - i, by omega, rfl, by omega⟩
        · rintro ⟨p, h1, rfl, rfl⟩
          have hb : (i + 1, i + p) ∈ shapeSet true mu := by
            rw [mem_shapeSet]
            simp only [off, if_true, Nat.add_sub_cancel]
            omega
          have h2 := (hT (i + 1, i + p) _).2 ⟨hb, rfl⟩
          rw [topEntry] at h2
          split at h2
          · right; simpa using h2
          · left; simpa using h2
      rw [markWeight, ← Finset.card_union_of_disjoint, e, Finset.card_image_of_injective]
      · simp
      · intro a b hab
        have := (Prod.mk_inj.1 hab).2
        omega
      · rw [Finset.disjoint_left]
        intro b h1 h2
        have := ((hT _ _).1 (mem_boxesWith.1 h1)).2.trans ((hT _ _).1 (mem_boxesWith.1 h2)).2.symm
        omega

theorem exists_tab (l : List ((Nat × Nat) × Int)) : ∃ T' : Tab, T'.Canon ∧ ∀ b x, x ∈ T'.ent b ↔ (b, x) ∈ l := by
  induction l with
  | nil => exact ⟨Tab.empty, canon_empty, by simp [ent_empty]⟩
  | cons a l ih =>
    obtain ⟨T', h1, h2⟩ := ih
    obtain ⟨b, v⟩ := a
    by_cases hv : v ∈ T'.ent b
    · refine ⟨T', h1, fun c x => ?_⟩
      rw [h2, List.mem_cons, Prod.mk.injEq]
      constructor
      · exact Or.inr
      · rintro (⟨rfl, rfl⟩ | h)
        · exact (h2 _ _).1 hv
        · exact h
    · refine ⟨T'.add b v, canon_add h1 hv, fun c x => ?_⟩
      have e : (c, x) = (b, v) ↔ c = b ∧ x = v := Prod.mk_inj
      rw [mem_ent_add, h2, List.mem_cons, e]
      tauto

/-- The number of tableaux whose weight is their shape. -/
theorem card_top (hm : IsStrict mu) (hl : mu.length ≤ n) :
    ((markedGen true sv dp [] n mu).filter (fun T => ∀ i < n, markWeight T i = mu.getD i 0)).card =
      if dp then 2 ^ mu.length else 1 := by
  classical
  have hnil : IsShape true [] := ⟨by simp, by simp⟩
  have hmem : ∀ T, T ∈ (markedGen true sv dp [] n mu).filter (fun T => ∀ i < n, markWeight T i = mu.getD i 0) ↔
      T.Canon ∧ ∃ s ⊆ Finset.Icc 1 mu.length, (dp = false → s = ∅) ∧
        ∀ b x, x ∈ T.ent b ↔ b ∈ shapeSet true mu ∧ x = topEntry s b := by
    intro T
    rw [Finset.mem_filter, isTab_markedGen (by simp) hnil n hm, isTab_top_iff hm hl]
  have hrow : ∀ i ∈ Finset.Icc 1 mu.length, (i, i) ∈ shapeSet true mu := by
    intro i hi
    rw [Finset.mem_Icc] at hi
    have := (getD_pos_iff hm (i - 1)).2 (by omega)
    rw [mem_shapeSet]
    simp only [off, if_true]
    omega
  rw [show (if dp then 2 ^ mu.length else 1) =
    ((Finset.Icc 1 mu.length).powerset.filter (fun s => dp = false → s = ∅)).card by
      cases dp with
      | true => simp
      | false =>
        have : (Finset.Icc 1 mu.length).powerset.filter (fun s => false = false → s = ∅) = {∅} := by
          ext s
          simp only [Finset.mem_filter, Finset.mem_powerset, Finset.mem_singleton, forall_const]
          exact ⟨fun h => h.2, fun h => ⟨by simp [h], h⟩⟩
        rw [this]; simp]
  refine Finset.card_bij' (fun T _ => (Finset.Icc 1 mu.length).filter (fun i => (-(i : Int)) ∈ T.ent (i, i)))
    (fun s _ => (exists_tab ((rowBoxes mu mu.length).toList.map (fun b => (b, topEntry s b)))).choose) ?_ ?_ ?_ ?_
  all_goals
    have hset : ∀ (T : Tab) (s : Finset Nat), s ⊆ Finset.Icc 1 mu.length →
        (∀ b x, x ∈ T.ent b ↔ b ∈ shapeSet true mu ∧ x = topEntry s b) →
        (Finset.Icc 1 mu.length).filter (fun i => (-(i : Int)) ∈ T.ent (i, i)) = s := by
      intro T s hs hT
      ext i
      rw [Finset.mem_filter, hT, topEntry]
      constructor
      · rintro ⟨h1, h2, h3⟩
        by_contra hc
        rw [if_neg (fun h => hc h.2)] at h3
        rw [Finset.mem_Icc] at h1
        simp only at h3
        omega
      · intro h
        exact ⟨hs h, hrow i (hs h), by rw [if_pos ⟨rfl, h⟩]⟩
    have hspec : ∀ s : Finset Nat, (exists_tab ((rowBoxes mu mu.length).toList.map (fun b => (b, topEntry s b)))).choose.Canon ∧
        ∀ b x, x ∈ (exists_tab ((rowBoxes mu mu.length).toList.map (fun b => (b, topEntry s b)))).choose.ent b ↔
          b ∈ shapeSet true mu ∧ x = topEntry s b := by
      intro s
      obtain ⟨h1, h2⟩ := (exists_tab ((rowBoxes mu mu.length).toList.map (fun b => (b, topEntry s b)))).choose_spec
      refine ⟨h1, ?_⟩
      rintro ⟨i, j⟩ x
      rw [h2, List.mem_map]
      simp only [Finset.mem_toList, Prod.mk.injEq]
      constructor
      · rintro ⟨⟨a, b⟩, h3, ⟨rfl, rfl⟩, rfl⟩
        exact ⟨(mem_rowBoxes.1 h3).1, rfl⟩
      · rintro ⟨h3, rfl⟩
        refine ⟨(i, j), mem_rowBoxes.2 ⟨h3, ?_⟩, rfl, rfl⟩
        rw [mem_shapeSet] at h3
        have := (getD_pos_iff hm (i - 1)).1 (by omega)
        omega
  · intro T hT
    obtain ⟨_, s, hs, hdp, hT'⟩ := (hmem T).1 hT
    rw [hset T s hs hT', Finset.mem_filter, Finset.mem_powerset]
    exact ⟨hs, hdp⟩
  · intro s hs
    rw [Finset.mem_filter, Finset.mem_powerset] at hs
    exact (hmem _).2 ⟨(hspec s).1, s, hs.1, hs.2, (hspec s).2⟩
  · intro T hT
    obtain ⟨hc, s, hs, hdp, hT'⟩ := (hmem T).1 hT
    simp only [hset T s hs hT']
    obtain ⟨h1, h2⟩ := hspec s
    refine ext_ent h1.ne hc.ne (fun b => ?_)
    refine eq_of_pairwise_lt (h1.sorted b) (hc.sorted b) (fun x => ?_)
    rw [h2, hT']
  · intro s hs
    rw [Finset.mem_filter, Finset.mem_powerset] at hs
    exact hset _ s hs.1 (hspec s).2

end Verif.Tableaux
