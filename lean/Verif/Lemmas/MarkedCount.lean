import Verif.Lemmas.MarkedGen

/-! The dicts of counts of marked tableaux. -/

attribute [-simp] List.getD_eq_getElem?_getD

namespace Verif.Tableaux

open Tab Verif.Part Partition Symm

/-- What an item `(p, c)` adds to `ans[key]` when the last letter occurs `m` times. -/
def contribM (n m : Nat) (p : List Nat) (c : Int) (key : List Nat) : Int :=
  if m = 0 then (if p = key then c else 0)
  else if p.length < n ∨ (p ≠ [] ∧ m > p.getLastD 0) then 0
  else if p ++ [m] = key then c else 0

/-- What a dict adds to `ans[key]` when the last letter occurs `m` times. -/
def contribD (n m : Nat) (d : Dict (List Nat) Int) (key : List Nat) : Int :=
  if m = 0 then d.getD key 0
  else if key ≠ [] ∧ key.getLastD 0 = m ∧ n ≤ key.dropLast.length ∧
    (key.dropLast = [] ∨ m ≤ key.dropLast.getLastD 0) then d.getD key.dropLast 0 else 0

theorem sum_contribM (n m : Nat) (d : Dict (List Nat) Int) (key : List Nat) :
    (d.items.map (fun pc => contribM n m pc.1 pc.2 key)).sum = contribD n m d key := by
  unfold contribD
  by_cases hm : m = 0
  · rw [if_pos hm, ← sum_items_eq d key (fun v => v) rfl]
    refine congrArg List.sum (List.map_congr_left (fun pc _ => ?_))
    rw [contribM, if_pos hm]
  · rw [if_neg hm, ← sum_items_eq d key.dropLast (fun v =>
      if key ≠ [] ∧ key.getLastD 0 = m ∧ n ≤ key.dropLast.length ∧
        (key.dropLast = [] ∨ m ≤ key.dropLast.getLastD 0) then v else 0) (by simp)]
    refine congrArg List.sum (List.map_congr_left ?_)
    rintro ⟨p, c⟩ _
    have happ : p ++ [m] = key ↔ p = key.dropLast ∧ key ≠ [] ∧ key.getLastD 0 = m := by
      constructor
      · rintro rfl; simp
      · rintro ⟨rfl, h1, rfl⟩
        rw [List.getLastD_eq_getLast?, List.getLast?_eq_getLast_of_ne_nil h1, Option.getD_some, List.dropLast_append_getLast]
    rw [contribM, if_neg hm]
    simp only
    by_cases hp : p = key.dropLast
    · rw [if_pos hp]
      by_cases hc : p.length < n ∨ (p ≠ [] ∧ m > p.getLastD 0)
      · rw [if_pos hc, if_neg]
        rintro ⟨h1, h2, h3, h4⟩
        rw [← hp] at h3 h4
        rcases hc with hc | ⟨hc1, hc2⟩
        · omega
        · rcases h4 with h4 | h4
          · exact hc1 h4
          · omega
      · rw [if_neg hc]
        have h' : n ≤ key.dropLast.length ∧ (key.dropLast = [] ∨ m ≤ key.dropLast.getLastD 0) := by
          rw [← hp]
          push Not at hc
          refine ⟨hc.1, ?_⟩
          by_cases he : p = []
          · exact Or.inl he
          · exact Or.inr (hc.2 he)
        have happ' : p ++ [m] = key ↔ key ≠ [] ∧ key.getLastD 0 = m := by
          rw [happ]; exact and_iff_right hp
        by_cases hk : key ≠ [] ∧ key.getLastD 0 = m
        · rw [if_pos (happ'.2 hk), if_pos ⟨hk.1, hk.2, h'⟩]
        · rw [if_neg (fun e => hk (happ'.1 e)), if_neg (fun e => hk ⟨e.1, e.2.1⟩)]
    · rw [if_neg hp, if_neg (fun e => hp (happ.1 e).1), ite_self]

theorem markedCountInner_getD (n d k1 k2 i : Nat) (p : List Nat) (c : Int) (key : List Nat) (r a : Nat)
    (ans : Dict (List Nat) Int) :
    (markedCountInner (n + 1) d k1 k2 i p c (List.range' a r) ans).getD key 0 =
      ans.getD key 0 + ∑ j ∈ Finset.range r,
        ((k1.choose i : Nat) : Int) * (((k2.choose (a + j) : Nat) : Int) * contribM n (d + i + (a + j)) p c key) := by
  induction r generalizing a ans with
  | zero => simp [markedCountInner]
  | succ r ih =>
    rw [List.range'_succ, markedCountInner]
    rw [Finset.sum_range_succ']
    have hshift : ∑ j ∈ Finset.range r, ((k1.choose i : Nat) : Int) * (((k2.choose (a + (j + 1)) : Nat) : Int) *
          contribM n (d + i + (a + (j + 1))) p c key) =
        ∑ j ∈ Finset.range r, ((k1.choose i : Nat) : Int) * (((k2.choose (a + 1 + j) : Nat) : Int) *
          contribM n (d + i + (a + 1 + j)) p c key) :=
      Finset.sum_congr rfl (fun j _ => by rw [show a + (j + 1) = a + 1 + j by ring])
    rw [hshift]
    simp only [Nat.add_zero a, Nat.add_sub_cancel]
    by_cases h0 : d + i + a = 0
    · rw [if_pos h0, ih, getD_bump, contribM, if_pos h0]
      obtain rfl : i = 0 := by omega
      obtain rfl : a = 0 := by omega
      simp only [Nat.choose_zero_right]
      push_cast
      ring
    · rw [if_neg h0]
      by_cases h1 : p.length < n ∨ (p ≠ [] ∧ d + i + a > p.getLastD 0)
      · rw [if_pos h1]
        have hz : ∀ j, contribM n (d + i + (a + j)) p c key = 0 := by
          intro j
          rw [contribM, if_neg (by omega), if_pos]
          rcases h1 with h1 | h1
          · exact Or.inl h1
          · exact Or.inr ⟨h1.1, by omega⟩
        have hz1 : ∀ j, contribM n (d + i + (a + 1 + j)) p c key = 0 := by
          intro j; rw [Nat.add_assoc a]; exact hz _
        have hz2 : contribM n (d + i + a) p c key = 0 := hz 0
        simp only [hz1, hz2]
        simp
      · rw [if_neg h1, ih, getD_bump]
        rw [show contribM n (d + i + a) p c key = if p ++ [d + i + a] = key then c else 0 by
          rw [contribM, if_neg h0, if_neg h1], nchoosek_natCast, nchoosek_natCast]
        split
        · ring
        · ring

theorem list_sum_range (n : Nat) (f : Nat → Int) : ((List.range n).map f).sum = ∑ i ∈ Finset.range n, f i := by
  rw [Finset.sum_range, ← List.sum_ofFn]
  congr 1
  apply List.ext_getElem
  · simp
  · intro i h1 h2
    simp

variable {sh : Bool} {row col dg : Prop} {lam mu : List Nat} {strips : List Strip}

theorem StripList.sum_subsets (h : StripList sh row col dg lam mu strips) {s : Strip} (hs : s ∈ strips) (sv : Bool)
    (g : Nat → Int) : ∑ aug ∈ (subsets s.2.1 s.2.2 sv).toFinset, g aug.length =
      ∑ i ∈ Finset.range (if sv then s.2.2.length + 1 else 1), ((s.2.2.length.choose i : Nat) : Int) * g (s.2.1.length + i) := by
  rw [List.sum_toFinset _ (h.subsets_nodup hs sv)]
  unfold subsets
  by_cases hsv : sv = true
  · rw [if_pos hsv, if_pos hsv]
    have := length_subsetBits_sum g s.2.2 s.2.1 (h.corner_nodup s hs) (h.disj hs)
    simp only [nsmul_eq_mul] at this
    rw [← this, List.map_map, ← list_sum_range]
    rfl
  · rw [if_neg hsv, if_neg hsv]
    simp

theorem StripList.sum_movesOf (h : StripList sh row col dg lam mu strips) (sv : Bool)
    (g : List Nat → Nat → Int) : ∑ m ∈ (movesOf sv strips).toFinset, g m.1 m.2.length =
      (strips.map (fun s => ∑ aug ∈ (subsets s.2.1 s.2.2 sv).toFinset, g s.1 aug.length)).sum := by
  rw [List.sum_toFinset _ (h.movesOf_nodup sv), movesOf, List.map_flatMap]
  have : ∀ l : List Strip, (∀ s ∈ l, s ∈ strips) →
      (l.flatMap (fun s => ((subsets s.2.1 s.2.2 sv).map (fun aug => (s.1, aug))).map (fun m => g m.1 m.2.length))).sum =
      (l.map (fun s => ∑ aug ∈ (subsets s.2.1 s.2.2 sv).toFinset, g s.1 aug.length)).sum := by
    intro l hl
    induction l with
    | nil => rfl
    | cons s l ih =>
      rw [List.flatMap_cons, List.sum_append, ih (fun t ht => hl t (by simp [ht])), List.map_cons, List.sum_cons,
        List.sum_toFinset _ (h.subsets_nodup (hl s (by simp)) sv), List.map_map]
      rfl
  exact this strips (fun s hs => hs)

variable {sv dp : Bool}

theorem markedCountLoop_getD {lam mu nu : List Nat} {row' col' dg' : Prop} {strips1 strips2 : List Strip}
    (H1 : StripList sh row col dg lam mu strips1)
    (H2 : StripList sh row' col' dg' lam nu strips2) {s1 s2 : Strip} (hs1 : s1 ∈ strips1) (hs2 : s2 ∈ strips2) (n : Nat)
    (d ans : Dict (List Nat) Int) (key : List Nat) :
    (markedCountLoop sv (n + 1) s1 s2 d.items ans).getD key 0 = ans.getD key 0 +
      ∑ a1 ∈ (subsets s1.2.1 s1.2.2 sv).toFinset, ∑ a2 ∈ (subsets s2.2.1 s2.2.2 sv).toFinset,
        contribD n (a1.length + a2.length) d key := by
  unfold markedCountLoop
  rw [foldl_getD d.items _ key (fun pc =>
    ∑ a1 ∈ (subsets s1.2.1 s1.2.2 sv).toFinset, ∑ a2 ∈ (subsets s2.2.1 s2.2.2 sv).toFinset,
        contribM n (a1.length + a2.length) pc.1 pc.2 key)]
  · congr 1
    simp only [← sum_contribM]
    have hsw : ∀ (l : List (List Nat × Int)) (A : Finset (List (Nat × Nat))) (f : List (Nat × Nat) → List Nat × Int → Int),
        (l.map (fun pc => ∑ a ∈ A, f a pc)).sum = ∑ a ∈ A, (l.map (f a)).sum := by
      intro l A f
      induction l with
      | nil => simp
      | cons x l ih => simp only [List.map_cons, List.sum_cons, ih, Finset.sum_add_distrib]
    rw [hsw]
    refine Finset.sum_congr rfl (fun a1 _ => ?_)
    rw [hsw]
  · rintro ⟨p, c⟩ _ ans
    simp only
    rw [foldl_getD _ _ key (fun i => ((s1.2.2.length.choose i : Nat) : Int) *
      ∑ a2 ∈ (subsets s2.2.1 s2.2.2 sv).toFinset, contribM n (s1.2.1.length + i + a2.length) p c key)]
    · congr 1
      rw [list_sum_range, H1.sum_subsets hs1 sv (fun m =>
        ∑ a2 ∈ (subsets s2.2.1 s2.2.2 sv).toFinset, contribM n (m + a2.length) p c key)]
    · intro i _ ans
      rw [List.range_eq_range', markedCountInner_getD]
      congr 1
      rw [H2.sum_subsets hs2 sv (fun m => contribM n (s1.2.1.length + i + m) p c key), Finset.mul_sum]
      refine Finset.sum_congr rfl (fun j _ => ?_)
      rw [Nat.zero_add, show s1.2.1.length + s2.2.1.length + i + j = s1.2.1.length + i + (s2.2.1.length + j) by ring]

/-- Sums over the ways to add the letters `k'` and `k`. -/
def stepSum (sh sv dp : Bool) (lam mu : List Nat) (F : List Nat → Nat → Int) : Int :=
  ∑ m1 ∈ (movesOf sv (hStrips sh mu lam)).toFinset, ∑ m2 ∈ (movesOf sv (vStrips sh dp m1.1 lam)).toFinset,
    F m2.1 (m1.2.length + m2.2.length)

theorem markedCount_succ (hdp : sh = false → dp = true) (hl : IsShape sh lam) (hm : IsShape sh mu) (h1 : mu ≠ lam)
    (h2 : contains mu lam = true) (n : Nat) (key : List Nat) :
    (markedCount sh sv dp lam (n + 1) mu).getD key 0 =
      stepSum sh sv dp lam mu (fun nu m => contribD n m (markedCount sh sv dp lam n nu) key) := by
  have H1 := hStrips_list hl hm
  rw [markedCount, if_neg h1, if_pos h2, stepSum]
  have e : ∀ m1 ∈ (movesOf sv (hStrips sh mu lam)).toFinset,
      ∑ m2 ∈ (movesOf sv (vStrips sh dp m1.1 lam)).toFinset,
        contribD n (m1.2.length + m2.2.length) (markedCount sh sv dp lam n m2.1) key =
      ((vStrips sh dp m1.1 lam).map (fun s2 => ∑ a2 ∈ (subsets s2.2.1 s2.2.2 sv).toFinset,
        contribD n (m1.2.length + a2.length) (markedCount sh sv dp lam n s2.1) key)).sum := by
    intro m1 hm1
    rw [List.mem_toFinset, mem_movesOf] at hm1
    obtain ⟨s1, hs1, a1, ha1, rfl⟩ := hm1
    have H2 := vStrips_list hdp hl (H1.ok s1 hs1).shape
    exact H2.sum_movesOf sv (fun nu m => contribD n (a1.length + m) (markedCount sh sv dp lam n nu) key)
  rw [Finset.sum_congr rfl e, H1.sum_movesOf sv (fun nu m =>
    ((vStrips sh dp nu lam).map (fun s2 => ∑ a2 ∈ (subsets s2.2.1 s2.2.2 sv).toFinset,
        contribD n (m + a2.length) (markedCount sh sv dp lam n s2.1) key)).sum)]
  rw [foldl_getD _ _ key (fun s1 => ∑ a1 ∈ (subsets s1.2.1 s1.2.2 sv).toFinset,
    ((vStrips sh dp s1.1 lam).map (fun s2 => ∑ a2 ∈ (subsets s2.2.1 s2.2.2 sv).toFinset,
        contribD n (a1.length + a2.length) (markedCount sh sv dp lam n s2.1) key)).sum)]
  · rw [Dict.getD_empty, zero_add]
  · intro s1 hs1 ans
    have H2 := vStrips_list hdp hl (H1.ok s1 hs1).shape
    rw [foldl_getD _ _ key (fun s2 => ∑ a1 ∈ (subsets s1.2.1 s1.2.2 sv).toFinset,
      ∑ a2 ∈ (subsets s2.2.1 s2.2.2 sv).toFinset,
        contribD n (a1.length + a2.length) (markedCount sh sv dp lam n s2.1) key)]
    · congr 1
      have hsw : ∀ (l : List Strip) (A : Finset (List (Nat × Nat))) (f : List (Nat × Nat) → Strip → Int),
          (l.map (fun s => ∑ a ∈ A, f a s)).sum = ∑ a ∈ A, (l.map (f a)).sum := by
        intro l A f
        induction l with
        | nil => simp
        | cons x l ih => simp only [List.map_cons, List.sum_cons, ih, Finset.sum_add_distrib]
      rw [hsw]
    · intro s2 hs2 ans
      exact markedCountLoop_getD H1 H2 hs1 hs2 n _ _ _

theorem hMoves_lists (dp : Bool) (hdp : sh = false → dp = true) (hl : IsShape sh lam) (hm : IsShape sh mu) :
    ListsMoves (markRules sh sv dp) lam 2 mu (movesOf sv (hStrips sh mu lam)) := by
  have := markMoves_lists (sv := sv) hdp hl 1 mu hm
  rwa [show 1 + 1 = 2 * 0 + 2 from rfl, markMoves_even] at this

theorem vMoves_lists (hdp : sh = false → dp = true) (hl : IsShape sh lam) (hm : IsShape sh mu) :
    ListsMoves (markRules sh sv dp) lam 1 mu (movesOf sv (vStrips sh dp mu lam)) := by
  have := markMoves_lists (sv := sv) hdp hl 0 mu hm
  rwa [show 0 + 1 = 2 * 0 + 1 from rfl, markMoves_odd] at this

theorem nil_move {R : Rules} {k : Nat} {lam mu : List Nat} {ms : List (List Nat × List (Nat × Nat))}
    (h : ListsMoves R lam k mu ms) (hm : IsShape R.sh mu) {m : List Nat × List (Nat × Nat)} (hmm : m ∈ ms)
    (h0 : m.2 = []) : m = (mu, []) := by
  obtain ⟨nu, a⟩ := m
  simp only at h0
  subst h0
  have := (h.sound _ hmm).2
  have hnu : nu = mu := by
    refine shapeSet_inj this.shape hm (Set.Subset.antisymm this.sub2 (fun b hb => ?_))
    by_contra hc
    simpa using this.diff b hb hc
  rw [hnu]

theorem nil_mem {R : Rules} {k : Nat} {lam mu : List Nat} {ms : List (List Nat × List (Nat × Nat))}
    (h : ListsMoves R lam k mu ms) (hm : IsShape R.sh mu) (hsub : shapeSet R.sh lam ⊆ shapeSet R.sh mu) :
    (mu, []) ∈ ms := by
  obtain ⟨m, h1, h2, h3⟩ := h.complete mu (fun _ => False) ⟨hm, hsub, le_rfl, fun b h1 h2 => h2 h1,
    fun b h => h.elim, fun i j h => h.elim, fun i j h => h.elim, fun i j h => h.elim, fun i h => h.elim⟩
  obtain ⟨nu, a⟩ := m
  have : a = [] := List.eq_nil_iff_forall_not_mem.2 (fun b hb => (h3 b).1 hb)
  simp only at h2
  rw [← h2, ← this]
  exact h1

theorem stepSum_congr (hdp : sh = false → dp = true) (hl : IsShape sh lam) (hm : IsShape sh mu)
    {F G : List Nat → Nat → Int} (h : ∀ nu m, IsShape sh nu → (m = 0 → nu = mu) → F nu m = G nu m) :
    stepSum sh sv dp lam mu F = stepSum sh sv dp lam mu G := by
  refine Finset.sum_congr rfl (fun m1 hm1 => Finset.sum_congr rfl (fun m2 hm2 => ?_))
  have L1 := hMoves_lists (sv := sv) dp hdp hl hm
  have hm1 := List.mem_toFinset.1 hm1
  have hsh1 : IsShape sh m1.1 := (L1.sound m1 hm1).2.shape
  have L2 := vMoves_lists (sv := sv) hdp hl hsh1
  have hm2 := List.mem_toFinset.1 hm2
  refine h _ _ (L2.sound m2 hm2).2.shape (fun h0 => ?_)
  have e1 := nil_move L1 hm hm1 (List.length_eq_zero_iff.1 (by omega))
  have e2 := nil_move L2 hsh1 hm2 (List.length_eq_zero_iff.1 (by omega))
  rw [e2, e1]

theorem stepSum_zero (hdp : sh = false → dp = true) (hl : IsShape sh lam) (hm : IsShape sh mu)
    (hsub : shapeSet sh lam ⊆ shapeSet sh mu) (F : List Nat → Int) :
    stepSum sh sv dp lam mu (fun nu m => if m = 0 then F nu else 0) = F mu := by
  have L1 := hMoves_lists (sv := sv) dp hdp hl hm
  have L2 := vMoves_lists (sv := sv) hdp hl hm
  rw [stepSum, Finset.sum_eq_single (mu, [])]
  · rw [Finset.sum_eq_single (mu, [])]
    · simp
    · intro m2 hm2 hne
      rw [if_neg]
      intro h0
      simp only [List.length_nil, Nat.zero_add] at h0
      exact hne (nil_move L2 hm (List.mem_toFinset.1 hm2) (List.length_eq_zero_iff.1 h0))
    · intro hn
      exact absurd (List.mem_toFinset.2 (nil_mem L2 hm hsub)) hn
  · intro m1 hm1 hne
    refine Finset.sum_eq_zero (fun m2 hm2 => ?_)
    rw [if_neg]
    intro h0
    exact hne (nil_move L1 hm (List.mem_toFinset.1 hm1) (List.length_eq_zero_iff.1 (by omega)))
  · intro hn
    exact absurd (List.mem_toFinset.2 (nil_mem L1 hm hsub)) hn

/-- The number of marked tableaux of a given weight. -/
def markN (sh sv dp : Bool) (lam : List Nat) (k : Nat) (mu : List Nat) (alpha : Nat → Nat) : Int :=
  wCount (markedGen sh sv dp lam k mu) k markWeight alpha

theorem markN_succ (hdp : sh = false → dp = true) (hl : IsShape sh lam) (hm : IsShape sh mu) (k : Nat)
    (alpha : Nat → Nat) : markN sh sv dp lam (k + 1) mu alpha =
      stepSum sh sv dp lam mu (fun nu m => if m = alpha k then markN sh sv dp lam k nu alpha else 0) := by
  classical
  have hinj := markRules_inj sh sv dp
  have hmv := markMoves_lists (sv := sv) hdp hl
  have hW : ∀ j nu, IsShape sh nu → markN sh sv dp lam j nu alpha =
      ∑ T ∈ genTabs (markRules sh sv dp) lam (markMoves sh sv dp lam) (2 * j) nu,
        if ∀ i < j, markWeight T i = alpha i then 1 else 0 := by
    intro j nu hnu
    rw [markN, wCount, markedGen_eq hdp hl j hnu, Finset.card_filter]
    push_cast
    refine Finset.sum_congr rfl (fun T _ => ?_)
    congr
  rw [hW (k + 1) mu hm, show 2 * (k + 1) = 2 * k + 1 + 1 by ring,
    sum_genTabs hinj (lam := lam) hl hmv (2 * k + 1) (mu := mu) hm, stepSum, markMoves_even k]
  refine Finset.sum_congr rfl (fun m1 hm1 => ?_)
  have L1 := hmv (2 * k + 1) mu hm
  rw [show 2 * k + 1 + 1 = 2 * k + 2 by ring, markMoves_even k] at L1
  obtain ⟨nd1, mv1⟩ := L1.sound m1 (List.mem_toFinset.1 hm1)
  have hsh1 : IsShape sh m1.1 := mv1.shape
  rw [sum_genTabs hinj (lam := lam) hl hmv (2 * k) (mu := m1.1) hsh1, markMoves_odd k]
  refine Finset.sum_congr rfl (fun m2 hm2 => ?_)
  have L2 := hmv (2 * k) m1.1 hsh1
  rw [markMoves_odd k] at L2
  obtain ⟨nd2, mv2⟩ := L2.sound m2 (List.mem_toFinset.1 hm2)
  have hsh2 : IsShape sh m2.1 := mv2.shape
  rw [hW k m2.1 hsh2]
  have key : ∀ T ∈ genTabs (markRules sh sv dp) lam (markMoves sh sv dp lam) (2 * k) m2.1,
      (∀ i < k + 1, markWeight (addAll m1.2 ((markRules sh sv dp).val (2 * k + 1 + 1))
        (addAll m2.2 ((markRules sh sv dp).val (2 * k + 1)) T)) i = alpha i) ↔
      (m1.2.length + m2.2.length = alpha k ∧ ∀ i < k, markWeight T i = alpha i) := by
    intro T hT
    have hT0 := (mem_genTabs hinj (lam := lam) hl hmv (2 * k) hsh2).1 hT
    have hT1 : IsTab (markRules sh sv dp) lam (2 * k + 1) m1.1 (addAll m2.2 ((markRules sh sv dp).val (2 * k + 1)) T) := by
      apply (mem_genTabs hinj (lam := lam) hl hmv (2 * k + 1) hsh1).1
      rw [genTabs, Finset.mem_biUnion]
      exact ⟨m2, by rw [markMoves_odd]; exact hm2, Finset.mem_image_of_mem _ hT⟩
    have hw : ∀ i ≤ k, markWeight (addAll m1.2 ((markRules sh sv dp).val (2 * k + 1 + 1))
        (addAll m2.2 ((markRules sh sv dp).val (2 * k + 1)) T)) i =
          if i = k then m1.2.length + m2.2.length else markWeight T i := by
      intro i hi
      rw [markWeight_eq sh sv dp, tabWeight, tabWeight, cardOm, cardOm, boxesWith_addAll hinj nd1 hT1,
        boxesWith_addAll hinj nd1 hT1, boxesWith_addAll hinj nd2 hT0, boxesWith_addAll hinj nd2 hT0]
      by_cases hik : i = k
      · subst hik
        rw [if_neg (by omega), if_pos rfl, if_pos rfl, if_pos rfl, List.toFinset_card_of_nodup nd1,
          List.toFinset_card_of_nodup nd2, add_comm]
      · rw [if_neg (by omega), if_neg (by omega), if_neg (by omega), if_neg (by omega), if_neg hik,
          markWeight_eq sh sv dp, tabWeight, tabWeight, cardOm, cardOm]
    constructor
    · intro h
      refine ⟨?_, fun i hi => ?_⟩
      · rw [← h k (by omega), hw k le_rfl, if_pos rfl]
      · rw [← h i (by omega), hw i (by omega), if_neg (by omega)]
    · rintro ⟨h1, h2⟩ i hi
      rw [hw i (by omega)]
      split
      · rename_i e; rw [e, h1]
      · exact h2 i (by omega)
  by_cases h0 : m1.2.length + m2.2.length = alpha k
  · rw [if_pos h0]
    refine Finset.sum_congr rfl (fun T hT => ?_)
    have := key T hT
    by_cases h3 : ∀ i < k, markWeight T i = alpha i
    · rw [if_pos h3, if_pos (this.2 ⟨h0, h3⟩)]
    · rw [if_neg h3, if_neg (fun e => h3 (this.1 e).2)]
  · rw [if_neg h0]
    refine Finset.sum_eq_zero (fun T hT => ?_)
    rw [if_neg (fun e => h0 ((key T hT).1 e).1)]

theorem markN_zero (mu : List Nat) (alpha : Nat → Nat) :
    markN sh sv dp lam 0 mu alpha = if mu = lam then 1 else 0 := by
  simp only [markN, markedGen, wCount]
  by_cases h : mu = lam
  · rw [if_pos h, if_pos h]; simp
  · rw [if_neg h, if_neg h]; simp

theorem markN_self (k : Nat) (alpha : Nat → Nat) (h : ∃ i < k, alpha i ≠ 0) : markN sh sv dp lam k lam alpha = 0 := by
  have : markedGen sh sv dp lam k lam = {Tab.empty} := by
    cases k with
    | zero => rw [markedGen, if_pos rfl]
    | succ k => rw [markedGen, if_pos rfl]
  rw [markN, wCount, this, Finset.filter_singleton, if_neg]
  · rfl
  · intro hc
    obtain ⟨i, hi, h0⟩ := h
    exact h0 (hc i hi).symm

theorem markN_off (hdp : sh = false → dp = true) (hl : IsShape sh lam) (hm : IsShape sh mu)
    (h : ¬ shapeSet sh lam ⊆ shapeSet sh mu) (k : Nat) (alpha : Nat → Nat) : markN sh sv dp lam k mu alpha = 0 := by
  have : markedGen sh sv dp lam k mu = ∅ := by
    rw [Finset.eq_empty_iff_forall_notMem]
    intro T hT
    exact h ((isTab_markedGen hdp hl k hm).1 hT).sub
  rw [markN, wCount, this]
  rfl

theorem markN_congr {k : Nat} {alpha alpha' : Nat → Nat} (h : ∀ i < k, alpha i = alpha' i) :
    markN sh sv dp lam k mu alpha = markN sh sv dp lam k mu alpha' := wCount_congr h

/-- Letters that do not occur at the end may be left out. -/
theorem markN_stable (hdp : sh = false → dp = true) (hl : IsShape sh lam) (hm : IsShape sh mu) {l n : Nat} (hln : l ≤ n)
    {alpha : Nat → Nat} (h0 : ∀ i, l ≤ i → i < n → alpha i = 0) :
    markN sh sv dp lam n mu alpha = markN sh sv dp lam l mu alpha := by
  induction n, hln using Nat.le_induction with
  | base => rfl
  | succ n hn ih =>
    rw [← ih (fun i h1 h2 => h0 i h1 (by omega))]
    by_cases hi : shapeSet sh lam ⊆ shapeSet sh mu
    · rw [markN_succ hdp hl hm, h0 n hn (by omega), stepSum_zero hdp hl hm hi]
    · rw [markN_off hdp hl hm hi, markN_off hdp hl hm hi]

open scoped Classical in
theorem markedCount_spec (hdp : sh = false → dp = true) (hl : IsShape sh lam) (n : Nat) : ∀ mu, IsShape sh mu → ∀ q,
    (markedCount sh sv dp lam n mu).getD q 0 =
      if IsPartition q ∧ q.length ≤ n then markN sh sv dp lam q.length mu (fun i => q.getD i 0) else 0 := by
  induction n with
  | zero =>
    intro mu hm q
    have e : (markedCount sh sv dp lam 0 mu).getD q 0 = if mu = lam then (if q = [] then 1 else 0) else 0 := by
      rw [markedCount]
      by_cases h : mu = lam
      · rw [if_pos h, if_pos h, getD_unit]
      · rw [if_neg h, if_neg h, Dict.getD_empty]
    rw [e]
    by_cases hq : q = []
    · have hP : IsPartition q ∧ q.length ≤ 0 := by
        subst hq; exact ⟨⟨List.Pairwise.nil, by simp⟩, by simp⟩
      rw [if_pos hP, if_pos hq, hq, List.length_nil, markN_zero]
    · have hP : ¬ (IsPartition q ∧ q.length ≤ 0) := fun h => hq (List.eq_nil_of_length_eq_zero (by omega))
      rw [if_neg hP, if_neg hq, ite_self]
  | succ n ih =>
    intro mu hm q
    by_cases h1 : mu = lam
    · subst h1
      rw [markedCount, if_pos rfl, getD_unit]
      by_cases hq : q = []
      · subst hq
        rw [if_pos rfl, if_pos ⟨⟨List.Pairwise.nil, by simp⟩, by simp⟩, List.length_nil, markN_zero, if_pos rfl]
      · rw [if_neg hq]
        split
        · rename_i h
          rw [markN_self]
          have := List.length_pos_iff.2 hq
          refine ⟨0, this, ?_⟩
          have := h.1.2 (q.getD 0 0) (by rw [List.getD_eq_getElem _ _ this]; exact List.getElem_mem _)
          omega
        · rfl
    by_cases hi : shapeSet sh lam ⊆ shapeSet sh mu
    swap
    · have hc : ¬ contains mu lam = true := fun h => hi (shapeSet_subset.2 ((contains_iff hl.pos).1 h))
      rw [markedCount, if_neg h1, if_neg hc, Dict.getD_empty, markN_off hdp hl hm hi, ite_self]
    rw [markedCount_succ hdp hl hm h1 ((contains_iff hl.pos).2 (shapeSet_subset.1 hi))]
    by_cases hle : q.length ≤ n
    · rw [stepSum_congr hdp hl hm (G := fun nu m => if m = 0 then (markedCount sh sv dp lam n nu).getD q 0 else 0),
        stepSum_zero hdp hl hm hi, ih mu hm]
      · by_cases hP : IsPartition q
        · rw [if_pos ⟨hP, hle⟩, if_pos ⟨hP, by omega⟩]
        · rw [if_neg (fun h => hP h.1), if_neg (fun h => hP h.1)]
      · intro nu m _ _
        rw [contribD]
        by_cases hm0 : m = 0
        · rw [if_pos hm0, if_pos hm0]
        · rw [if_neg hm0, if_neg hm0, if_neg]
          rintro ⟨h2, h3, h4, h5⟩
          rw [List.length_dropLast] at h4
          have := List.length_pos_iff.2 h2
          omega
    · have hq : q ≠ [] := by rintro rfl; simp at hle
      obtain ⟨k, hk⟩ : ∃ k, q.length = k + 1 := ⟨q.length - 1, by have := List.length_pos_iff.2 hq; omega⟩
      have hlast : q.getLastD 0 = q.getD k 0 := by
        rw [List.getLastD_eq_getLast?, List.getLast?_eq_getLast_of_ne_nil hq, Option.getD_some,
          List.getLast_eq_getElem, List.getD_eq_getElem _ _ (by omega)]
        simp [hk]
      have hdl : q.dropLast.length = k := by rw [List.length_dropLast]; omega
      by_cases hP : IsPartition q ∧ q.length ≤ n + 1
      · obtain ⟨p1, p2, p3⟩ := (isPartition_dropLast hq).1 hP.1
        rw [if_pos hP, hk, markN_succ hdp hl hm]
        refine stepSum_congr hdp hl hm (fun nu m hnu _ => ?_)
        rw [contribD]
        by_cases hm0 : m = 0
        · rw [if_pos hm0, if_neg (by omega), ih nu hnu, if_neg (fun h => hle h.2)]
        · rw [if_neg hm0]
          by_cases h2 : m = q.getD k 0
          · rw [if_pos h2, if_pos ⟨hq, by omega, by omega, by rw [h2, ← hlast]; exact p3⟩, ih nu hnu,
              if_pos ⟨p1, by omega⟩, hdl]
            apply markN_congr
            intro i hi
            rw [List.getD_eq_getElem _ _ (by omega), List.getD_eq_getElem _ _ (by omega), List.getElem_dropLast]
          · rw [if_neg h2, if_neg]
            rintro ⟨_, e, _⟩
            omega
      · rw [if_neg hP, stepSum_congr hdp hl hm (G := fun _ _ => 0)]
        · simp [stepSum]
        · intro nu m hnu _
          rw [contribD]
          by_cases hm0 : m = 0
          · rw [if_pos hm0, ih nu hnu, if_neg (fun h => hle h.2)]
          · rw [if_neg hm0]
            split
            · rename_i h2
              rw [ih nu hnu, if_neg]
              rintro ⟨h3, h4⟩
              apply hP
              refine ⟨(isPartition_dropLast hq).2 ⟨h3, by omega, ?_⟩, by omega⟩
              rw [h2.2.1]; exact h2.2.2.2
            · rfl

theorem markedCountInner_keys (n d k1 k2 i : Nat) (p : List Nat) (c : Int) (hp : p.length ≤ n) (js : List Nat)
    (ans : Dict (List Nat) Int) (h : ∀ q ∈ ans.keys, q.length ≤ n + 1) :
    ∀ q ∈ (markedCountInner (n + 1) d k1 k2 i p c js ans).keys, q.length ≤ n + 1 := by
  induction js generalizing ans with
  | nil => exact h
  | cons j js ih =>
    rw [markedCountInner]
    split
    · apply ih
      intro q hq
      rcases mem_keys_bump hq with rfl | hq
      · omega
      · exact h q hq
    · split
      · exact h
      · apply ih
        intro q hq
        rcases mem_keys_bump hq with rfl | hq
        · simp; omega
        · exact h q hq

theorem markedCount_keys (sh sv dp : Bool) (lam : List Nat) (n : Nat) :
    ∀ mu, ∀ q ∈ (markedCount sh sv dp lam n mu).keys, q.length ≤ n := by
  induction n with
  | zero =>
    intro mu q hq
    rw [markedCount] at hq
    split at hq
    · have : q = [] := by simpa [Dict.keys, Dict.set, Dict.empty, Dict.insertItem] using hq
      simp [this]
    · simp [Dict.keys, Dict.empty] at hq
  | succ n ih =>
    intro mu
    rw [markedCount]
    split
    · intro q hq
      have : q = [] := by simpa [Dict.keys, Dict.set, Dict.empty, Dict.insertItem] using hq
      simp [this]
    · split
      · apply foldl_inv (P := fun d : Dict (List Nat) Int => ∀ q ∈ d.keys, q.length ≤ n + 1)
        · intro s1 _ ans hans
          apply foldl_inv (P := fun d : Dict (List Nat) Int => ∀ q ∈ d.keys, q.length ≤ n + 1)
          · intro s2 _ ans hans
            apply foldl_inv (P := fun d : Dict (List Nat) Int => ∀ q ∈ d.keys, q.length ≤ n + 1)
            · intro pc hpc ans hans
              apply foldl_inv (P := fun d : Dict (List Nat) Int => ∀ q ∈ d.keys, q.length ≤ n + 1)
              · intro i _ ans hans
                exact markedCountInner_keys n _ _ _ _ _ _ (ih _ _ (Dict.mem_keys_of_items hpc)) _ _ hans
              · exact hans
            · exact hans
          · exact hans
        · intro q hq; simp [Dict.keys, Dict.empty] at hq
      · intro q hq; simp [Dict.keys, Dict.empty] at hq

end Verif.Tableaux
