import Verif.Lemmas.MarkedRpp

/-! Marked reverse plane partitions: no assertion fails, the dicts of counts, and the weights. -/

attribute [-simp] List.getD_eq_getElem?_getD

namespace Verif.Tableaux

open Tab Verif.Part Partition Symm

variable {dn : Bool} {lam mu : List Nat}

theorem semistandardMarkedRpp_eq (n : Nat) {mu : List Nat} (hm : IsStrict mu) :
    semistandardMarkedRpp dn lam n mu = some (mrppGen dn lam n mu) := by
  induction n generalizing mu with
  | zero =>
    rw [semistandardMarkedRpp, if_pos (strict_iff hm), mrppGen]
    split <;> rfl
  | succ n ih =>
    rw [semistandardMarkedRpp, if_pos (strict_iff hm), mrppGen]
    by_cases h1 : mu = lam
    · rw [if_pos h1, if_pos h1]
    rw [if_neg h1, if_neg h1]
    by_cases h2 : contains mu lam = true
    swap
    · rw [if_neg h2, if_neg h2]
    rw [if_pos h2, if_pos h2]
    obtain ⟨strips1, e1, H1, _⟩ := shiftedRppHorizontalStrips_spec hm
    rw [e1, mrppH, e1]
    simp only [Option.getD_some, Option.bind_eq_bind, Option.bind_some]
    rw [mapM_some strips1 _ (fun s1 => (mrppV s1.1).toFinset.biUnion (fun s2 =>
      if dn || !meetsDiagonal s1.2 then markedRppLayer (n + 1) s1.2 s2.2 (mrppGen dn lam n s2.1) else ∅))]
    · rw [Option.bind_some, unionAll_map]
      congr 1
      ext T
      simp only [Finset.mem_biUnion, List.mem_toFinset, List.mem_filter]
      constructor
      · rintro ⟨s1, hs1, s2, hs2, hT⟩
        by_cases hd : (dn || !meetsDiagonal s1.2) = true
        · rw [if_pos hd] at hT
          exact ⟨s1, ⟨hs1, hd⟩, s2, hs2, hT⟩
        · rw [if_neg hd] at hT
          exact absurd hT (by simp)
      · rintro ⟨s1, ⟨hs1, hd⟩, s2, hs2, hT⟩
        exact ⟨s1, hs1, s2, hs2, by rw [if_pos hd]; exact hT⟩
    · intro s1 hs1
      have hm1 := ((H1 s1).1 hs1).1
      obtain ⟨strips2, e2, H2, _⟩ := shiftedRppVerticalStrips_spec hm1
      rw [e2, mrppV, e2]
      simp only [Option.getD_some, Option.bind_some]
      rw [mapM_some strips2 _ (fun s2 => if dn || !meetsDiagonal s1.2 then
        markedRppLayer (n + 1) s1.2 s2.2 (mrppGen dn lam n s2.1) else ∅)]
      · rw [Option.bind_some, unionAll_map]
      · intro s2 hs2
        rw [ih ((H2 s2).1 hs2).1]
        split <;> rfl

/-- The last two letters, for the dicts of counts. -/
def mrppSteps (dn : Bool) (mu : List Nat) : List (List Nat × Nat) :=
  (mrppH dn mu).flatMap (fun s1 => (mrppV s1.1).map (fun s2 => (s2.1, markedRppSize s1.2 s2.2)))

/-- The dicts of counts, without the assertions. -/
def mrppCount (dn : Bool) (lam : List Nat) : Nat → List Nat → Dict (List Nat) Int
  | 0, mu => if mu = lam then Dict.empty.set [] 1 else Dict.empty
  | n + 1, mu =>
    if mu = lam then Dict.empty.set [] 1
    else if contains mu lam then
      (mrppSteps dn mu).foldl (fun ans s =>
        if mu = s.1 then ans else rppCountLoop s.2 (mrppCount dn lam n s.1).items ans) Dict.empty
    else Dict.empty

theorem countSemistandardMarkedRpp_eq (n : Nat) {mu : List Nat} (hm : IsStrict mu) :
    countSemistandardMarkedRpp dn lam n mu = some (mrppCount dn lam n mu) := by
  induction n generalizing mu with
  | zero =>
    rw [countSemistandardMarkedRpp, if_pos (strict_iff hm), mrppCount]
    split <;> rfl
  | succ n ih =>
    rw [countSemistandardMarkedRpp, if_pos (strict_iff hm), mrppCount]
    by_cases h1 : mu = lam
    · rw [if_pos h1, if_pos h1]
    rw [if_neg h1, if_neg h1]
    by_cases h2 : contains mu lam = true
    swap
    · rw [if_neg h2, if_neg h2]
    rw [if_pos h2, if_pos h2]
    obtain ⟨strips1, e1, H1, _⟩ := shiftedRppHorizontalStrips_spec hm
    rw [e1, mrppSteps, mrppH, e1, List.foldl_flatMap, Option.getD_some, List.foldl_filter]
    simp only [Option.bind_eq_bind, Option.bind_some]
    refine foldlM_some strips1 _ _ ?_ _
    intro s1 hs1 ans
    have hm1 := ((H1 s1).1 hs1).1
    obtain ⟨strips2, e2, H2, _⟩ := shiftedRppVerticalStrips_spec hm1
    rw [e2, mrppV, e2]
    simp only [Option.getD_some, Option.bind_some, List.foldl_map]
    by_cases hd : (dn || !meetsDiagonal s1.2) = true
    · rw [if_pos hd, if_neg (by revert hd; cases dn <;> cases meetsDiagonal s1.2 <;> simp)]
      refine foldlM_some strips2 _ _ ?_ _
      intro s2 hs2 ans
      rw [ih ((H2 s2).1 hs2).1]
      split <;> rfl
    · rw [if_neg hd, if_pos (by revert hd; cases dn <;> cases meetsDiagonal s1.2 <;> simp)]

theorem colsOf_eq_zero {nu : List Nat} (hm : IsStrict mu) (hn : IsStrict nu) (hle : ∀ j, nu.getD j 0 ≤ mu.getD j 0) :
    (skew mu nu true).toFinset = ∅ ↔ nu = mu := by
  constructor
  · intro h
    refine shapeSet_inj (sh := true) hn hm (Set.Subset.antisymm (shapeSet_subset.2 hle) (fun b hb => ?_))
    by_contra hc
    have : b ∈ (skew mu nu true).toFinset := (mem_skewF b).2 ⟨hb, hc⟩
    rw [h] at this
    simp at this
  · rintro rfl
    rw [Finset.eq_empty_iff_forall_notMem]
    intro b hb
    have := (mem_skewF b).1 hb
    exact this.2 this.1

theorem length_dedup_snd (d : List (Nat × Nat)) : (d.map Prod.snd).dedup.length = (d.toFinset.image Prod.snd).card := by
  rw [← List.card_toFinset]
  congr 1
  ext j
  simp

theorem length_dedup_fst (d : List (Nat × Nat)) : (d.map Prod.fst).dedup.length = (d.toFinset.image Prod.fst).card := by
  rw [← List.card_toFinset]
  congr 1
  ext j
  simp

theorem size_eq {nu1 nu2 : List Nat} {d1 d2 : List (Nat × Nat)} (h1 : d1 = skew mu nu1 true) (h2 : d2 = skew nu1 nu2 true) :
    markedRppSize d1 d2 = colsOf mu nu1 + rowsOf nu1 nu2 := by
  rw [markedRppSize, length_dedup_snd, length_dedup_fst, h1, h2, colsOf, rowsOf]

theorem mem_mrppSteps (hm : IsStrict mu) {s : List Nat × Nat} (hs : s ∈ mrppSteps dn mu) :
    ∃ nu1, IsStrict nu1 ∧ (∀ j, nu1.getD j 0 ≤ mu.getD j 0) ∧ IsStrict s.1 ∧ (∀ j, s.1.getD j 0 ≤ nu1.getD j 0) ∧
      s.2 = colsOf mu nu1 + rowsOf nu1 s.1 := by
  rw [mrppSteps, List.mem_flatMap] at hs
  obtain ⟨s1, hs1, hs⟩ := hs
  obtain ⟨s2, hs2, rfl⟩ := List.mem_map.1 hs
  obtain ⟨a1, a2, a3, _⟩ := (mem_mrppH hm s1).1 hs1
  obtain ⟨b1, b2, b3⟩ := (mem_mrppV a1 s2).1 hs2
  exact ⟨s1.1, a1, a2, b1, b2, size_eq a3 b3⟩

theorem countP_fst {l : List (List Nat × List (Nat × Nat))} (hnd : l.Nodup) {f : List Nat → List (Nat × Nat)}
    (hf : ∀ s ∈ l, s.2 = f s.1) (nu : List Nat) :
    l.countP (fun s => decide (s.1 = nu)) = if (nu, f nu) ∈ l then 1 else 0 := by
  have e : l.countP (fun s => decide (s.1 = nu)) = l.count (nu, f nu) := by
    rw [List.count]
    refine List.countP_congr (fun s hs => ?_)
    simp only [decide_eq_true_eq, beq_iff_eq]
    constructor
    · intro h
      exact Prod.ext h (by rw [hf s hs, h])
    · intro h
      rw [h]
  rw [e]
  split_ifs with h
  · exact List.count_eq_one_of_mem hnd h
  · exact List.count_eq_zero_of_not_mem h

theorem diagOk_self (dn : Bool) (mu : List Nat) : DiagOk dn mu mu := by
  right
  intro b hb
  have := (mem_skewF b).1 hb
  exact absurd this.1 this.2

theorem mrppSteps_once (hm : IsStrict mu) : (mrppSteps dn mu).countP (fun s => decide (s.1 = mu)) = 1 := by
  rw [mrppSteps, List.countP_flatMap]
  have e : (mrppH dn mu).map ((fun l => List.countP (fun s : List Nat × Nat => decide (s.1 = mu)) l) ∘
      (fun s1 => (mrppV s1.1).map (fun s2 => (s2.1, markedRppSize s1.2 s2.2)))) =
      (mrppH dn mu).map (fun s1 => if decide (s1.1 = mu) then 1 else 0) := by
    refine List.map_congr_left (fun s1 hs1 => ?_)
    obtain ⟨a1, a2, a3, _⟩ := (mem_mrppH hm s1).1 hs1
    rw [Function.comp_apply, List.countP_map]
    have := countP_fst (nodup_mrppV a1) (f := fun nu => skew s1.1 nu true) (fun s hs => ((mem_mrppV a1 s).1 hs).2.2) mu
    refine this.trans ?_
    by_cases h : s1.1 = mu
    · rw [if_pos ((mem_mrppV a1 _).2 ⟨hm, fun j => by rw [h], rfl⟩), if_pos (by simp [h])]
    · have hd : decide (s1.1 = mu) = false := by simp [h]
      have hno : (mu, skew s1.1 mu true) ∉ mrppV s1.1 := by
        intro hc
        obtain ⟨_, h2, _⟩ := (mem_mrppV a1 _).1 hc
        exact h (row_ext a1.2 hm.2 (fun j => le_antisymm (a2 j) (h2 j)))
      rw [hd, if_neg hno]
      rfl
  have e' := e
  simp only [Function.comp_def] at e'
  first
    | rw [e]
    | (simp only [Function.comp_def]; rw [e'])
  have e2 := countP_fst (nodup_mrppH (dn := dn) hm) (f := fun nu => skew mu nu true)
    (fun s hs => ((mem_mrppH hm s).1 hs).2.2.1) mu
  rw [if_pos ((mem_mrppH hm _).2 ⟨hm, fun _ => le_rfl, rfl, diagOk_self dn mu⟩)] at e2
  refine Eq.trans ?_ e2
  generalize mrppH dn mu = l
  induction l with
  | nil => rfl
  | cons a l ih =>
    rw [List.map_cons, List.sum_cons, ih, List.countP_cons]
    split <;> omega

theorem mrpp_wCount_succ (hl : IsStrict lam) (k : Nat) (hm : IsStrict mu) (alpha : Nat → Nat) :
    wCount (mrppGen dn lam (k + 1) mu) (k + 1) mrppWt alpha =
      ∑ s1 ∈ (mrppMoves dn lam (2 * k + 2) mu).toFinset, ∑ s2 ∈ (mrppMoves dn lam (2 * k + 1) s1.1).toFinset,
        if colsOf mu s1.1 + rowsOf s1.1 s2.1 = alpha k then wCount (mrppGen dn lam k s2.1) k mrppWt alpha else 0 := by
  rw [wCount, Finset.card_filter, sum_mrppGen hl k hm]
  push_cast
  refine Finset.sum_congr rfl (fun s1 hs1 => Finset.sum_congr rfl (fun s2 hs2 => ?_))
  rw [wCount, Finset.card_filter]
  push_cast
  by_cases h : colsOf mu s1.1 + rowsOf s1.1 s2.1 = alpha k
  · rw [if_pos h]
    refine Finset.sum_congr rfl (fun T hT => ?_)
    have hw := mrppWt_add hl k hm (List.mem_toFinset.1 hs1) (List.mem_toFinset.1 hs2) hT
    have hiff : (∀ i < k + 1, mrppWt (addAll s1.2 ((mrppRules dn).val (2 * k + 2))
        (addAll s2.2 ((mrppRules dn).val (2 * k + 1)) T)) i = alpha i) ↔ ∀ i < k, mrppWt T i = alpha i := by
      constructor
      · intro h' i hi
        have := h' i (by omega)
        rwa [hw i (by omega), if_neg (by omega)] at this
      · intro h' i hi
        rw [hw i (by omega)]
        by_cases hik : i = k
        · subst hik
          rw [if_pos rfl, h]
        · rw [if_neg hik]
          exact h' i (by omega)
    simp only [hiff]
  · rw [if_neg h]
    refine Finset.sum_eq_zero (fun T hT => ?_)
    have hw := mrppWt_add hl k hm (List.mem_toFinset.1 hs1) (List.mem_toFinset.1 hs2) hT
    rw [if_neg]
    intro h'
    have := h' k (by omega)
    rw [hw k le_rfl, if_pos rfl] at this
    exact h this

theorem mrppGen_empty (hl : IsStrict lam) (hm : IsStrict mu) (k : Nat) (hi : ¬ contains mu lam = true) :
    mrppGen dn lam k mu = ∅ := by
  rw [Finset.eq_empty_iff_forall_notMem]
  intro T hT
  have h := (isTab_mrppGen hl k hm).1 hT
  exact hi ((contains_iff hl.2).2 (shapeSet_subset.1 h.sub))

theorem mrpp_countSetup (hl : IsStrict lam) :
    CountSetup lam (mrppCount dn lam) (fun mu => IsStrict mu) (fun mu => contains mu lam = true) (mrppSteps dn)
      (fun k mu alpha => wCount (mrppGen dn lam k mu) k mrppWt alpha) := by
  refine ⟨fun mu => rfl, ?_, ?_, ?_, ?_, ?_, ?_, ?_, ?_, ?_, ?_, ?_, ?_, hl⟩
  · intro n
    rw [mrppCount, if_pos rfl]
  · intro n mu hm h1 h2
    rw [mrppCount, if_neg h1, if_pos h2]
  · intro n mu hm h1 h2
    rw [mrppCount, if_neg h1, if_neg h2]
  · intro mu hm s hs
    obtain ⟨_, _, _, h, _⟩ := mem_mrppSteps hm hs
    exact h
  · intro mu hm s hs
    obtain ⟨nu1, a1, a2, a3, a4, a5⟩ := mem_mrppSteps hm hs
    rw [a5]
    have e1 := colsOf_eq_zero hm a1 a2
    have e2 := colsOf_eq_zero a1 a3 a4
    have c1 : colsOf mu nu1 = 0 ↔ nu1 = mu := by rw [← e1, colsOf, Finset.card_eq_zero, Finset.image_eq_empty]
    have c2 : rowsOf nu1 s.1 = 0 ↔ s.1 = nu1 := by rw [← e2, rowsOf, Finset.card_eq_zero, Finset.image_eq_empty]
    rw [Nat.add_eq_zero_iff, c1, c2]
    constructor
    · rintro ⟨h, h'⟩; rw [h', h]
    · intro h
      have : nu1 = mu := row_ext a1.2 hm.2 (fun j => le_antisymm (a2 j) (by rw [← h]; exact a4 j))
      exact ⟨this, h.trans this.symm⟩
  · intro mu hm hi
    exact mrppSteps_once hm
  · intro s hs hne
    obtain ⟨nu1, a1, a2, a3, a4, a5⟩ := mem_mrppSteps hl hs
    rw [contains_iff hl.2]
    intro h
    exact hne (row_ext a3.2 hl.2 (fun i => le_antisymm ((a4 i).trans (a2 i)) (h i)))
  · intro mu hm alpha
    simp only [mrppGen, wCount]
    by_cases h : mu = lam
    · rw [if_pos h, if_pos h]; simp
    · rw [if_neg h, if_neg h]; simp
  · intro mu hm k alpha hi
    rw [mrpp_wCount_succ hl k hm, mrppMoves_even, List.toFinset_filter, Finset.sum_filter]
    have hstep : ∀ s1 ∈ (mrppH dn mu).toFinset, (if contains s1.1 lam = true then
        ∑ s2 ∈ (mrppMoves dn lam (2 * k + 1) s1.1).toFinset,
          (if colsOf mu s1.1 + rowsOf s1.1 s2.1 = alpha k then wCount (mrppGen dn lam k s2.1) k mrppWt alpha else 0)
        else 0) = ((mrppV s1.1).map (fun s2 => if markedRppSize s1.2 s2.2 = alpha k then
          wCount (mrppGen dn lam k s2.1) k mrppWt alpha else 0)).sum := by
      intro s1 hs1
      obtain ⟨a1, a2, a3, _⟩ := (mem_mrppH hm s1).1 (List.mem_toFinset.1 hs1)
      rw [← List.sum_toFinset _ (nodup_mrppV a1)]
      have hz : ∀ s2 ∈ (mrppV s1.1).toFinset, ¬ contains s2.1 lam = true →
          (if markedRppSize s1.2 s2.2 = alpha k then wCount (mrppGen dn lam k s2.1) k mrppWt alpha else 0) = 0 := by
        intro s2 hs2 h
        obtain ⟨b1, b2, b3⟩ := (mem_mrppV a1 s2).1 (List.mem_toFinset.1 hs2)
        rw [mrppGen_empty hl b1 k h]
        simp [wCount]
      by_cases hc : contains s1.1 lam = true
      · rw [if_pos hc, mrppMoves_odd, List.toFinset_filter, Finset.sum_filter]
        refine Finset.sum_congr rfl (fun s2 hs2 => ?_)
        obtain ⟨b1, b2, b3⟩ := (mem_mrppV a1 s2).1 (List.mem_toFinset.1 hs2)
        by_cases hc2 : contains s2.1 lam = true
        · rw [if_pos hc2, size_eq a3 b3]
        · rw [if_neg hc2, hz s2 hs2 hc2]
      · rw [if_neg hc]
        symm
        refine Finset.sum_eq_zero (fun s2 hs2 => hz s2 hs2 (fun h => hc ?_))
        obtain ⟨b1, b2, b3⟩ := (mem_mrppV a1 s2).1 (List.mem_toFinset.1 hs2)
        rw [contains_iff hl.2] at h ⊢
        exact fun j => (h j).trans (b2 j)
    rw [Finset.sum_congr rfl hstep, List.sum_toFinset _ (nodup_mrppH hm), mrppSteps, List.map_flatMap, List.flatMap,
      List.sum_flatten, List.map_map]
    refine congrArg List.sum (List.map_congr_left (fun s1 _ => ?_))
    rw [Function.comp_apply, List.map_map]
    rfl
  · intro mu hm k alpha hi
    rw [mrppGen_empty hl hm k hi]
    simp [wCount]
  · intro k mu alpha alpha' h
    exact wCount_congr h
  · exact (contains_iff hl.2).2 (fun _ => le_rfl)

/-! ### weights -/

theorem foldl_split {α β : Type} (l : List α) (p : α → Bool) (f g : β → α → β) (a b : β) :
    l.foldl (fun (st : β × β) x => if p x then (f st.1 x, st.2) else (st.1, g st.2 x)) (a, b) =
      ((l.filter p).foldl f a, (l.filter (fun x => !p x)).foldl g b) := by
  induction l generalizing a b with
  | nil => rfl
  | cons c l ih =>
    rw [List.foldl_cons]
    by_cases h : p c = true
    · rw [if_pos h, ih, List.filter_cons_of_pos h, List.filter_cons_of_neg (by simp [h]), List.foldl_cons]
    · rw [if_neg h, ih, List.filter_cons_of_neg h, List.filter_cons_of_pos (by simp [h]), List.foldl_cons]

/-- `weight` counts the columns of the unprimed and the rows of the primed letters. -/
theorem markedRppWeight_eq {n : Nat} {T : Tab} (h : IsTab (mrppRules dn) lam (2 * n) mu T) :
    markedRppWeight n T = some (wtL n mrppWt T) := by
  have hval : ∀ b x, x ∈ T.ent b → x ≠ 0 ∧ x.natAbs ≤ n := by
    intro b x hx
    constructor
    · rintro rfl
      exact notMem_of_mrpp h (Or.inl rfl) b hx
    · by_contra hc
      exact notMem_of_mrpp h (Or.inr (by omega)) b hx
  obtain ⟨F, hF⟩ : ∃ F : (List (Finset Nat) × List (Finset Nat)) → (Nat × Nat) → Int →
      (List (Finset Nat) × List (Finset Nat)), F = fun st b x =>
      if decide (x > 0) = true then (st.1.set (x.natAbs - 1) (insert b.2 (st.1.getD (x.natAbs - 1) ∅)), st.2)
      else (st.1, st.2.set (x.natAbs - 1) (insert b.1 (st.2.getD (x.natAbs - 1) ∅))) := ⟨_, rfl⟩
  have hrun : T.items.foldlM (fun st (p : (Nat × Nat) × List Int) => p.2.foldlM (markedRppWeightStep n p.1) st)
      (List.replicate n ∅, List.replicate n ∅) =
      some (T.items.foldl (fun st p => p.2.foldl (fun st x => F st p.1 x) st) (List.replicate n ∅, List.replicate n ∅)) := by
    refine foldlM_some _ _ _ ?_ _
    rintro ⟨b, s⟩ hp st
    refine foldlM_some _ _ _ ?_ _
    intro x hx st
    have hx' : x ∈ T.ent b := by rw [ent, get?_eq_some.2 hp]; exact hx
    obtain ⟨h1, h2⟩ := hval b x hx'
    rw [markedRppWeightStep, if_neg h1, if_neg (by omega), hF]
    by_cases h3 : x > 0
    · rw [if_pos h3]
      simp [h3]
    · rw [if_neg h3]
      simp [h3]
  rw [markedRppWeight, hrun, foldl_foldl_flatMap T.items F, hF]
  have hs := foldl_split (T.items.flatMap (fun p => p.2.map (fun x => (p.1, x))))
    (fun q : (Nat × Nat) × Int => decide (q.2 > 0))
    (fun (a : List (Finset Nat)) q => a.set (q.2.natAbs - 1) (insert q.1.2 (a.getD (q.2.natAbs - 1) ∅)))
    (fun (a : List (Finset Nat)) q => a.set (q.2.natAbs - 1) (insert q.1.1 (a.getD (q.2.natAbs - 1) ∅)))
    (List.replicate n ∅) (List.replicate n ∅)
  simp only at hs ⊢
  rw [hs, Option.map_some]
  congr 1
  rw [wtL]
  refine List.map_congr_left (fun i hi => ?_)
  have hi := List.mem_range.1 hi
  have he : ∀ c, c ∉ (List.replicate n (∅ : Finset Nat)).getD i ∅ := by
    intro c
    rw [List.getD_eq_getElem _ _ (by rw [List.length_replicate]; omega)]
    simp
  have s1 := (mem_foldl_insert (α := (Nat × Nat) × Int)
    ((T.items.flatMap (fun p => p.2.map (fun x => (p.1, x)))).filter (fun q => decide (q.2 > 0)))
    (fun q => q.2.natAbs - 1) (fun q => q.1.2) (List.replicate n ∅)).2 i (by rw [List.length_replicate]; omega)
  have s2 := (mem_foldl_insert (α := (Nat × Nat) × Int)
    ((T.items.flatMap (fun p => p.2.map (fun x => (p.1, x)))).filter (fun q => !decide (q.2 > 0)))
    (fun q => q.2.natAbs - 1) (fun q => q.1.1) (List.replicate n ∅)).2 i (by rw [List.length_replicate]; omega)
  rw [mrppWt]
  congr 2
  · ext c
    rw [s1 c, Finset.mem_image]
    constructor
    · rintro (h3 | ⟨⟨b, x⟩, h3, h4, h5⟩)
      · exact absurd h3 (he c)
      · obtain ⟨h3, h6⟩ := List.mem_filter.1 h3
        rw [mem_boxPairs] at h3
        simp only [decide_eq_true_eq] at h6 h4 h5
        refine ⟨b, mem_boxesWith.2 ?_, h5⟩
        rw [show (i : Int) + 1 = x by omega]; exact h3
    · rintro ⟨b, h3, h5⟩
      rw [mem_boxesWith] at h3
      exact Or.inr ⟨(b, (i : Int) + 1), List.mem_filter.2 ⟨(mem_boxPairs _ _).2 h3, by simp only [decide_eq_true_eq]; omega⟩,
        by simp only; omega, h5⟩
  · ext c
    rw [s2 c, Finset.mem_image]
    constructor
    · rintro (h3 | ⟨⟨b, x⟩, h3, h4, h5⟩)
      · exact absurd h3 (he c)
      · obtain ⟨h3, h6⟩ := List.mem_filter.1 h3
        rw [mem_boxPairs] at h3
        have h7 := (hval b x h3).1
        simp only [Bool.not_eq_true', decide_eq_false_iff_not] at h6 h4 h5
        refine ⟨b, mem_boxesWith.2 ?_, h5⟩
        rw [show -((i : Int) + 1) = x by omega]; exact h3
    · rintro ⟨b, h3, h5⟩
      rw [mem_boxesWith] at h3
      exact Or.inr ⟨(b, -((i : Int) + 1)), List.mem_filter.2 ⟨(mem_boxPairs _ _).2 h3,
        by simp only [Bool.not_eq_true', decide_eq_false_iff_not]; omega⟩, by simp only; omega, h5⟩

end Verif.Tableaux
