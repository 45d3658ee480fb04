import Verif.Lemmas.MarkedStrips
import Verif.Lemmas.MarkedSymm
import Verif.Lemmas.RppCount
import Verif.Lemmas.TabCount

/-! Marked tableaux: the generated sets and the dicts of counts, in one form for all cases. -/

attribute [-simp] List.getD_eq_getElem?_getD

namespace Verif.Tableaux

open Tab Verif.Part Partition Symm

/-- The horizontal strips, for shifted or unshifted shapes. -/
def hStrips (sh : Bool) (mu lam : List Nat) : List Strip :=
  if sh then (shiftedHorizontalStrips mu lam).getD [] else horizontalStrips mu lam

/-- The vertical strips. -/
def vStrips (sh dp : Bool) (mu lam : List Nat) : List Strip :=
  if sh then diagonalFilter dp ((shiftedVerticalStrips mu lam).getD []) else verticalStrips mu lam

variable {sh sv dp : Bool} {lam mu : List Nat}

theorem hStrips_list (hl : IsShape sh lam) (hm : IsShape sh mu) :
    StripList sh True False True lam mu (hStrips sh mu lam) := by
  cases sh with
  | false => exact horizontalStrips_list hm hl
  | true =>
    obtain ⟨strips, h1, h2⟩ := shiftedHorizontalStrips_list hm hl
    rw [hStrips, if_pos rfl, h1]
    exact h2

theorem vStrips_list (hdp : sh = false → dp = true) (hl : IsShape sh lam) (hm : IsShape sh mu) :
    StripList sh False True (dp = true) lam mu (vStrips sh dp mu lam) := by
  cases sh with
  | false =>
    rw [hdp rfl]
    have : (true = true) = True := by simp
    rw [this]
    exact verticalStrips_list hm hl
  | true =>
    obtain ⟨strips, h1, h2⟩ := shiftedVerticalStrips_list hm hl
    rw [vStrips, if_pos rfl, h1]
    exact diagonalFilter_list dp h2

/-- The moves for the letters `1', 1, 2', 2, ...`. -/
def markMoves (sh sv dp : Bool) (lam : List Nat) (k : Nat) (mu : List Nat) : List (List Nat × List (Nat × Nat)) :=
  movesOf sv (if k % 2 = 0 then hStrips sh mu lam else vStrips sh dp mu lam)

theorem markMoves_even (k : Nat) : markMoves sh sv dp lam (2 * k + 2) mu = movesOf sv (hStrips sh mu lam) := by
  rw [markMoves, if_pos (by omega)]

theorem markMoves_odd (k : Nat) : markMoves sh sv dp lam (2 * k + 1) mu = movesOf sv (vStrips sh dp mu lam) := by
  rw [markMoves, if_neg (by omega)]

theorem markMoves_lists (hdp : sh = false → dp = true) (hl : IsShape sh lam) (k : Nat) (mu : List Nat) (hm : IsShape sh mu) :
    ListsMoves (markRules sh sv dp) lam (k + 1) mu (markMoves sh sv dp lam (k + 1) mu) := by
  have := Nat.mod_two_eq_zero_or_one (k + 1)
  rw [markMoves]
  rcases this with h | h
  · rw [if_pos h]
    refine StripList.lists (R := markRules sh sv dp) ?_
    have e1 : (markRules sh sv dp).rowRep (k + 1) = True := by simp [markRules, h]
    have e2 : (markRules sh sv dp).colRep (k + 1) = False := by simp [markRules, h]
    have e3 : (markRules sh sv dp).diag (k + 1) = True := by simp [markRules, h]
    rw [e1, e2, e3]
    exact hStrips_list hl hm
  · rw [if_neg (by omega)]
    refine StripList.lists (R := markRules sh sv dp) ?_
    have e1 : (markRules sh sv dp).rowRep (k + 1) = False := by simp [markRules, h]
    have e2 : (markRules sh sv dp).colRep (k + 1) = True := by simp [markRules, h]
    have e3 : (markRules sh sv dp).diag (k + 1) = (dp = true) := by simp [markRules, h]
    rw [e1, e2, e3]
    exact vStrips_list hdp hl hm

/-- The sets of marked tableaux, without the assertions. -/
def markedGen (sh sv dp : Bool) (lam : List Nat) : Nat → List Nat → Finset Tab
  | 0, mu => if mu = lam then {Tab.empty} else ∅
  | n + 1, mu =>
    if mu = lam then {Tab.empty}
    else if contains mu lam then
      (hStrips sh mu lam).toFinset.biUnion (fun s1 =>
        (vStrips sh dp s1.1 lam).toFinset.biUnion (fun s2 =>
          markedLayer sv (n + 1) s1 s2 (markedGen sh sv dp lam n s2.1)))
    else ∅

theorem semistandardMarked_eq (sv dp : Bool) (lam : List Nat) (n : Nat) (mu : List Nat) :
    semistandardMarked sv lam n mu = markedGen false sv dp lam n mu := by
  induction n generalizing mu with
  | zero => rfl
  | succ n ih =>
    rw [semistandardMarked, markedGen]
    simp only [ih]
    rfl

/-- Adding the two letters in either order. -/
theorem addAll_comm {T : Tab} (hT : T.Canon) {a1 a2 : List (Nat × Nat)} (h1 : a1.Nodup) (h2 : a2.Nodup) {x y : Int}
    (hxy : x ≠ y) (hx : ∀ b, x ∉ T.ent b) (hy : ∀ b, y ∉ T.ent b) :
    addAll a1 x (addAll a2 y T) = addAll a2 y (addAll a1 x T) := by
  obtain ⟨c1, e1⟩ := addAll_spec a2 h2 y hT (fun b _ => hy b)
  obtain ⟨c2, e2⟩ := addAll_spec a1 h1 x hT (fun b _ => hx b)
  obtain ⟨c3, e3⟩ := addAll_spec a1 h1 x c1 (fun b _ hb => by
    rcases (e1 b x).1 hb with h | h
    · exact hx b h
    · exact hxy h.2)
  obtain ⟨c4, e4⟩ := addAll_spec a2 h2 y c2 (fun b _ hb => by
    rcases (e2 b y).1 hb with h | h
    · exact hy b h
    · exact hxy h.2.symm)
  refine c3.ext c4 (fun b z => ?_)
  rw [e3, e1, e4, e2]
  tauto

theorem notMem_of_isTab {n : Nat} {T : Tab} (h : IsTab (markRules sh sv dp) lam (2 * n) mu T) {x : Int}
    (hx : x.natAbs = 0 ∨ n < x.natAbs) (b : Nat × Nat) : x ∉ T.ent b := by
  intro hb
  obtain ⟨k, h1, h2, rfl⟩ := h.range b x hb
  simp only [markRules] at hx
  split at hx <;> omega

theorem mem_markedGen (hdp : sh = false → dp = true) (hl : IsShape sh lam) (n : Nat) {mu : List Nat} (hm : IsShape sh mu)
    (T : Tab) : T ∈ markedGen sh sv dp lam n mu ↔
      T ∈ genTabs (markRules sh sv dp) lam (markMoves sh sv dp lam) (2 * n) mu := by
  have hinj := markRules_inj sh sv dp
  have hmv := markMoves_lists (sv := sv) hdp hl
  induction n generalizing mu T with
  | zero => rfl
  | succ n ih =>
    have hgen := mem_genTabs hinj (lam := lam) hl hmv (2 * n + 2) (mu := mu) hm (T := T)
    rw [show 2 * (n + 1) = 2 * n + 2 by ring, markedGen]
    by_cases h1 : mu = lam
    · rw [if_pos h1, hgen]
      subst h1
      rw [isTab_self, Finset.mem_singleton]
    · rw [if_neg h1]
      by_cases h2 : contains mu lam = true
      · rw [if_pos h2, genTabs]
        simp only [Finset.mem_biUnion, Finset.mem_image, List.mem_toFinset, markedLayer, markMoves_even, mem_movesOf,
          genTabs, markMoves_odd, markRules_val_even, markRules_val_odd]
        have H1 := hStrips_list hl hm
        have key : ∀ s1 ∈ hStrips sh mu lam, ∀ s2 ∈ vStrips sh dp s1.1 lam, ∀ a1 ∈ subsets s1.2.1 s1.2.2 sv,
            ∀ a2 ∈ subsets s2.2.1 s2.2.2 sv, ∀ T' ∈ genTabs (markRules sh sv dp) lam (markMoves sh sv dp lam) (2 * n) s2.1,
            addAll a1 ((n : Int) + 1) (addAll a2 (-((n : Int) + 1)) T') =
              addAll a2 (-((n + 1 : Nat) : Int)) (addAll a1 ((n + 1 : Nat) : Int) T') := by
          intro s1 hs1 s2 hs2 a1 ha1 a2 ha2 T' hT'
          have hm1 := (H1.ok s1 hs1).shape
          have H2 := vStrips_list hdp hl hm1
          have hm2 := (H2.ok s2 hs2).shape
          have hT' := (mem_genTabs hinj (lam := lam) hl hmv (2 * n) hm2).1 hT'
          rw [addAll_comm hT'.canon (H1.subsets_aug hs1 ha1).nodup (H2.subsets_aug hs2 ha2).nodup (by omega)
            (notMem_of_isTab hT' (by omega)) (notMem_of_isTab hT' (by omega))]
          push_cast
          rfl
        constructor
        · rintro ⟨s1, hs1, s2, hs2, a1, ha1, a2, ha2, T', hT', rfl⟩
          have hm2 := ((vStrips_list hdp hl (H1.ok s1 hs1).shape).ok s2 hs2).shape
          replace hT' := (ih hm2 _).1 hT'
          refine ⟨(s1.1, a1), ⟨s1, hs1, a1, ha1, rfl⟩, _, ⟨(s2.1, a2), ⟨s2, hs2, a2, ha2, rfl⟩, T', hT', rfl⟩, ?_⟩
          exact key s1 hs1 s2 hs2 a1 ha1 a2 ha2 T' hT'
        · rintro ⟨_, ⟨s1, hs1, a1, ha1, rfl⟩, _, ⟨_, ⟨s2, hs2, a2, ha2, rfl⟩, T', hT', rfl⟩, rfl⟩
          have hm2 := ((vStrips_list hdp hl (H1.ok s1 hs1).shape).ok s2 hs2).shape
          exact ⟨s1, hs1, s2, hs2, a1, ha1, a2, ha2, T', (ih hm2 _).2 hT',
            (key s1 hs1 s2 hs2 a1 ha1 a2 ha2 T' hT').symm⟩
      · rw [if_neg h2, hgen]
        refine ⟨fun h => by simp at h, fun h => ?_⟩
        exact absurd ((contains_iff hl.pos).2 (shapeSet_subset.1 h.sub)) h2

theorem markedGen_eq (hdp : sh = false → dp = true) (hl : IsShape sh lam) (n : Nat) {mu : List Nat} (hm : IsShape sh mu) :
    markedGen sh sv dp lam n mu = genTabs (markRules sh sv dp) lam (markMoves sh sv dp lam) (2 * n) mu := by
  ext T
  exact mem_markedGen hdp hl n hm T

theorem isTab_markedGen (hdp : sh = false → dp = true) (hl : IsShape sh lam) (n : Nat) {mu : List Nat}
    (hm : IsShape sh mu) {T : Tab} :
    T ∈ markedGen sh sv dp lam n mu ↔ IsTab (markRules sh sv dp) lam (2 * n) mu T := by
  rw [mem_markedGen hdp hl n hm]
  exact mem_genTabs (markRules_inj sh sv dp) hl (markMoves_lists hdp hl) (2 * n) hm

theorem marked_swapInvariant (hdp : sh = false → dp = true) (hl : IsShape sh lam) (n : Nat) {mu : List Nat}
    (hm : IsShape sh mu) : SwapInvariant (markedGen sh sv dp lam n mu) n markWeight := by
  rw [markedGen_eq hdp hl n hm]
  exact marked_swap hdp hl (markMoves_lists hdp hl) hm n

/-! ### no assertion fails -/

theorem mapM_some {α β : Type} (l : List α) (f : α → Option β) (g : α → β) (h : ∀ x ∈ l, f x = some (g x)) :
    l.mapM f = some (l.map g) := by
  induction l with
  | nil => rfl
  | cons a t ih =>
    rw [List.mapM_cons, h a (by simp), ih (fun x hx => h x (List.mem_cons_of_mem _ hx))]
    rfl

theorem foldlM_some {α β : Type} (l : List α) (f : β → α → Option β) (g : β → α → β)
    (h : ∀ x ∈ l, ∀ b, f b x = some (g b x)) (b : β) : l.foldlM f b = some (l.foldl g b) := by
  induction l generalizing b with
  | nil => rfl
  | cons a t ih =>
    rw [List.foldlM_cons, h a (by simp), List.foldl_cons]
    exact ih (fun x hx => h x (List.mem_cons_of_mem _ hx)) _

theorem unionAll_map {α : Type} [DecidableEq α] (l : List α) (f : α → Finset Tab) :
    unionAll (l.map f) = l.toFinset.biUnion f := by
  ext T
  induction l with
  | nil => simp [unionAll]
  | cons a t ih =>
    simp only [unionAll, List.map_cons, List.foldr_cons, Finset.mem_union] at ih ⊢
    rw [ih]
    simp

theorem strict_iff {mu : List Nat} (hm : IsShape true mu) : isStrictPartition mu = true :=
  (isStrictPartition_iff mu).2 (show IsStrict mu from hm).1

theorem semistandardShiftedMarked_eq (hl : IsShape true lam) (n : Nat) {mu : List Nat} (hm : IsShape true mu) :
    semistandardShiftedMarked dp sv lam n mu = some (markedGen true sv dp lam n mu) := by
  induction n generalizing mu with
  | zero =>
    rw [semistandardShiftedMarked, if_pos (strict_iff hm), markedGen]
    split <;> rfl
  | succ n ih =>
    rw [semistandardShiftedMarked, if_pos (strict_iff hm), markedGen]
    by_cases h1 : mu = lam
    · rw [if_pos h1, if_pos h1]
    rw [if_neg h1, if_neg h1]
    by_cases h2 : contains mu lam = true
    swap
    · rw [if_neg h2, if_neg h2]
    rw [if_pos h2, if_pos h2]
    obtain ⟨strips1, e1, H1⟩ := shiftedHorizontalStrips_list hm hl
    rw [e1, hStrips, if_pos rfl, e1]
    simp only [Option.getD_some, Option.bind_eq_bind, Option.bind_some]
    rw [mapM_some strips1 _ (fun s1 => (vStrips true dp s1.1 lam).toFinset.biUnion (fun s2 =>
          markedLayer sv (n + 1) s1 s2 (markedGen true sv dp lam n s2.1)))]
    · rw [Option.bind_some, unionAll_map]
    · intro s1 hs1
      have hm1 := (H1.ok s1 hs1).shape
      obtain ⟨strips2, e2, H2⟩ := shiftedVerticalStrips_list hm1 hl
      have H3 := diagonalFilter_list dp H2
      rw [e2, vStrips, if_pos rfl, e2]
      simp only [Option.getD_some, Option.bind_some]
      rw [mapM_some (diagonalFilter dp strips2) _ (fun s2 =>
          markedLayer sv (n + 1) s1 s2 (markedGen true sv dp lam n s2.1))]
      · rw [Option.bind_some, unionAll_map]
      · intro s2 hs2
        rw [ih (H3.ok s2 hs2).shape]
        rfl

/-- The dicts of counts, without the assertions. -/
def markedCount (sh sv dp : Bool) (lam : List Nat) : Nat → List Nat → Dict (List Nat) Int
  | 0, mu => if mu = lam then Dict.empty.set [] 1 else Dict.empty
  | n + 1, mu =>
    if mu = lam then Dict.empty.set [] 1
    else if contains mu lam then
      (hStrips sh mu lam).foldl (fun ans s1 =>
        (vStrips sh dp s1.1 lam).foldl (fun ans s2 =>
          markedCountLoop sv (n + 1) s1 s2 (markedCount sh sv dp lam n s2.1).items ans) ans)
        Dict.empty
    else Dict.empty

theorem countSemistandardMarked_eq (sv dp : Bool) (lam : List Nat) (n : Nat) (mu : List Nat) :
    countSemistandardMarked sv lam n mu = markedCount false sv dp lam n mu := by
  induction n generalizing mu with
  | zero => rfl
  | succ n ih =>
    rw [countSemistandardMarked, markedCount]
    simp only [ih]
    rfl

theorem countSemistandardShiftedMarked_eq (hl : IsShape true lam) (n : Nat) {mu : List Nat} (hm : IsShape true mu) :
    countSemistandardShiftedMarked dp sv lam n mu = some (markedCount true sv dp lam n mu) := by
  induction n generalizing mu with
  | zero =>
    rw [countSemistandardShiftedMarked, if_pos (strict_iff hm), markedCount]
    split <;> rfl
  | succ n ih =>
    rw [countSemistandardShiftedMarked, if_pos (strict_iff hm), markedCount]
    by_cases h1 : mu = lam
    · rw [if_pos h1, if_pos h1]
    rw [if_neg h1, if_neg h1]
    by_cases h2 : contains mu lam = true
    swap
    · rw [if_neg h2, if_neg h2]
    rw [if_pos h2, if_pos h2]
    obtain ⟨strips1, e1, H1⟩ := shiftedHorizontalStrips_list hm hl
    rw [e1, hStrips, if_pos rfl, e1]
    simp only [Option.getD_some, Option.bind_eq_bind, Option.bind_some]
    refine foldlM_some strips1 _ _ ?_ _
    intro s1 hs1 b
    have hm1 := (H1.ok s1 hs1).shape
    obtain ⟨strips2, e2, H2⟩ := shiftedVerticalStrips_list hm1 hl
    have H3 := diagonalFilter_list dp H2
    rw [e2, vStrips, if_pos rfl, e2]
    simp only [Option.getD_some, Option.bind_some]
    refine foldlM_some _ _ _ ?_ _
    intro s2 hs2 b
    rw [ih (H3.ok s2 hs2).shape]
    rfl

end Verif.Tableaux
