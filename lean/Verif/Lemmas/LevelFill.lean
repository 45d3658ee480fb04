import Verif.Lemmas.RimsShape
import Verif.Lemmas.PartitionsCorner
import Verif.Lemmas.Tableau
import Mathlib.Data.Set.Card

/-! Filling boxes level by level: what `_KOG_helper` and `_KLG_helper` (tableaux.py:1025-1156) have in common. -/

attribute [-simp] List.getD_eq_getElem?_getD

namespace Verif.Tableaux

open Verif.Partition

variable (choose : Nat → List Cell → List (Nat × Nat) → List (List (Nat × Nat))) (lab : Nat → Int)

/-- At level `t` one of the sets `choose t` is filled with the label `lab t`. -/
def levels : Nat → List Cell → List (Nat × Nat) → List (List Cell)
  | 0, F, L => if L.length > 0 then [] else [F]
  | t + 1, F, L => (choose (t + 1) F L).flatMap (fun s =>
      levels t (F ++ s.map (fun b => (b, lab (t + 1)))) (sortBoxes (L.dedup.filter (fun b => decide (b ∉ s)))))

/-- The chosen sets consist of boxes that are left, and no set is chosen twice. -/
structure ChooseOk : Prop where
  sub : ∀ t F L, L.Nodup → ∀ s ∈ choose t F L, s.Nodup ∧ s ⊆ L
  differ : ∀ t F L, L.Nodup → (choose t F L).Pairwise (fun s s' => ∃ b, ¬ (b ∈ s ↔ b ∈ s'))

variable {choose lab}

theorem mem_rest {L s : List (Nat × Nat)} {b : Nat × Nat} :
    b ∈ sortBoxes (L.dedup.filter (fun b => decide (b ∉ s))) ↔ b ∈ L ∧ b ∉ s := by
  rw [mem_sortBoxes, List.mem_filter, List.mem_dedup, decide_eq_true_eq]

theorem nodup_rest {L s : List (Nat × Nat)} : (sortBoxes (L.dedup.filter (fun b => decide (b ∉ s)))).Nodup :=
  nodup_sortBoxes.2 (L.nodup_dedup.filter _)

theorem perm_rest {L s : List (Nat × Nat)} (hL : L.Nodup) (hs : s.Nodup) (hsub : s ⊆ L) :
    (s ++ sortBoxes (L.dedup.filter (fun b => decide (b ∉ s)))).Perm L := by
  rw [List.perm_ext_iff_of_nodup _ hL]
  · intro b
    rw [List.mem_append, mem_rest]
    constructor
    · rintro (h | h)
      · exact hsub h
      · exact h.1
    · intro h
      by_cases hb : b ∈ s
      · exact Or.inl hb
      · exact Or.inr ⟨h, hb⟩
  · rw [List.nodup_append]
    refine ⟨hs, nodup_rest, ?_⟩
    rintro a ha b hb rfl
    exact (mem_rest.1 hb).2 ha

theorem levels_shape (hc : ChooseOk choose) (t : Nat) : ∀ {F : List Cell} {L : List (Nat × Nat)} {g : List Cell}, L.Nodup →
    g ∈ levels choose lab t F L → ∃ rest, g = F ++ rest ∧ (rest.map Prod.fst).Perm L ∧
      ∀ c ∈ rest, ∃ u, 1 ≤ u ∧ u ≤ t ∧ c.2 = lab u := by
  induction t with
  | zero =>
    intro F L g _ hg
    rw [levels] at hg
    split at hg
    · simp at hg
    · rename_i h0
      rw [List.mem_singleton] at hg
      have : L = [] := List.length_eq_zero_iff.1 (by omega)
      subst this
      exact ⟨[], by simp [hg], by simp, by simp⟩
  | succ t ih =>
    intro F L g hL hg
    rw [levels, List.mem_flatMap] at hg
    obtain ⟨s, hs, hg⟩ := hg
    obtain ⟨hs1, hs2⟩ := hc.sub _ _ _ hL s hs
    obtain ⟨rest, rfl, h1, h2⟩ := ih nodup_rest hg
    refine ⟨s.map (fun b => (b, lab (t + 1))) ++ rest, by simp, ?_, ?_⟩
    · rw [List.map_append, List.map_map]
      have e : Prod.fst ∘ (fun b : Nat × Nat => ((b, lab (t + 1)) : Cell)) = id := rfl
      rw [e, List.map_id]
      exact (h1.append_left s).trans (perm_rest hL hs1 hs2)
    · intro c hcm
      rcases List.mem_append.1 hcm with h | h
      · obtain ⟨b, _, rfl⟩ := List.mem_map.1 h
        exact ⟨t + 1, by omega, le_rfl, rfl⟩
      · obtain ⟨u, hu1, hu2, hu3⟩ := h2 c h
        exact ⟨u, hu1, by omega, hu3⟩

/-- Two fillings that differ in some box. -/
def Differ (g g' : List Cell) : Prop := ∃ b a a', (b, a) ∈ g ∧ (b, a') ∈ g' ∧ a ≠ a'

theorem Differ.symm {g g' : List Cell} (h : Differ g g') : Differ g' g := by
  obtain ⟨b, a, a', h1, h2, h3⟩ := h
  exact ⟨b, a', a, h2, h1, h3.symm⟩

theorem differ_aux (hc : ChooseOk choose) (hl : Function.Injective lab) {t : Nat} {F : List Cell} {L s s' : List (Nat × Nat)}
    {g g' : List Cell} (hL : L.Nodup) (hs : s ∈ choose (t + 1) F L)
    (hg : g ∈ levels choose lab t (F ++ s.map (fun b => (b, lab (t + 1)))) (sortBoxes (L.dedup.filter (fun b => decide (b ∉ s)))))
    (hg' : g' ∈ levels choose lab t (F ++ s'.map (fun b => (b, lab (t + 1)))) (sortBoxes (L.dedup.filter (fun b => decide (b ∉ s')))))
    {b : Nat × Nat} (hb : b ∈ s) (hb' : b ∉ s') : Differ g g' := by
  obtain ⟨_, hs2⟩ := hc.sub _ _ _ hL s hs
  obtain ⟨rest, rfl, h1, h2⟩ := levels_shape hc t nodup_rest hg
  obtain ⟨rest', rfl, h1', h2'⟩ := levels_shape hc t nodup_rest hg'
  have hbr : b ∈ rest'.map Prod.fst := h1'.mem_iff.2 (mem_rest.2 ⟨hs2 hb, hb'⟩)
  obtain ⟨⟨b', a'⟩, hc', rfl⟩ := List.mem_map.1 hbr
  obtain ⟨u, _, hu2, hu3⟩ := h2' _ hc'
  refine ⟨b', lab (t + 1), a', ?_, ?_, ?_⟩
  · simp only [List.mem_append, List.mem_map]
    exact Or.inl (Or.inr ⟨b', hb, rfl⟩)
  · exact List.mem_append_right _ hc'
  · intro e
    simp only at hu3
    rw [hu3] at e
    have := hl e
    omega

theorem levels_differ (hc : ChooseOk choose) (hl : Function.Injective lab) (t : Nat) : ∀ {F : List Cell} {L : List (Nat × Nat)},
    L.Nodup → (levels choose lab t F L).Pairwise Differ := by
  induction t with
  | zero =>
    intro F L _
    rw [levels]
    split <;> simp
  | succ t ih =>
    intro F L hL
    rw [levels, List.pairwise_flatMap]
    refine ⟨fun s _ => ih nodup_rest, (hc.differ (t + 1) F L hL).imp_of_mem ?_⟩
    intro s s' hs hs' ⟨b, hb⟩ g hg g' hg'
    by_cases h1 : b ∈ s
    · exact differ_aux hc hl hL hs hg hg' h1 (fun h2 => hb ⟨fun _ => h2, fun _ => h1⟩)
    · have h2 : b ∈ s' := by
        by_contra h2
        exact hb ⟨fun h => absurd h h1, fun h => absurd h h2⟩
      exact (differ_aux hc hl hL hs' hg' hg h2 h1).symm

/-- The state of the recursion for a given filling `f` of the boxes `R`: the boxes of `F` are filled with labels above level
`t`, those of `L` are left. -/
structure Split (lab : Nat → Int) (R : List (Nat × Nat)) (f : Nat × Nat → Int) (t : Nat) (F : List Cell) (L : List (Nat × Nat)) : Prop where
  nodup : L.Nodup
  agree : ∀ c ∈ F, f c.1 = c.2
  perm : (F.map Prod.fst ++ L).Perm R
  above : ∀ c ∈ F, ∃ u, t < u ∧ c.2 = lab u

theorem Split.mem {R : List (Nat × Nat)} {f : Nat × Nat → Int} {t : Nat} {F : List Cell} {L : List (Nat × Nat)} (h : Split lab R f t F L)
    {b : Nat × Nat} : b ∈ R ↔ (b, f b) ∈ F ∨ b ∈ L := by
  rw [← h.perm.mem_iff, List.mem_append]
  refine or_congr_left ⟨?_, fun hb => List.mem_map_of_mem (f := Prod.fst) hb⟩
  intro hb
  obtain ⟨⟨b', a⟩, hc, rfl⟩ := List.mem_map.1 hb
  have := h.agree _ hc
  simp only at this ⊢
  rw [this]
  exact hc

theorem Split.next {R : List (Nat × Nat)} {f : Nat × Nat → Int} {t : Nat} {F : List Cell} {L s : List (Nat × Nat)}
    (h : Split lab R f (t + 1) F L) (hs : s.Nodup) (hsub : s ⊆ L) (hf : ∀ b ∈ s, f b = lab (t + 1)) :
    Split lab R f t (F ++ s.map (fun b => (b, lab (t + 1)))) (sortBoxes (L.dedup.filter (fun b => decide (b ∉ s)))) := by
  refine ⟨nodup_rest, ?_, ?_, ?_⟩
  · intro c hc
    rcases List.mem_append.1 hc with hc | hc
    · exact h.agree c hc
    · obtain ⟨b, hb, rfl⟩ := List.mem_map.1 hc
      exact hf b hb
  · rw [List.map_append, List.map_map]
    have e : Prod.fst ∘ (fun b : Nat × Nat => ((b, lab (t + 1)) : Cell)) = id := rfl
    rw [e, List.map_id, List.append_assoc]
    exact ((perm_rest h.nodup hs hsub).append_left _).trans h.perm
  · intro c hc
    rcases List.mem_append.1 hc with hc | hc
    · obtain ⟨u, hu, hu2⟩ := h.above c hc
      exact ⟨u, by omega, hu2⟩
    · obtain ⟨b, hb, rfl⟩ := List.mem_map.1 hc
      exact ⟨t + 1, by omega, rfl⟩

theorem levels_mem (hc : ChooseOk choose) (hl : Function.Injective lab) {R : List (Nat × Nat)} {C : Nat → (Nat × Nat → Int) → Prop}
    (hC : ∀ t F L f, Split lab R f (t + 1) F L → (∀ b ∈ L, ∃ u, 1 ≤ u ∧ u ≤ t + 1 ∧ f b = lab u) →
      ((∃ s ∈ choose (t + 1) F L, ∀ b, b ∈ s ↔ b ∈ L ∧ f b = lab (t + 1)) ↔ C (t + 1) f))
    (f : Nat × Nat → Int) (t : Nat) : ∀ {F : List Cell} {L : List (Nat × Nat)}, Split lab R f t F L →
      ((∃ g ∈ levels choose lab t F L, ∀ c ∈ g, f c.1 = c.2) ↔
        (∀ b ∈ L, ∃ u, 1 ≤ u ∧ u ≤ t ∧ f b = lab u) ∧ ∀ u, 1 ≤ u → u ≤ t → C u f) := by
  induction t with
  | zero =>
    intro F L h
    rw [levels]
    constructor
    · rintro ⟨g, hg, _⟩
      split at hg
      · simp at hg
      · rename_i h0
        have : L = [] := List.length_eq_zero_iff.1 (by omega)
        subst this
        exact ⟨by simp, fun u h1 h2 => by omega⟩
    · rintro ⟨h1, _⟩
      have : L = [] := List.eq_nil_iff_forall_not_mem.2 (fun b hb => by
        obtain ⟨u, hu1, hu2, _⟩ := h1 b hb
        omega)
      subst this
      exact ⟨F, by simp, h.agree⟩
  | succ t ih =>
    intro F L h
    rw [levels]
    constructor
    · rintro ⟨g, hg, hf⟩
      rw [List.mem_flatMap] at hg
      obtain ⟨s, hs, hg⟩ := hg
      obtain ⟨hs1, hs2⟩ := hc.sub _ _ _ h.nodup s hs
      obtain ⟨rest, hgr, h1, h2⟩ := levels_shape hc t nodup_rest hg
      have hfs : ∀ b ∈ s, f b = lab (t + 1) := fun b hb => by
        refine hf (b, lab (t + 1)) ?_
        rw [hgr]
        simp only [List.mem_append, List.mem_map]
        exact Or.inl (Or.inr ⟨b, hb, rfl⟩)
      have hfr : ∀ b ∈ L, b ∉ s → ∃ u, 1 ≤ u ∧ u ≤ t ∧ f b = lab u := fun b hb hbs => by
        have hbr : b ∈ rest.map Prod.fst := h1.mem_iff.2 (mem_rest.2 ⟨hb, hbs⟩)
        obtain ⟨c, hcr, rfl⟩ := List.mem_map.1 hbr
        obtain ⟨u, hu1, hu2, hu3⟩ := h2 c hcr
        refine ⟨u, hu1, hu2, ?_⟩
        rw [← hu3]
        exact hf c (by rw [hgr]; exact List.mem_append_right _ hcr)
      have hlev : ∀ b ∈ L, ∃ u, 1 ≤ u ∧ u ≤ t + 1 ∧ f b = lab u := fun b hb => by
        by_cases hbs : b ∈ s
        · exact ⟨t + 1, by omega, le_rfl, hfs b hbs⟩
        · obtain ⟨u, hu1, hu2, hu3⟩ := hfr b hb hbs
          exact ⟨u, hu1, by omega, hu3⟩
      have hC1 := (hC t F L f h hlev).1 ⟨s, hs, fun b => by
        constructor
        · intro hb
          exact ⟨hs2 hb, hfs b hb⟩
        · rintro ⟨hb, hbf⟩
          by_contra hbs
          obtain ⟨u, _, hu2, hu3⟩ := hfr b hb hbs
          have := hl (hbf.symm.trans hu3)
          omega⟩
      have hI := (ih (h.next hs1 hs2 hfs)).1 ⟨g, hg, hf⟩
      refine ⟨hlev, fun u hu1 hu2 => ?_⟩
      rcases Nat.lt_or_ge u (t + 1) with hlt | hge
      · exact hI.2 u hu1 (by omega)
      · have : u = t + 1 := by omega
        subst this
        exact hC1
    · rintro ⟨h1, h2⟩
      obtain ⟨s, hs, hsb⟩ := (hC t F L f h h1).2 (h2 (t + 1) (by omega) le_rfl)
      obtain ⟨hs1, hs2⟩ := hc.sub _ _ _ h.nodup s hs
      obtain ⟨g, hg, hf⟩ := (ih (h.next hs1 hs2 (fun b hb => ((hsb b).1 hb).2))).2 ⟨fun b hb => by
        rw [mem_rest] at hb
        obtain ⟨u, hu1, hu2, hu3⟩ := h1 b hb.1
        refine ⟨u, hu1, ?_, hu3⟩
        by_contra hc'
        have : u = t + 1 := by omega
        subst this
        exact hb.2 ((hsb b).2 ⟨hb.1, hu3⟩), fun u hu1 hu2 => h2 u hu1 (by omega)⟩
      exact ⟨g, List.mem_flatMap.2 ⟨s, hs, hg⟩, hf⟩

/-! ### Functions and tableaux -/

/-- `T` has the entry `f b` in every box `b` of `D`, and no other boxes. -/
def Fills (T : Tab) (D : Set (Nat × Nat)) (f : Nat × Nat → Int) : Prop :=
  (∀ b ∈ D, T.get? b = some [f b]) ∧ ∀ b, b ∉ D → T.get? b = none

theorem get?_foldl_set (g : List Cell) : ∀ (T : Tab) (b : Nat × Nat), (g.map Prod.fst).Nodup →
    (g.foldl (fun T c => T.set c.1 [c.2]) T).get? b =
      match Dict.lookup b g with | some a => some [a] | none => T.get? b := by
  induction g with
  | nil => intro T b _; rfl
  | cons c g ih =>
    intro T b h
    rw [List.map_cons, List.nodup_cons] at h
    obtain ⟨c1, c2⟩ := c
    rw [List.foldl_cons, ih _ b h.2, Dict.lookup]
    by_cases hb : c1 = b
    · subst hb
      rw [if_pos rfl, Dict.lookup_eq_none.2 h.1]
      simp only [Tab.get?_set, if_true]
    · rw [if_neg hb]
      cases Dict.lookup b g with
      | none => simp only [Tab.get?_set]; rw [if_neg (fun e => hb e.symm)]
      | some a => rfl

theorem fills_iff {g : List Cell} {R : List (Nat × Nat)} (hR : R.Nodup) (hg : (g.map Prod.fst).Perm R) (f : Nat × Nat → Int) :
    Fills (tabOfCells g) {b | b ∈ R} f ↔ ∀ c ∈ g, f c.1 = c.2 := by
  have hn : (g.map Prod.fst).Nodup := hg.nodup_iff.2 hR
  have hget := fun b => get?_foldl_set g Tab.empty b hn
  constructor
  · rintro ⟨h1, _⟩ ⟨b, a⟩ hc
    have hb : b ∈ R := hg.mem_iff.1 (List.mem_map_of_mem (f := Prod.fst) hc)
    have := h1 b hb
    rw [tabOfCells, hget, Dict.lookup_of_mem hn hc] at this
    simpa using this.symm
  · intro h
    constructor
    · intro b hb
      obtain ⟨⟨b', a⟩, hc, rfl⟩ := List.mem_map.1 (hg.mem_iff.2 hb)
      rw [tabOfCells, hget, Dict.lookup_of_mem hn hc]
      have := h _ hc
      simp only at this ⊢
      rw [this]
    · intro b hb
      rw [tabOfCells, hget, Dict.lookup_eq_none.2 (fun h => hb (hg.mem_iff.1 h))]
      rfl

theorem Fills.unique {T T' : Tab} {D : Set (Nat × Nat)} {f : Nat × Nat → Int} (h : Fills T D f) (h' : Fills T' D f) : T = T' := by
  refine Tab.ext_get? (fun b => ?_)
  by_cases hb : b ∈ D
  · rw [h.1 b hb, h'.1 b hb]
  · rw [h.2 b hb, h'.2 b hb]

theorem Fills.unique_fun {T : Tab} {D : Set (Nat × Nat)} {f f' : Nat × Nat → Int} (h : Fills T D f) (h' : Fills T D f')
    (hf : ∀ b, b ∉ D → f b = 0) (hf' : ∀ b, b ∉ D → f' b = 0) : f = f' := by
  funext b
  by_cases hb : b ∈ D
  · have := (h.1 b hb).symm.trans (h'.1 b hb)
    simpa using this
  · rw [hf b hb, hf' b hb]

/-- The results of the recursion: no tableau twice, and exactly the tableaux `f` described by the levels. -/
theorem levels_tabs (hc : ChooseOk choose) (hl : Function.Injective lab) {R : List (Nat × Nat)} (hR : R.Nodup)
    {C : Nat → (Nat × Nat → Int) → Prop}
    (hC : ∀ t F L f, Split lab R f (t + 1) F L → (∀ b ∈ L, ∃ u, 1 ≤ u ∧ u ≤ t + 1 ∧ f b = lab u) →
      ((∃ s ∈ choose (t + 1) F L, ∀ b, b ∈ s ↔ b ∈ L ∧ f b = lab (t + 1)) ↔ C (t + 1) f)) (t : Nat) :
    ((levels choose lab t [] R).map tabOfCells).Nodup ∧
      (∀ T ∈ (levels choose lab t [] R).map tabOfCells, ∃ f, Fills T {b | b ∈ R} f ∧ ∀ b, b ∉ R → f b = 0) ∧
      ∀ T f, Fills T {b | b ∈ R} f → (T ∈ (levels choose lab t [] R).map tabOfCells ↔
        (∀ b ∈ R, ∃ u, 1 ≤ u ∧ u ≤ t ∧ f b = lab u) ∧ ∀ u, 1 ≤ u → u ≤ t → C u f) := by
  have hkeys : ∀ g ∈ levels choose lab t [] R, (g.map Prod.fst).Perm R := fun g hg => by
    obtain ⟨rest, rfl, h1, _⟩ := levels_shape hc t hR hg
    simpa using h1
  have hex : ∀ g ∈ levels choose lab t [] R, ∃ f : Nat × Nat → Int, (∀ c ∈ g, f c.1 = c.2) ∧ ∀ b, b ∉ R → f b = 0 := fun g hg => by
    have hn : (g.map Prod.fst).Nodup := (hkeys g hg).nodup_iff.2 hR
    refine ⟨fun b => (Dict.lookup b g).getD 0, ?_, ?_⟩
    · rintro ⟨b, a⟩ hca
      simp only
      rw [Dict.lookup_of_mem hn hca]
      rfl
    · intro b hb
      simp only
      rw [Dict.lookup_eq_none.2 (fun h => hb ((hkeys g hg).mem_iff.1 h))]
      rfl
  refine ⟨?_, ?_, ?_⟩
  · rw [List.Nodup, List.pairwise_map]
    refine (levels_differ hc hl t hR).imp_of_mem ?_
    intro g g' hg hg' ⟨b, a, a', h1, h2, h3⟩ e
    obtain ⟨f, hf, _⟩ := hex g hg
    have hF := (fills_iff hR (hkeys g hg) f).2 hf
    rw [e] at hF
    have hf' := (fills_iff hR (hkeys g' hg') f).1 hF
    exact h3 ((hf _ h1).symm.trans (hf' _ h2))
  · intro T hT
    obtain ⟨g, hg, rfl⟩ := List.mem_map.1 hT
    obtain ⟨f, hf, h0⟩ := hex g hg
    exact ⟨f, (fills_iff hR (hkeys g hg) f).2 hf, h0⟩
  · intro T f hF
    rw [← levels_mem hc hl hC f t (F := []) (L := R) ⟨hR, by simp, by simp, by simp⟩, List.mem_map]
    constructor
    · rintro ⟨g, hg, rfl⟩
      exact ⟨g, hg, (fills_iff hR (hkeys g hg) f).1 hF⟩
    · rintro ⟨g, hg, hf⟩
      exact ⟨g, hg, ((fills_iff hR (hkeys g hg) f).2 hf).unique hF⟩

theorem exists_fills {D : Set (Nat × Nat)} {R : List (Nat × Nat)} (hR : R.Nodup) (hD : ∀ b, b ∈ R ↔ b ∈ D) (f : Nat × Nat → Int) :
    ∃ T, Fills T D f := by
  have h := (fills_iff (g := R.map (fun b => (b, f b))) hR (by
    rw [List.map_map]
    have e : Prod.fst ∘ (fun b : Nat × Nat => ((b, f b) : Cell)) = id := rfl
    rw [e, List.map_id]) f).2 (fun c hc => by
      obtain ⟨b, _, rfl⟩ := List.mem_map.1 hc
      rfl)
  have e : {b | b ∈ R} = D := Set.ext hD
  rw [e] at h
  exact ⟨_, h⟩

/-- Counting the functions by the tableaux. -/
theorem ncard_of_tabs {l : List Tab} (hl : l.Nodup) {D : Set (Nat × Nat)} {R : List (Nat × Nat)} (hR : R.Nodup) (hD : ∀ b, b ∈ R ↔ b ∈ D)
    {P : (Nat × Nat → Int) → Prop} (hP : ∀ f, P f → ∀ b, b ∉ D → f b = 0) (hm : ∀ T, T ∈ l ↔ ∃ f, P f ∧ Fills T D f) :
    Set.ncard {f | P f} = l.length := by
  classical
  have hch : ∀ T : {T // T ∈ l}, ∃ f, P f ∧ Fills T.1 D f := fun T => (hm T.1).1 T.2
  choose φ hφ using hch
  have hinj : Function.Injective φ := fun T T' e => Subtype.ext ((hφ T).2.unique (e ▸ (hφ T').2))
  have hset : {f | P f} = Set.range φ := by
    ext f
    constructor
    · intro hf
      obtain ⟨T, hT⟩ := exists_fills hR hD f
      refine ⟨⟨T, (hm T).2 ⟨f, hf, hT⟩⟩, ?_⟩
      exact (hφ _).2.unique_fun hT (hP _ (hφ _).1) (hP _ hf)
    · rintro ⟨T, rfl⟩
      exact (hφ T).1
  rw [hset, ← Nat.card_coe_set_eq, Nat.card_range_of_injective hinj]
  have : Fintype.card {T // T ∈ l} = l.length := by
    rw [Fintype.card_of_subtype l.toFinset (by simp), List.toFinset_card_of_nodup hl]
  have hfin : Finite {T // T ∈ l} := (List.finite_toSet l)
  rw [← this, Nat.card_eq_fintype_card]

/-! ### Choosing sublists -/

/-- All sublists of `corners` with at least `s0` elements, as in L1045-1046 and L1150-1151. -/
def subsetsFrom (corners : List (Nat × Nat)) (s0 : Nat) : List (List (Nat × Nat)) :=
  (List.range' s0 (corners.length + 1 - s0)).flatMap (fun k => combinations corners k)

theorem mem_subsetsFrom {corners s : List (Nat × Nat)} {s0 : Nat} : s ∈ subsetsFrom corners s0 ↔ s.Sublist corners ∧ s0 ≤ s.length := by
  rw [subsetsFrom, List.mem_flatMap]
  constructor
  · rintro ⟨k, hk, hs⟩
    rw [mem_combinations] at hs
    rw [List.mem_range'_1] at hk
    exact ⟨hs.1, by omega⟩
  · rintro ⟨h1, h2⟩
    have := h1.length_le
    exact ⟨s.length, List.mem_range'_1.2 (by omega), (mem_combinations _ _ _).2 ⟨h1, rfl⟩⟩

theorem nodup_subsetsFrom {corners : List (Nat × Nat)} (h : corners.Nodup) (s0 : Nat) : (subsetsFrom corners s0).Nodup := by
  rw [subsetsFrom, List.nodup_flatMap]
  refine ⟨fun k _ => nodup_combinations corners h k, ?_⟩
  refine (List.nodup_range' (s := s0) (n := corners.length + 1 - s0) (step := 1)).imp ?_
  intro a b hab
  simp only [Function.onFun, List.disjoint_left]
  intro s h1 h2
  rw [mem_combinations] at h1 h2
  exact hab (h1.2.symm.trans h2.2)

theorem differ_subsetsFrom {corners : List (Nat × Nat)} (h : corners.Nodup) (s0 : Nat) :
    (subsetsFrom corners s0).Pairwise (fun s s' => ∃ b, ¬ (b ∈ s ↔ b ∈ s')) := by
  refine (nodup_subsetsFrom h s0).imp_of_mem ?_
  intro s s' hs hs' hne
  rw [mem_subsetsFrom] at hs hs'
  by_contra hc
  push Not at hc
  refine hne ?_
  have e : ∀ {r : List (Nat × Nat)}, r.Sublist corners → (∀ b, b ∈ r ↔ b ∈ s) → r = corners.filter (fun b => decide (b ∈ s)) := by
    intro r hr hrs
    refine sublist_eq_of_subset ((sublist_filter _).2 ⟨hr, fun x hx => by simpa using (hrs x).1 hx⟩) (h.filter _) ?_
    intro x hx
    rw [List.mem_filter] at hx
    exact (hrs x).2 (by simpa using hx.2)
  rw [e hs.1 (fun b => Iff.rfl), ← e hs'.1 (fun b => (hc b).symm)]

theorem exists_subsetsFrom {corners : List (Nat × Nat)} {s0 : Nat} (h0 : s0 ≤ 1) (P : Nat × Nat → Prop) :
    (∃ s ∈ subsetsFrom corners s0, ∀ b, b ∈ s ↔ P b) ↔ (∀ b, P b → b ∈ corners) ∧ (s0 = 1 → ∃ b, P b) := by
  classical
  constructor
  · rintro ⟨s, hs, hp⟩
    have hs' := mem_subsetsFrom.1 hs
    refine ⟨fun b hb => hs'.1.subset ((hp b).2 hb), fun h1 => ?_⟩
    have h2 := hs'.2
    rw [h1] at h2
    cases s with
    | nil => simp at h2
    | cons b s => exact ⟨b, (hp b).1 (by simp)⟩
  · rintro ⟨h1, h2⟩
    refine ⟨corners.filter (fun b => decide (P b)), mem_subsetsFrom.2 ⟨List.filter_sublist, ?_⟩, fun b => ?_⟩
    · rcases Nat.eq_zero_or_pos s0 with e | e
      · omega
      · obtain ⟨b, hb⟩ := h2 (by omega)
        have : b ∈ corners.filter (fun b => decide (P b)) := List.mem_filter.2 ⟨h1 b hb, by simpa using hb⟩
        have := List.length_pos_of_mem this
        omega
    · rw [List.mem_filter, decide_eq_true_eq]
      exact ⟨fun hb => hb.2, fun hb => ⟨h1 b hb, hb⟩⟩

end Verif.Tableaux
