import Verif.Model.VstCounts
import Verif.Props.VstLines
import Mathlib.Data.Set.Card

/-! # C131: counting groups of valued-set tableaux -/

namespace Verif.Vst

section
variable {T G : Tab} (h : Plain T) (hV : IsVst T G)
include h hV

theorem starts_card (P : Int → Prop) [DecidablePred P] (hP : ∀ v, P v → v < 0) :
    ((T.items.map Prod.fst).filter (fun b => decide (P ((T.entry b).getD 0)) && !truthy G b)).length =
      Set.ncard {g : Nat × Nat × Nat | ∃ v, P v ∧ VGroup T G v g.1 g.2.1 g.2.2} := by
  obtain ⟨L, hL⟩ : ∃ L, (T.items.map Prod.fst).filter (fun b => decide (P ((T.entry b).getD 0)) && !truthy G b) = L := ⟨_, rfl⟩
  have hnd : L.Nodup := by rw [← hL]; exact T.keys_nodup.filter _
  have hmem : ∀ b, b ∈ L ↔ ∃ v, P v ∧ T.get? b = some [v] ∧ G.get? b = some [0] := by
    intro b
    rw [← hL, List.mem_filter, mem_keys, Bool.and_eq_true, decide_eq_true_iff]
    constructor
    · rintro ⟨h1, h2, h3⟩
      obtain ⟨s, hs⟩ := Option.isSome_iff_exists.1 h1
      obtain ⟨a, rfl, _⟩ := h.single b s hs
      rw [entry_some.2 hs] at h2
      refine ⟨a, h2, hs, ?_⟩
      have : b ∈ endsOf T G a := by
        rw [endsOf, List.mem_filter, mem_keys, entry_some.2 hs, h3]
        exact ⟨h1, by simp⟩
      exact ((mem_endsOf h hV).1 this).2
    · rintro ⟨v, h1, h2, h3⟩
      have : b ∈ endsOf T G v := (mem_endsOf h hV).2 ⟨h2, h3⟩
      rw [endsOf, List.mem_filter, mem_keys, Bool.and_eq_true] at this
      refine ⟨this.1, ?_, this.2.2⟩
      rw [entry_some.2 h2]
      exact h1
  have huniq : ∀ v, v < 0 → ∀ j i i2 i2', VGroup T G v j i i2 → VGroup T G v j i i2' → i2 = i2' := by
    intro v hv j i i2 i2' g1 g2
    obtain ⟨s, e, _, _, _, h4, h5⟩ := C119_verticals h hV hv
    obtain ⟨p, _, hp⟩ := h5 i j (g1.2.1 i le_rfl g1.1)
    have e1 := hp ((i, j), (i2, j)) ⟨(h4 _ _).2 ⟨rfl, g1⟩, rfl, le_rfl, g1.1⟩
    have e2 := hp ((i, j), (i2', j)) ⟨(h4 _ _).2 ⟨rfl, g2⟩, rfl, le_rfl, g2.1⟩
    rw [← e2] at e1
    simp only [Prod.mk.injEq] at e1
    exact e1.2.1
  have hentry : ∀ {v v' : Int} {j i1 i2 i1' i2' : Nat}, VGroup T G v j i1 i2 → VGroup T G v' j i1' i2' → i1 = i1' → v = v' := by
    intro v v' j i1 i2 i1' i2' g1 g2 he
    subst he
    have := g1.2.1 i1 le_rfl g1.1
    rw [g2.2.1 i1 le_rfl g2.1] at this
    simpa using this.symm
  rw [hL, ← List.toFinset_card_of_nodup hnd, ← Set.ncard_coe_finset,
    ← Set.ncard_image_of_injOn (f := fun g : Nat × Nat × Nat => ((g.2.1, g.1) : Nat × Nat))]
  · congr 1
    ext ⟨i, j⟩
    rw [List.coe_toFinset, Set.mem_ofPred_eq, hmem, Set.mem_image]
    constructor
    · rintro ⟨v, h1, h2, h3⟩
      obtain ⟨s, e, _, _, _, h4, h5⟩ := C119_verticals h hV (hP v h1)
      obtain ⟨⟨⟨a1, a2⟩, ⟨b1, b2⟩⟩, ⟨p1, p2, p3, p4⟩, _⟩ := h5 i j h2
      dsimp only at p2 p3 p4
      obtain ⟨q1, q2⟩ := (h4 _ _).1 p1
      dsimp only at q1 q2
      subst p2
      have : a1 = i := by
        by_contra hc
        have := q2.2.2.1 i (by omega) p4
        rw [h3] at this
        simp at this
      subst this
      exact ⟨(a2, a1, b1), ⟨v, h1, q2⟩, rfl⟩
    · rintro ⟨⟨j', i1, i2⟩, ⟨v, h1, h2⟩, he⟩
      simp only [Prod.mk.injEq] at he
      obtain ⟨rfl, rfl⟩ := he
      exact ⟨v, h1, h2.2.1 _ le_rfl h2.1, h2.2.2.2.1⟩
  · rintro ⟨j, i1, i2⟩ ⟨v, h1, h2⟩ ⟨j', i1', i2'⟩ ⟨v', h1', h2'⟩ he
    simp only [Prod.mk.injEq] at he
    obtain ⟨rfl, rfl⟩ := he
    dsimp only at h2 h2'
    obtain rfl := hentry h2 h2' rfl
    rw [huniq v (hP v h1) _ _ _ _ h2 h2']

/-- C131: `primed_groups()` is the number of the groups of primed letters. -/
theorem C131_primed_groups :
    primedGroups T G [] = Set.ncard {g : Nat × Nat × Nat | ∃ v < 0, VGroup T G v g.1 g.2.1 g.2.2} := by
  rw [primedGroups, if_pos (by rfl)]
  exact starts_card h hV (fun v => v < 0) (fun _ hv => hv)

/-- C131: `primed_groups(*args)` is the number of the groups of the primed letters given, with or without their signs. -/
theorem C131_primed_groups_args {args : List Int} (ha : args ≠ []) :
    primedGroups T G args =
      Set.ncard {g : Nat × Nat × Nat | ∃ v < 0, (v ∈ args ∨ -v ∈ args) ∧ VGroup T G v g.1 g.2.1 g.2.2} := by
  rw [primedGroups, if_neg (by simpa using ha)]
  have h1 : {g : Nat × Nat × Nat | ∃ v < 0, (v ∈ args ∨ -v ∈ args) ∧ VGroup T G v g.1 g.2.1 g.2.2} =
      {g : Nat × Nat × Nat | ∃ v, (v < 0 ∧ v ∈ args.map (fun a => -|a|)) ∧ VGroup T G v g.1 g.2.1 g.2.2} := by
    ext g
    simp only [Set.mem_ofPred_eq, List.mem_map]
    constructor
    · rintro ⟨v, hv, hm, hg⟩
      refine ⟨v, ⟨hv, ?_⟩, hg⟩
      rcases hm with hm | hm
      · exact ⟨v, hm, by rw [abs_of_neg hv, neg_neg]⟩
      · exact ⟨-v, hm, by rw [abs_of_pos (by omega), neg_neg]⟩
    · rintro ⟨v, ⟨hv, a, hm, he⟩, hg⟩
      refine ⟨v, hv, ?_, hg⟩
      rcases abs_cases a with ⟨e, _⟩ | ⟨e, _⟩
      · rw [e] at he
        right
        rw [← he, neg_neg]
        exact hm
      · rw [e, neg_neg] at he
        left
        rw [← he]
        exact hm
  rw [h1, ← starts_card h hV _ (fun _ hv => hv.1)]
  congr 1
  apply List.filter_congr
  intro b hb
  obtain ⟨s, hs⟩ := Option.isSome_iff_exists.1 (mem_keys.1 hb)
  obtain ⟨a, rfl, ha0⟩ := h.single b s hs
  rw [entry_some.2 hs, Option.getD_some]
  congr 1
  rw [decide_eq_decide]
  refine ⟨fun hm => ⟨?_, hm⟩, fun hm => hm.2⟩
  obtain ⟨x, _, rfl⟩ := List.mem_map.1 hm
  have := abs_nonneg x
  omega

/-- C131: `is_highest_weight()` is True exactly when every group has only one box. -/
theorem C131_highest_weight :
    isHighestWeight T G = true ↔ (∀ v > 0, ∀ i j1 j2, HGroup T G v i j1 j2 → j1 = j2) ∧
      ∀ v < 0, ∀ j i1 i2, VGroup T G v j i1 i2 → i1 = i2 := by
  rw [isHighestWeight, List.all_eq_true]
  constructor
  · intro hall
    have h0 : ∀ b, (T.get? b).isSome → G.get? b = some [0] := by
      intro b hb
      exact entry_some.1 (of_decide_eq_true (hall b (mem_keys.2 hb)))
    refine ⟨fun v _ i j1 j2 hg => ?_, fun v _ j i1 i2 hg => ?_⟩
    · by_contra hc
      have h1 := hg.2.2.1 j1 le_rfl (lt_of_le_of_ne hg.1 hc)
      rw [h0 (i, j1) (by rw [hg.2.1 j1 le_rfl hg.1]; rfl)] at h1
      simp at h1
    · by_contra hc
      have h1 := hg.2.2.1 i2 (lt_of_le_of_ne hg.1 hc) le_rfl
      rw [h0 (i2, j) (by rw [hg.2.1 i2 hg.1 le_rfl]; rfl)] at h1
      simp at h1
  · rintro ⟨hh, hvv⟩ ⟨i, j⟩ hb
    have hb := mem_keys.1 hb
    rw [decide_eq_true_iff, entry_some]
    obtain ⟨s, hs⟩ := Option.isSome_iff_exists.1 ((hV.1 (i, j)).2 hb)
    rcases hV.2 i j s hs with rfl | ⟨rfl, a, ha, _⟩
    · exact hs
    · exfalso
      rcases lt_trichotomy a 0 with ha0 | ha0 | ha0
      · obtain ⟨st, e, _, _, _, h4, h5⟩ := C119_verticals h hV ha0
        obtain ⟨⟨⟨a1, a2⟩, ⟨b1, b2⟩⟩, ⟨p1, p2, p3, p4⟩, _⟩ := h5 i j ha
        dsimp only at p2 p3 p4
        obtain ⟨q1, q2⟩ := (h4 _ _).1 p1
        dsimp only at q1 q2
        subst p2
        have := hvv a ha0 _ _ _ q2
        obtain rfl : i = a1 := by omega
        rw [q2.2.2.2.1] at hs
        simp at hs
      · obtain ⟨x, hx, hx0⟩ := h.single _ _ ha
        simp only [List.cons.injEq, and_true] at hx
        omega
      · obtain ⟨st, e, _, _, _, h4, h5⟩ := C119_horizontals h hV ha0
        obtain ⟨⟨⟨a1, a2⟩, ⟨b1, b2⟩⟩, ⟨p1, p2, p3, p4⟩, _⟩ := h5 i j ha
        dsimp only at p2 p3 p4
        obtain ⟨q1, q2⟩ := (h4 _ _).1 p1
        dsimp only at q1 q2
        subst p2
        have := hh a ha0 _ _ _ q2
        obtain rfl : j = b2 := by omega
        rw [q2.2.2.2.1] at hs
        simp at hs

end

/-- The two primed boxes of `columnTab` are one group.  That `(columnTab, columnGroup)` is among the values of `all` is part of `C120_violated`. -/
example : primedGroups columnTab columnGroup [] = 1 ∧ primedGroups columnTab columnGroup [2] = 1 ∧
    primedGroups columnTab columnGroup [1] = 0 ∧ isHighestWeight columnTab columnGroup = false ∧
    isHighestWeight columnTab (columnGroup.set (2, 2) [0]) = true := by decide +kernel

end Verif.Vst
