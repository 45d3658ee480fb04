import Verif.Model.VstGroups
import Verif.Props.Vst

/-! # C118: groups of valued-set tableaux -/

attribute [-simp] List.getD_eq_getElem?_getD

namespace Verif.Vst

open Symm Tableaux Verif.Part Partition

/-! ### specification -/

/-- The box `c` has grouping `1` and is continued in the box `b`: to the right if the entry of `c` is positive, and in the row before if
it is negative. -/
def Linked (T G : Tab) (c b : Nat × Nat) : Prop :=
  G.get? c = some [1] ∧ ∃ a, T.get? c = some [a] ∧ ((0 < a ∧ b = (c.1, c.2 + 1)) ∨ (a < 0 ∧ c = (b.1 + 1, b.2)))

/-- The box `b` is a group of its own. -/
def Alone (T G : Tab) (b : Nat × Nat) : Prop := G.get? b = some [0] ∧ ∀ c, ¬ Linked T G c b

/-! ### singletons -/

section
variable {T G : Tab} (h : Plain T) (hV : IsVst T G)
include h hV

theorem grouping_cases {b : Nat × Nat} (hb : (T.get? b).isSome) :
    (G.get? b = some [0] ∧ truthy G b = false) ∨ (G.get? b = some [1] ∧ truthy G b = true ∧ Allowed T b) := by
  obtain ⟨s, hs⟩ := Option.isSome_iff_exists.1 ((hV.1 b).2 hb)
  rcases hV.2 b.1 b.2 s hs with rfl | ⟨rfl, h1⟩
  · left; exact ⟨hs, by rw [truthy, hs]; rfl⟩
  · right; exact ⟨hs, by rw [truthy, hs]; rfl, h1⟩

theorem isSingleton_spec {b : Nat × Nat} (hb : (T.get? b).isSome) :
    ∃ c, isSingleton T G b = some c ∧ (c = true ↔ Alone T G b) := by
  have hb2 := h.pos b hb
  have hhas : T.has b = true := hb
  rw [isSingleton, isGroupEnd, hhas]
  rcases grouping_cases h hV hb with ⟨h1, h2⟩ | ⟨h1, h2, _⟩
  · rw [h2]
    simp only [Bool.not_false, Bool.and_true, if_true]
    rw [isGroupStart, hhas]
    simp only [Bool.not_true, Bool.false_eq_true, if_false]
    obtain ⟨s, hs⟩ := Option.isSome_iff_exists.1 hb
    obtain ⟨a, rfl, ha⟩ := h.single b s hs
    rw [entry_some.2 hs]
    -- a box that is continued in `b` has the same entry
    have hlink : ∀ c, Linked T G c b → T.get? c = some [a] := by
      rintro c ⟨h3, a', h4, h5⟩
      obtain ⟨a'', h6, h7⟩ : Allowed T c := by
        rcases grouping_cases h hV (b := c) (by rw [h4]; rfl) with ⟨e, _⟩ | ⟨_, _, e⟩
        · rw [e] at h3; simp at h3
        · exact e
      have h66 := h6
      rw [h4] at h6
      simp only [Option.some.injEq, List.cons.injEq, and_true] at h6
      subst h6
      rcases h5 with ⟨h5, rfl⟩ | ⟨h5, rfl⟩
      · rcases h7 with h7 | h7
        · rw [h7.2] at hs; rw [← hs]; exact h66
        · omega
      · rcases h7 with h7 | h7
        · omega
        · simp only [Nat.add_sub_cancel] at h7
          rw [h7.2.2] at hs; rw [← hs]; exact h66
    by_cases h0 : 0 < a
    · simp only [h0, if_true]
      by_cases hl : (T.get? (b.1, b.2 - 1)).isSome
      · have hl2 : T.has (b.1, b.2 - 1) = true := hl
        rw [hl2]
        obtain ⟨s, hs2⟩ := Option.isSome_iff_exists.1 hl
        obtain ⟨a2, rfl, ha2⟩ := h.single _ s hs2
        rw [entry_some.2 hs2]
        refine ⟨_, rfl, ?_⟩
        have hp := (h.pos _ hl).2
        simp only at hp
        rcases grouping_cases h hV hl with ⟨e1, e2⟩ | ⟨e1, e2, e3⟩
        · rw [e2]
          simp only [Bool.and_false, Bool.not_false, true_iff]
          refine ⟨h1, fun c hc => ?_⟩
          have hca := hlink c hc
          obtain ⟨h3, a', h4, h5⟩ := hc
          rw [hca] at h4
          simp only [Option.some.injEq, List.cons.injEq, and_true] at h4
          subst h4
          rcases h5 with ⟨h5, rfl⟩ | ⟨h5, _⟩
          · simp only [Nat.add_sub_cancel] at e1
            rw [e1] at h3; simp at h3
          · omega
        · rw [e2]
          simp only [Bool.and_true, Bool.not_eq_true', decide_eq_false_iff_not]
          constructor
          · intro hn
            refine ⟨h1, fun c hc => ?_⟩
            have hca := hlink c hc
            obtain ⟨h3, a', h4, h5⟩ := hc
            rw [hca] at h4
            simp only [Option.some.injEq, List.cons.injEq, and_true] at h4
            subst h4
            rcases h5 with ⟨h5, rfl⟩ | ⟨h5, _⟩
            · simp only [Nat.add_sub_cancel] at hs2
              rw [hca] at hs2
              simp only [Option.some.injEq, List.cons.injEq, and_true] at hs2
              omega
            · omega
          · intro hal hpos
            exact hal.2 _ ⟨e1, a2, hs2, Or.inl ⟨hpos, Prod.ext rfl (by simp only; omega)⟩⟩
      · have hl2 : T.has (b.1, b.2 - 1) = false := by
          rw [← Bool.not_eq_true]; exact hl
        rw [hl2]
        refine ⟨true, rfl, ?_⟩
        simp only [true_iff]
        refine ⟨h1, fun c hc => hl ?_⟩
        have hca := hlink c hc
        obtain ⟨h3, a', h4, h5⟩ := hc
        rw [hca] at h4
        simp only [Option.some.injEq, List.cons.injEq, and_true] at h4
        subst h4
        rcases h5 with ⟨h5, rfl⟩ | ⟨h5, _⟩
        · simp only [Nat.add_sub_cancel]
          rw [hca]; rfl
        · omega
    · have h00 : a < 0 := by omega
      simp only [h0, h00, if_true, if_false]
      by_cases hl : (T.get? (b.1 + 1, b.2)).isSome
      · have hl2 : T.has (b.1 + 1, b.2) = true := hl
        rw [hl2]
        obtain ⟨s, hs2⟩ := Option.isSome_iff_exists.1 hl
        obtain ⟨a2, rfl, ha2⟩ := h.single _ s hs2
        rw [entry_some.2 hs2]
        refine ⟨_, rfl, ?_⟩
        rcases grouping_cases h hV hl with ⟨e1, e2⟩ | ⟨e1, e2, e3⟩
        · rw [e2]
          simp only [Bool.and_false, Bool.not_false, true_iff]
          refine ⟨h1, fun c hc => ?_⟩
          have hca := hlink c hc
          obtain ⟨h3, a', h4, h5⟩ := hc
          rw [hca] at h4
          simp only [Option.some.injEq, List.cons.injEq, and_true] at h4
          subst h4
          rcases h5 with ⟨h5, _⟩ | ⟨h5, rfl⟩
          · omega
          · rw [e1] at h3; simp at h3
        · rw [e2]
          simp only [Bool.and_true, Bool.not_eq_true', decide_eq_false_iff_not]
          constructor
          · intro hn
            refine ⟨h1, fun c hc => ?_⟩
            have hca := hlink c hc
            obtain ⟨h3, a', h4, h5⟩ := hc
            rw [hca] at h4
            simp only [Option.some.injEq, List.cons.injEq, and_true] at h4
            subst h4
            rcases h5 with ⟨h5, _⟩ | ⟨h5, rfl⟩
            · omega
            · rw [hca] at hs2
              simp only [Option.some.injEq, List.cons.injEq, and_true] at hs2
              omega
          · intro hal hneg
            exact hal.2 _ ⟨e1, a2, hs2, Or.inr ⟨hneg, rfl⟩⟩
      · have hl2 : T.has (b.1 + 1, b.2) = false := by
          rw [← Bool.not_eq_true]; exact hl
        rw [hl2]
        refine ⟨true, rfl, ?_⟩
        simp only [true_iff]
        refine ⟨h1, fun c hc => hl ?_⟩
        have hca := hlink c hc
        obtain ⟨h3, a', h4, h5⟩ := hc
        rw [hca] at h4
        simp only [Option.some.injEq, List.cons.injEq, and_true] at h4
        subst h4
        rcases h5 with ⟨h5, _⟩ | ⟨h5, rfl⟩
        · omega
        · rw [hca]; rfl
  · rw [h2]
    refine ⟨false, rfl, ?_⟩
    simp only [Bool.false_eq_true, false_iff]
    intro hal
    rw [hal.1] at h1
    simp at h1

theorem singletons_spec : ∃ l, singletons T G = some l ∧ l.Pairwise boxLt ∧ ∀ b, b ∈ l ↔ Alone T G b := by
  refine ⟨(T.items.map Prod.fst).filter (fun b => decide (isSingleton T G b = some true)), ?_, T.sorted.filter _, fun b => ?_⟩
  · simp only [singletons]
    rw [if_pos]
    rw [List.all_eq_true]
    intro b hb
    obtain ⟨c, h1, _⟩ := isSingleton_spec h hV (mem_keys.1 hb)
    rw [h1]; rfl
  · rw [List.mem_filter, mem_keys, decide_eq_true_iff]
    constructor
    · rintro ⟨h1, h2⟩
      obtain ⟨c, h3, h4⟩ := isSingleton_spec h hV h1
      rw [h3, Option.some_inj] at h2
      exact h4.1 h2
    · intro h1
      have hb : (T.get? b).isSome := (hV.1 b).1 (by rw [h1.1]; rfl)
      refine ⟨hb, ?_⟩
      obtain ⟨c, h3, h4⟩ := isSingleton_spec h hV hb
      rw [h3, h4.2 h1]

end

/-! ### removal of primes -/

/-- `T'` is `T` with the primes removed from the entries of the boxes with `P`. -/
def Unprimed (P : Nat × Nat → Prop) (T T' : Tab) : Prop :=
  (∀ b, P b → T'.get? b = (T.get? b).map (fun s => s.map (fun a => |a|))) ∧ ∀ b, ¬ P b → T'.get? b = T.get? b

theorem unprimeBox_fold {T : Tab} (h : Plain T) (l : List (Nat × Nat)) (hl : ∀ b ∈ l, (T.get? b).isSome) (t : Tab) :
    ∃ t', l.foldlM (unprimeBox T) t = some t' ∧
      (∀ b ∈ l, t'.get? b = (T.get? b).map (fun s => s.map (fun a => |a|))) ∧ ∀ b ∉ l, t'.get? b = t.get? b := by
  induction l generalizing t with
  | nil => exact ⟨t, rfl, by simp, fun b _ => rfl⟩
  | cons c l ih =>
    obtain ⟨s, hs⟩ := Option.isSome_iff_exists.1 (hl c List.mem_cons_self)
    obtain ⟨a, rfl, _⟩ := h.single c s hs
    obtain ⟨t', h1, h2, h3⟩ := ih (fun b hb => hl b (List.mem_cons_of_mem _ hb)) (t.set c [|a|])
    refine ⟨t', ?_, fun b hb => ?_, fun b hb => ?_⟩
    · rw [List.foldlM_cons, unprimeBox, entry_some.2 hs]; exact h1
    · by_cases hbl : b ∈ l
      · exact h2 b hbl
      · rcases List.mem_cons.1 hb with rfl | hb
        · rw [h3 b hbl, Tab.get?_set, if_pos rfl, hs]; rfl
        · exact absurd hb hbl
    · rw [List.mem_cons, not_or] at hb
      rw [h3 b hb.2, Tab.get?_set, if_neg hb.1]

section
variable {T G : Tab} (h : Plain T) (hV : IsVst T G)
include h hV

theorem unprimed_valid {P : Nat × Nat → Prop} (hP : ∀ b, P b → Alone T G b) {T' : Tab} (hT : Unprimed P T T') :
    Plain T' ∧ IsVst T' G := by
  classical
  have hbox : ∀ b, (T'.get? b).isSome ↔ (T.get? b).isSome := by
    intro b
    by_cases hb : P b
    · rw [hT.1 b hb, Option.isSome_map]
    · rw [hT.2 b hb]
  refine ⟨⟨fun b hb => h.pos b ((hbox b).1 hb), fun b s hs => ?_⟩, fun b => by rw [hV.1, hbox], fun i j s hs => ?_⟩
  · by_cases hb : P b
    · rw [hT.1 b hb] at hs
      obtain ⟨s', h1, rfl⟩ := Option.map_eq_some_iff.1 hs
      obtain ⟨a, rfl, ha⟩ := h.single b s' h1
      exact ⟨|a|, rfl, by simpa using ha⟩
    · rw [hT.2 b hb] at hs
      exact h.single b s hs
  · rcases hV.2 i j s hs with h1 | ⟨rfl, a, h2, h3⟩
    · exact Or.inl h1
    · right
      refine ⟨rfl, a, ?_, ?_⟩
      · rw [hT.2, h2]
        intro hp
        have := (hP _ hp).1
        rw [hs] at this; simp at this
      · rcases h3 with ⟨h3, h4⟩ | ⟨h3, h4, h5⟩
        · left
          refine ⟨h3, ?_⟩
          by_cases hp : P (i, j + 1)
          · rw [hT.1 _ hp, h4, Option.map_some, List.map_cons, List.map_nil, abs_of_pos h3]
          · rw [hT.2 _ hp, h4]
        · right
          refine ⟨h3, h4, ?_⟩
          rw [hT.2, h5]
          intro hp
          refine (hP _ hp).2 (i, j) ⟨hs, a, h2, Or.inr ⟨h3, Prod.ext (by simp only; omega) rfl⟩⟩

/-- If the entries of all singletons in a set `P` are unprimed, then there are no new singletons, and no singleton in `P` has a prime. -/
theorem unprimed_alone {P : Nat × Nat → Prop} (hP : ∀ b, P b → Alone T G b) {T' : Tab} (hT : Unprimed P T T') (b : Nat × Nat) :
    Alone T' G b ↔ Alone T G b := by
  have hlink : ∀ c, Linked T' G c b ↔ Linked T G c b := by
    intro c
    unfold Linked
    refine and_congr_right (fun hc => ?_)
    rw [hT.2 c (fun hp => by have := (hP _ hp).1; rw [hc] at this; simp at this)]
  unfold Alone
  simp only [hlink]

theorem weight_congr {P : Nat × Nat → Prop} (hP : ∀ b, P b → Alone T G b) {T' : Tab} (hT : Unprimed P T T') (n : Nat) :
    weight T' G n = weight T G n := by
  have hstep : ∀ b ans, weightStep T' G ans b = weightStep T G ans b := by
    intro b ans
    by_cases hp : P b
    · have hb : (T.get? b).isSome := (hV.1 b).1 (by rw [(hP b hp).1]; rfl)
      obtain ⟨s, hs⟩ := Option.isSome_iff_exists.1 hb
      obtain ⟨a, rfl, ha⟩ := h.single b s hs
      have h1 : T'.get? b = some [|a|] := by rw [hT.1 b hp, hs]; rfl
      rw [weightStep, weightStep, entry_some.2 hs, entry_some.2 h1]
      simp only [abs_eq_zero, Int.natAbs_abs]
    · have : T'.entry b = T.entry b := by rw [Tab.entry, hT.2 b hp]; rfl
      rw [weightStep, weightStep, this]
  have : weightStep T' G = weightStep T G := by
    funext ans b
    exact hstep b ans
  rw [weight, weight, this]

end

/-! ### semistandard tableaux -/

theorem ofn_eq {x : Int} (hx : x ≠ 0) : ofn x = mrank x - 1 := by
  unfold ofn
  rcases lt_or_ge x 0 with h | h
  · rw [if_pos h, mrank_neg h]; omega
  · rw [if_neg (by omega), mrank_pos h]

theorem markedLT_iff {a b : Int} (hb : b ≠ 0) : MarkedLT a b ↔ mrank a < mrank b := by
  refine ⟨mrank_lt, fun h => ?_⟩
  unfold MarkedLT
  rcases lt_or_ge a 0 with h1 | h1 <;> rcases lt_or_ge b 0 with h2 | h2 <;>
    simp only [mrank_pos, mrank_neg, abs_of_neg, abs_of_nonneg, h1, h2] at h ⊢ <;> omega

theorem rowTest_spec {T : Tab} {b : Nat × Nat} {x y : Int} (h1 : T.get? b = some [x]) (h2 : T.get? (b.1 - 1, b.2) = some [y])
    (hx : x ≠ 0) (hy : y ≠ 0) : ∃ c, rowTest T b = some c ∧ (c = true ↔ MarkedLT y x ∨ (y = x ∧ y < 0)) := by
  rw [rowTest, entry_some.2 h1, entry_some.2 h2]
  refine ⟨_, rfl, ?_⟩
  beta_reduce
  rw [markedLT_iff hx, ofn_eq hx, ofn_eq hy]
  simp only [Bool.not_eq_true', Bool.or_eq_false_iff, Bool.and_eq_false_iff, decide_eq_false_iff_not]
  have hi := @mrank_inj x y
  have hp := @mrank_pos x
  have hn := @mrank_neg x
  constructor
  · rintro ⟨h3, h4⟩
    by_cases he : mrank x = mrank y
    · right
      have hxy := hi he
      subst hxy
      refine ⟨rfl, ?_⟩
      by_contra hc
      have := hp (by omega)
      omega
    · left; omega
  · rintro (h3 | ⟨rfl, h3⟩)
    · omega
    · have := hn h3
      omega

theorem colTest_spec {T : Tab} {b : Nat × Nat} {x y : Int} (h1 : T.get? b = some [x]) (h2 : T.get? (b.1, b.2 + 1) = some [y])
    (hx : x ≠ 0) (hy : y ≠ 0) : ∃ c, colTest T b = some c ∧ (c = true ↔ MarkedLT x y ∨ (x = y ∧ 0 < x)) := by
  rw [colTest, entry_some.2 h1, entry_some.2 h2]
  refine ⟨_, rfl, ?_⟩
  beta_reduce
  rw [markedLT_iff hy, ofn_eq hx, ofn_eq hy]
  simp only [Bool.not_eq_true', Bool.or_eq_false_iff, Bool.and_eq_false_iff, decide_eq_false_iff_not]
  have hi := @mrank_inj x y
  have hp := @mrank_pos x
  have hn := @mrank_neg x
  constructor
  · rintro ⟨h3, h4⟩
    by_cases he : mrank x = mrank y
    · right
      have hxy := hi he
      subst hxy
      refine ⟨rfl, ?_⟩
      by_contra hc
      have := hn (by omega)
      omega
    · left; omega
  · rintro (h3 | ⟨rfl, h3⟩)
    · omega
    · have := hp (by omega)
      omega

/-! ### C118 -/

/-- C118: on any tableau with one nonzero number in each box, `is_semistandard()` raises no exception and tests that rows and columns
increase weakly in the order `1' < 1 < 2' < 2 < ...`, primed letters strictly along rows and unprimed ones strictly along columns. -/
theorem C118_semistandard {T : Tab} (h : Plain T) : ∃ c, isSemistandardV T = some c ∧ (c = true ↔
    (∀ i j x y, T.get? (i, j) = some [x] → T.get? (i, j + 1) = some [y] → MarkedLT x y ∨ (x = y ∧ 0 < x)) ∧
    ∀ i j x y, T.get? (i, j) = some [x] → T.get? (i + 1, j) = some [y] → MarkedLT x y ∨ (x = y ∧ x < 0)) := by
  have hr : ∀ b ∈ (T.items.map Prod.fst).filter (fun b => T.has (b.1 - 1, b.2)), ∃ x y, T.get? b = some [x] ∧
      T.get? (b.1 - 1, b.2) = some [y] ∧ x ≠ 0 ∧ y ≠ 0 := by
    intro b hb
    obtain ⟨h1, h2⟩ := List.mem_filter.1 hb
    obtain ⟨s, hs⟩ := Option.isSome_iff_exists.1 (mem_keys.1 h1)
    obtain ⟨s', hs'⟩ := Option.isSome_iff_exists.1 (show (T.get? (b.1 - 1, b.2)).isSome from h2)
    obtain ⟨x, rfl, hx⟩ := h.single _ _ hs
    obtain ⟨y, rfl, hy⟩ := h.single _ _ hs'
    exact ⟨x, y, hs, hs', hx, hy⟩
  have hc : ∀ b ∈ (T.items.map Prod.fst).filter (fun b => T.has (b.1, b.2 + 1)), ∃ x y, T.get? b = some [x] ∧
      T.get? (b.1, b.2 + 1) = some [y] ∧ x ≠ 0 ∧ y ≠ 0 := by
    intro b hb
    obtain ⟨h1, h2⟩ := List.mem_filter.1 hb
    obtain ⟨s, hs⟩ := Option.isSome_iff_exists.1 (mem_keys.1 h1)
    obtain ⟨s', hs'⟩ := Option.isSome_iff_exists.1 (show (T.get? (b.1, b.2 + 1)).isSome from h2)
    obtain ⟨x, rfl, hx⟩ := h.single _ _ hs
    obtain ⟨y, rfl, hy⟩ := h.single _ _ hs'
    exact ⟨x, y, hs, hs', hx, hy⟩
  simp only [isSemistandardV]
  rw [if_pos]
  · refine ⟨_, rfl, ?_⟩
    rw [Bool.and_eq_true, List.all_eq_true, List.all_eq_true]
    constructor
    · rintro ⟨h1, h2⟩
      refine ⟨fun i j x y hx hy => ?_, fun i j x y hx hy => ?_⟩
      · have hb : (i, j) ∈ (T.items.map Prod.fst).filter (fun b => T.has (b.1, b.2 + 1)) := by
          rw [List.mem_filter, mem_keys, hx]
          exact ⟨rfl, by rw [Tab.has, hy]; rfl⟩
        have h3 := h2 _ hb
        rw [decide_eq_true_iff] at h3
        obtain ⟨a, e1, ha⟩ := h.single _ _ hx
        obtain ⟨a', e1', ha'⟩ := h.single _ _ hy
        simp only [List.cons.injEq, and_true] at e1 e1'
        subst e1; subst e1'
        obtain ⟨c, e2, e3⟩ := colTest_spec (b := (i, j)) hx hy ha ha'
        rw [e2, Option.some_inj] at h3
        exact e3.1 h3
      · have hb : (i + 1, j) ∈ (T.items.map Prod.fst).filter (fun b => T.has (b.1 - 1, b.2)) := by
          rw [List.mem_filter, mem_keys, hy]
          exact ⟨rfl, by rw [Tab.has]; simp only [Nat.add_sub_cancel]; rw [hx]; rfl⟩
        have h3 := h1 _ hb
        rw [decide_eq_true_iff] at h3
        obtain ⟨a, e1, ha⟩ := h.single _ _ hx
        obtain ⟨a', e1', ha'⟩ := h.single _ _ hy
        simp only [List.cons.injEq, and_true] at e1 e1'
        subst e1; subst e1'
        obtain ⟨c, e2, e3⟩ := rowTest_spec (b := (i + 1, j)) hy (by simp only [Nat.add_sub_cancel]; exact hx) ha' ha
        rw [e2, Option.some_inj] at h3
        exact e3.1 h3
    · rintro ⟨h1, h2⟩
      refine ⟨fun b hb => ?_, fun b hb => ?_⟩
      · obtain ⟨x, y, hx, hy, hx0, hy0⟩ := hr b hb
        obtain ⟨c, e2, e3⟩ := rowTest_spec hx hy hx0 hy0
        rw [e2, decide_eq_true_iff, Option.some_inj, e3]
        have hp := (h.pos _ (show (T.get? (b.1 - 1, b.2)).isSome by rw [hy]; rfl)).1
        simp only at hp
        refine h2 (b.1 - 1) b.2 y x hy ?_
        rw [show b.1 - 1 + 1 = b.1 by omega]
        exact hx
      · obtain ⟨x, y, hx, hy, hx0, hy0⟩ := hc b hb
        obtain ⟨c, e2, e3⟩ := colTest_spec hx hy hx0 hy0
        rw [e2, decide_eq_true_iff, Option.some_inj, e3]
        exact h1 b.1 b.2 x y hx hy
  · rw [Bool.and_eq_true, List.all_eq_true, List.all_eq_true]
    refine ⟨fun b hb => ?_, fun b hb => ?_⟩
    · obtain ⟨x, y, hx, hy, hx0, hy0⟩ := hr b hb
      obtain ⟨c, e2, _⟩ := rowTest_spec hx hy hx0 hy0
      rw [e2]; rfl
    · obtain ⟨x, y, hx, hy, hx0, hy0⟩ := hc b hb
      obtain ⟨c, e2, _⟩ := colTest_spec hx hy hx0 hy0
      rw [e2]; rfl

/-- C118: `singletons()` of a valued-set tableau raises no exception and lists the boxes that are groups of their own, in order. -/
theorem C118_singletons {T G : Tab} (h : Plain T) (hV : IsVst T G) :
    ∃ l, singletons T G = some l ∧ l.Pairwise boxLt ∧ ∀ b, b ∈ l ↔ Alone T G b := singletons_spec h hV

/-- C118: `unprime()` of a valued-set tableau raises no exception (in particular the assertion of the constructor holds), and it removes
exactly the primes of the groups with one box.  The result is a valued-set tableau with the same groups of one box, the same weight,
and no primes on its groups of one box. -/
theorem C118_unprime {T G : Tab} (h : Plain T) (hV : IsVst T G) : ∃ T', unprime T G = some (T', G) ∧ Unprimed (Alone T G) T T' ∧
    Plain T' ∧ IsVst T' G ∧ (∀ b, Alone T' G b ↔ Alone T G b) ∧ (∀ n, weight T' G n = weight T G n) ∧
    ∀ b a, Alone T' G b → T'.get? b = some [a] → 0 < a := by
  obtain ⟨l, h1, _, h2⟩ := singletons_spec h hV
  obtain ⟨T', h3, h4, h5⟩ := unprimeBox_fold h l (fun b hb => (hV.1 b).1 (by rw [((h2 b).1 hb).1]; rfl)) T
  have hU : Unprimed (Alone T G) T T' := ⟨fun b hb => h4 b ((h2 b).2 hb), fun b hb => h5 b (fun hc => hb ((h2 b).1 hc))⟩
  obtain ⟨hp, hv⟩ := unprimed_valid h hV (fun b hb => hb) hU
  refine ⟨T', ?_, hU, hp, hv, unprimed_alone h hV (fun b hb => hb) hU, weight_congr h hV (fun b hb => hb) hU, fun b a hb ha => ?_⟩
  · rw [unprime, h1, Option.bind_some, h3, Option.bind_some, mk?_some hp hv]
  · rw [unprimed_alone h hV (fun b hb => hb) hU] at hb
    obtain ⟨a', e1, e2⟩ := hp.single b _ ha
    simp only [List.cons.injEq, and_true] at e1
    subst e1
    rw [hU.1 b hb] at ha
    obtain ⟨s, e3, e4⟩ := Option.map_eq_some_iff.1 ha
    obtain ⟨a2, rfl, e5⟩ := h.single b s e3
    simp only [List.map_cons, List.map_nil, List.cons.injEq, and_true] at e4
    have := abs_nonneg a2
    omega

/-- C118: `unprime_diagonal()` does the same for the groups of one box on the diagonal. -/
theorem C118_unprime_diagonal {T G : Tab} (h : Plain T) (hV : IsVst T G) : ∃ T', unprimeDiagonal T G = some (T', G) ∧
    Unprimed (fun b => b.1 = b.2 ∧ Alone T G b) T T' ∧ Plain T' ∧ IsVst T' G ∧ (∀ b, Alone T' G b ↔ Alone T G b) ∧
    ∀ n, weight T' G n = weight T G n := by
  obtain ⟨l, h1, _, h2⟩ := singletons_spec h hV
  have h22 : ∀ b, b ∈ l.filter (fun b => decide (b.1 = b.2)) ↔ b.1 = b.2 ∧ Alone T G b := by
    intro b
    rw [List.mem_filter, h2, decide_eq_true_iff, and_comm]
  obtain ⟨T', h3, h4, h5⟩ := unprimeBox_fold h (l.filter (fun b => decide (b.1 = b.2)))
    (fun b hb => (hV.1 b).1 (by rw [((h22 b).1 hb).2.1]; rfl)) T
  have hU : Unprimed (fun b => b.1 = b.2 ∧ Alone T G b) T T' :=
    ⟨fun b hb => h4 b ((h22 b).2 hb), fun b hb => h5 b (fun hc => hb ((h22 b).1 hc))⟩
  obtain ⟨hp, hv⟩ := unprimed_valid h hV (fun b hb => hb.2) hU
  refine ⟨T', ?_, hU, hp, hv, unprimed_alone h hV (fun b hb => hb.2) hU, weight_congr h hV (fun b hb => hb.2) hU⟩
  rw [unprimeDiagonal, h1, Option.bind_some, h3, Option.bind_some, mk?_some hp hv]

/-- C118: the valued-set tableaux that `all` returns satisfy the hypotheses above, and `is_semistandard()` is True for them. -/
theorem C118_all {mu nu : List Nat} (dp : Bool) (n : Nat) (hm : IsStrict mu) (hn : IsStrict nu) {S : Finset Tab}
    (hS : semistandardShiftedMarked dp false nu n mu = some S) {tabs : List Tab} (ht : ListsSet tabs S) {B : Finset (Tab × Tab)}
    (hB : allOf tabs = some B) {V : Tab × Tab} (hV : V ∈ B) : Plain V.1 ∧ IsVst V.1 V.2 ∧ isSemistandardV V.1 = some true := by
  obtain ⟨B', h1, h2⟩ := C117_all dp n hm hn hS ht
  rw [hB, Option.some_inj] at h1
  subst h1
  obtain ⟨⟨_, h3⟩, h4⟩ := (h2 V).1 hV
  obtain ⟨f, hf⟩ := markedTab_of hm hn h3
  refine ⟨hf.plain, h4, ?_⟩
  obtain ⟨c, h5, h6⟩ := C118_semistandard hf.plain
  rw [h5, Option.some_inj, h6]
  refine ⟨fun i j x y hx hy => ?_, fun i j x y hx hy => ?_⟩
  · obtain ⟨hx2, rfl⟩ := hf.get?_iff.1 hx
    obtain ⟨hy2, rfl⟩ := hf.get?_iff.1 hy
    exact hf.marked.2.1 i j hx2 hy2
  · obtain ⟨hx2, rfl⟩ := hf.get?_iff.1 hx
    obtain ⟨hy2, rfl⟩ := hf.get?_iff.1 hy
    exact hf.marked.2.2.1 i j hx2 hy2

example : singletons exampleTab exampleGroup = some [(1, 1), (2, 2), (2, 3)] := by decide +kernel
example : (unprime exampleTab exampleGroup).map (fun V => V.1.entry (2, 2)) = some (some 2) := by decide +kernel
example : isSemistandardV exampleTab = some true := by decide +kernel
example : isSemistandardV (exampleTab.set (2, 3) [1]) = some false := by decide +kernel

end Verif.Vst
