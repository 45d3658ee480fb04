import Verif.Model.WordCrystals
import Verif.Props.StableG
import Verif.Props.Crystals
import Verif.Props.Factorizations
import Verif.Props.InsertionSurj
import Verif.Props.InsertionWord

/-! Property C90: crystals of factorizations of Hecke words (crystals.py, `WordCrystalGenerator`). -/

attribute [-simp] List.getD_eq_getElem?_getD

namespace Verif.Perm.LevelKind

open Verif.PermSpec

variable (K : LevelKind)

/-! ### runs with a bound for the length -/

theorem drain_any (fuel : Nat) : ∀ (ph : Phase) (bound : Int) (index : Nat) (L : List Level),
    K.Good L → K.InSync index L.length ph →
    (0 ≤ bound → bound < fuel → (K.drain fuel ph bound index L).isSome) ∧
    ∀ r, K.drain fuel ph bound index L = some r → K.Good r.2 ∧
      ∃ m : Nat, r.1 = (List.range m).map (fun t => K.level (index + t)) ∧
        (K.level (index + m) = [] ∨ (0 ≤ bound ∧ (m : Int) = bound + 1)) ∧ (0 ≤ bound → (m : Int) ≤ bound + 1) := by
  induction fuel with
  | zero =>
    intro ph bound index L _ _
    refine ⟨by intro h1 h2; exact absurd h2 (by push_cast; omega), fun r h => by rw [drain] at h; cases h⟩
  | succ fuel ih =>
    intro ph bound index L hL hs
    obtain ⟨hle, ⟨he, hp⟩ | ⟨hne, ph', hp, hs'⟩⟩ := K.resume_spec hL hs
    · rw [drain, hp]
      refine ⟨fun _ _ => rfl, fun r h => ?_⟩
      simp only [Option.some.injEq] at h
      subst h
      exact ⟨hL, 0, rfl, Or.inl he, by intro h; push_cast; omega⟩
    · rw [drain, hp]
      simp only
      have hL' : K.Good (if index ≥ L.length then L ++ [K.level index] else L) ∧
          (if index ≥ L.length then L ++ [K.level index] else L).length = max L.length (index + 1) := by
        by_cases hge : index ≥ L.length
        · have : index = L.length := by omega
          rw [if_pos hge]
          subst this
          exact ⟨K.good_append hL hne, by simp⟩
        · rw [if_neg hge]
          exact ⟨hL, by omega⟩
      obtain ⟨L1, hL1⟩ : ∃ L1, (if index ≥ L.length then L ++ [K.level index] else L) = L1 := ⟨_, rfl⟩
      rw [hL1] at hL' ⊢
      by_cases hb : bound = 0
      · rw [if_pos hb]
        refine ⟨fun _ _ => rfl, fun r h => ?_⟩
        simp only [Option.some.injEq] at h
        subst h
        exact ⟨hL'.1, 1, rfl, Or.inr ⟨by omega, by omega⟩, by intro h; omega⟩
      · rw [if_neg hb]
        obtain ⟨i1, i2⟩ := ih ph' (bound - 1) (index + 1) L1 hL'.1 (by rw [hL'.2]; exact hs')
        refine ⟨fun h1 h2 => ?_, fun r h => ?_⟩
        · rw [Option.isSome_map]
          exact i1 (by omega) (by push_cast at h2; omega)
        · rw [Option.map_eq_some_iff] at h
          obtain ⟨r', h1, rfl⟩ := h
          obtain ⟨e1, m, e2, e3, e4⟩ := i2 r' h1
          refine ⟨e1, m + 1, ?_, ?_, ?_⟩
          · rw [e2, range_map_shift]
            simp only [Nat.add_zero, Nat.add_assoc]
          · rw [show index + (m + 1) = index + 1 + m by omega]
            rcases e3 with e3 | e3
            · exact Or.inl e3
            · right
              push_cast
              omega
          · intro h
            have := e4 (by omega)
            push_cast
            omega

theorem good_of_any {L : List Level} (h : CacheEntry K L) : K.Good L := by
  induction h with
  | empty => exact K.good_nil
  | @run L L' levels fuel bound h hr ih => exact ((K.drain_any fuel .fresh (bound.getD (-1)) 0 L ih rfl).2 _ hr).1

end Verif.Perm.LevelKind

namespace Verif.Crystal

open Verif Verif.Perm Verif.PermSpec Verif.Part Verif.Insertion Tab

attribute [local irreducible] mul s inverse identity Perm.len mod act demazure

/-- `elements` lists, each once, the pairs `(u, i)` of a Hecke word `u` of `w` with `length` letters and a sequence
`i` of the same length with entries in `1..k`, weakly increasing, and strictly increasing at every descent of `u` (or, if
`decreasing`, at every weak ascent of `u`): the factorizations of `u` into `k` weakly increasing (strictly decreasing) words. -/
def Factorizations (elements : List (List Int × List Int)) (w : SPerm) (k length : Nat) (decreasing : Bool) : Prop :=
  elements.Nodup ∧ ∀ u i, (u, i) ∈ elements ↔ (∀ a ∈ u, 0 < a) ∧ HeckeWord w (u.map Int.toNat) ∧ u.length = length ∧
    IsRecord u i (!decreasing) ∧ ∀ x ∈ i, 1 ≤ x ∧ x ≤ k

theorem map_cast_toNat (u : List Nat) : (u.map (fun a : Nat => (a : Int))).map Int.toNat = u := by
  rw [List.map_map]
  exact (List.map_congr_left (fun a _ => Int.toNat_natCast a)).trans (List.map_id u)

theorem map_toNat_cast {u : List Int} (h : ∀ a ∈ u, 0 < a) : (u.map Int.toNat).map (fun a : Nat => (a : Int)) = u := by
  rw [List.map_map]
  exact (List.map_congr_left (fun a ha => Int.toNat_of_nonneg (h a ha).le)).trans (List.map_id u)

theorem cast_inj {u v : List Nat} (h : u.map (fun a : Nat => (a : Int)) = v.map (fun a : Nat => (a : Int))) : u = v := by
  rw [← map_cast_toNat u, h, map_cast_toNat]

/-- The words of a complete run with a bound. -/
theorem crystalWords?_spec {w : SPerm} (hw : isUnsigned w = true) {length fuel : Nat} (hf : length < fuel) {L : List Level}
    (hL : CacheEntry (heckeKind w.rank none) L) :
    ∃ words L', crystalWords? w length fuel L = some (words, L') ∧ CacheEntry (heckeKind w.rank none) L' ∧ words.Nodup ∧
      ∀ u, u ∈ words ↔ (∀ a ∈ u, 0 < a) ∧ HeckeWord w (u.map Int.toNat) ∧ u.length = length := by
  obtain ⟨K, hK⟩ : ∃ K, K = heckeKind w.rank none := ⟨_, rfl⟩
  rw [crystalWords?]
  rw [← hK] at hL ⊢
  obtain ⟨h1, h2⟩ := K.drain_any fuel .fresh (length : Int) 0 L (K.good_of_any hL) rfl
  obtain ⟨⟨levels, L'⟩, hr⟩ := Option.isSome_iff_exists.1 (h1 (by omega) (by omega))
  obtain ⟨-, m, h4, h5, h6⟩ := h2 _ hr
  have hrun : K.run fuel (some (length : Int)) L = some (levels, L') := hr
  have h6 := h6 (by omega)
  simp only [Nat.zero_add] at h4 h5
  subst h4
  have hlev : ∀ t (u : List Nat), (∃ p, w = p ∧ (p, u) ∈ K.level t) ↔ u.length = t ∧ HeckeWord w u := by
    intro t u
    constructor
    · rintro ⟨p, rfl, hp⟩
      obtain ⟨e1, -, -, e4⟩ := ((K.level_spec t).2 _ _).1 hp
      refine ⟨e1, ?_⟩
      rw [hK, LevelKind.reach_total _ (g := act) (fun p i => by rw [← mod_s]; rfl), Option.some.injEq] at e4
      rw [HeckeWord, ← demazure_eq]; exact e4
    · rintro ⟨e1, e2⟩
      refine ⟨w, rfl, ((K.level_spec t).2 _ _).2 ⟨e1, ?_, ?_, ?_⟩⟩
      · intro i hi
        rw [hK]
        exact mem_letters.2 (letters_of_hecke hw u e2 i hi)
      · intro v _ _; rw [hK]; rfl
      · rw [hK, LevelKind.reach_total _ (g := act) (fun p i => by rw [← mod_s]; rfl), Option.some.injEq]
        rw [HeckeWord, ← demazure_eq] at e2; exact e2
  have hmem : ∀ u, u ∈ wordsOf w ((List.range m).map K.level) ↔ u.length < m ∧ HeckeWord w u := by
    intro u
    rw [wordsOf, List.mem_flatMap]
    constructor
    · rintro ⟨l, hl, hu⟩
      obtain ⟨t, ht, rfl⟩ := List.mem_map.1 hl
      obtain ⟨⟨p, v⟩, hp, rfl⟩ := List.mem_map.1 hu
      obtain ⟨hp1, hp2⟩ := List.mem_filter.1 hp
      obtain ⟨e1, e2⟩ := (hlev t v).1 ⟨p, by simpa using hp2, hp1⟩
      exact ⟨by rw [List.mem_range] at ht; simp only; omega, e2⟩
    · rintro ⟨e1, e2⟩
      obtain ⟨p, e3, e4⟩ := (hlev u.length u).2 ⟨rfl, e2⟩
      exact ⟨_, List.mem_map.2 ⟨u.length, List.mem_range.2 e1, rfl⟩,
        List.mem_map.2 ⟨(p, u), List.mem_filter.2 ⟨e4, by simpa using e3⟩, rfl⟩⟩
  have hnd : (wordsOf w ((List.range m).map K.level)).Nodup := by
    rw [wordsOf, List.nodup_flatMap]
    constructor
    · intro l hl
      obtain ⟨t, -, rfl⟩ := List.mem_map.1 hl
      refine ((K.level_spec t).1.filter _).map_on ?_
      rintro ⟨p, u⟩ hp ⟨p', u'⟩ hp' he
      have h1 := (List.mem_filter.1 hp).2
      have h2 := (List.mem_filter.1 hp').2
      simp only [decide_eq_true_eq] at h1 h2 he
      rw [← h1, ← h2, he]
    · rw [List.pairwise_map]
      refine List.nodup_range.imp ?_
      intro a b hab u hu hv
      obtain ⟨⟨p, v⟩, hp, rfl⟩ := List.mem_map.1 hu
      obtain ⟨⟨p', v'⟩, hp', he⟩ := List.mem_map.1 hv
      simp only at he
      subst he
      have e1 := (((K.level_spec a).2 _ _).1 (List.mem_filter.1 hp).1).1
      have e2 := (((K.level_spec b).2 _ _).1 (List.mem_filter.1 hp').1).1
      exact hab (e1.symm.trans e2)
  refine ⟨_, L', by rw [hrun]; rfl, .run hL hrun, (hnd.filter _).map (fun u v h => cast_inj h), ?_⟩
  intro u
  rw [List.mem_map]
  constructor
  · rintro ⟨v, hv, rfl⟩
    obtain ⟨h7, h8⟩ := List.mem_filter.1 hv
    obtain ⟨h9, h10⟩ := (hmem v).1 h7
    refine ⟨?_, by rw [map_cast_toNat]; exact h10, by simpa using h8⟩
    intro a ha
    obtain ⟨b, hb, rfl⟩ := List.mem_map.1 ha
    have := letters_of_hecke hw v h10 b hb
    omega
  · rintro ⟨h7, h8, h9⟩
    refine ⟨u.map Int.toNat, List.mem_filter.2 ⟨(hmem _).2 ⟨?_, h8⟩, by simpa using h9⟩, map_toNat_cast h7⟩
    rw [List.length_map, h9]
    rcases h5 with h5 | ⟨-, h5⟩
    · by_contra hlt
      have := K.level_empty_le h5 (u := length) (by omega)
      obtain ⟨p, -, e⟩ := (hlev length (u.map Int.toNat)).2 ⟨by simpa using h9, h8⟩
      rw [this] at e; cases e
    · omega

/-- C90: whatever earlier runs left in the cache of Hecke levels, `factorizations` lists each factorization of each Hecke word of
the given length exactly once. -/
theorem C90_elements {w : SPerm} (hw : isUnsigned w = true) (k : Nat) (decreasing : Bool) {length fuel : Nat}
    (hf : length < fuel) {L : List Level} (hL : CacheEntry (heckeKind w.rank none) L) :
    ∃ words L', crystalWords? w length fuel L = some (words, L') ∧ CacheEntry (heckeKind w.rank none) L' ∧
      Factorizations (wordElements words k decreasing) w k length decreasing := by
  obtain ⟨words, L', h1, h2, h3, h4⟩ := crystalWords?_spec hw hf hL
  refine ⟨words, L', h1, h2, ?_, ?_⟩
  · rw [wordElements, (List.perm_insertionSort _ _).nodup_iff, List.nodup_flatMap]
    refine ⟨fun u _ => (C77_arrays decreasing k u).1, h3.imp ?_⟩
    rintro a b hab ⟨u, i⟩ hu hv
    exact hab ((((C77_arrays decreasing k a).2 u i).1 hu).1.symm.trans (((C77_arrays decreasing k b).2 u i).1 hv).1)
  · intro u i
    rw [wordElements, (List.perm_insertionSort _ _).mem_iff, List.mem_flatMap]
    constructor
    · rintro ⟨v, hv, hu⟩
      obtain ⟨rfl, h5, h6⟩ := ((C77_arrays decreasing k v).2 u i).1 hu
      obtain ⟨h7, h8, h9⟩ := (h4 _).1 hv
      exact ⟨h7, h8, h9, h5, h6⟩
    · rintro ⟨h7, h8, h9, h5, h6⟩
      exact ⟨u, (h4 u).2 ⟨h7, h8, h9⟩, ((C77_arrays decreasing k u).2 u i).2 ⟨rfl, h5, h6⟩⟩

/-- All elements have words of the same length, so `sorted` does not move anything. -/
theorem C90_order {w : SPerm} (hw : isUnsigned w = true) (k : Nat) (decreasing : Bool) {length fuel : Nat}
    (hf : length < fuel) {L : List Level} (hL : CacheEntry (heckeKind w.rank none) L) {words : List (List Int)} {L' : List Level}
    (h : crystalWords? w length fuel L = some (words, L')) :
    wordElements words k decreasing = words.flatMap (fun u => (increasingFactorizations decreasing k u).map factorizationTupleToArray) := by
  obtain ⟨words', L'', h1, -, -, h4⟩ := crystalWords?_spec hw hf hL
  rw [h, Option.some.injEq, Prod.mk.injEq] at h1
  obtain ⟨rfl, rfl⟩ := h1
  have hlen : ∀ x ∈ words.flatMap (fun u => (increasingFactorizations decreasing k u).map factorizationTupleToArray),
      x.1.length = length ∧ x.2.length = length := by
    rintro ⟨u, i⟩ hx
    obtain ⟨v, hv, hu⟩ := List.mem_flatMap.1 hx
    obtain ⟨rfl, h5, -⟩ := ((C77_arrays decreasing k v).2 u i).1 hu
    have := ((h4 _).1 hv).2.2
    exact ⟨this, h5.1.symm.trans this⟩
  rw [wordElements]
  refine List.Pairwise.insertionSort_eq (List.pairwise_of_forall_mem_list ?_)
  intro a ha b hb
  right
  have := hlen a ha
  have := hlen b hb
  omega

theorem index_filter_pair {elements : List (List Int × List Int)} (hnd : elements.Nodup) {y : Nat} {U : List Int × List Int}
    (hy : elements[y]? = some U) : (List.range elements.length).filter (fun z => decide (elements[z]? = some U)) = [y] := by
  obtain ⟨hl, rfl⟩ := List.getElem?_eq_some_iff.1 hy
  have h1 : ((List.range elements.length).filter (fun z => decide (elements[z]? = some elements[y]))).Perm [y] := by
    rw [List.perm_ext_iff_of_nodup (List.nodup_range.filter _) (by simp)]
    intro z
    rw [List.mem_filter, List.mem_range, decide_eq_true_iff, List.mem_singleton]
    constructor
    · rintro ⟨h1, h2⟩
      rw [List.getElem?_eq_getElem h1, Option.some.injEq] at h2
      exact (hnd.getElem_inj_iff).1 h2
    · rintro rfl; exact ⟨hl, List.getElem?_eq_getElem _⟩
  exact List.perm_singleton.1 h1

theorem f?_any {m : Bool} {mu : List Nat} (hmu : IsPartition mu) {n : Nat} {i : Int} (hn : i + 1 ≤ n) {T : Tab}
    (hT : IsMultiTableauOf m (Diagram mu) (IsSemistandard n (Diagram mu)) T.get?) :
    f? i m T = some none ∨
    ∃ U, f? i m T = some (some U) ∧ IsMultiTableauOf m (Diagram mu) (IsSemistandard n (Diagram mu)) U.get? ∧
      ∃ l, T.values.Perm (i :: l) ∧ U.values.Perm ((i + 1) :: l) := by
  cases m with
  | true =>
    rcases C78_f hmu hn hT with h | ⟨U, h1, h2, -, h3⟩
    · exact Or.inl h
    · exact Or.inr ⟨U, h1, h2, h3⟩
  | false =>
    have hD : Diagram mu \ Diagram [] = Diagram mu := by rw [diagram_nil, Set.sdiff_empty]
    rcases C79_f hmu isPartition_nil hn (by rw [hD]; exact hT) with h | ⟨U, h1, h2, -, h3⟩
    · exact Or.inl h
    · rw [hD] at h2
      exact Or.inr ⟨U, h1, h2, h3⟩

theorem hecke_value {C : HCache} (hC : Sound C) (w : List Int) (record : Option (List Int)) (m : Bool) :
    (hecke C w record m).1 = (hecke Dict.empty w record m).1 := by
  unfold hecke
  cases checkRecord w record m with
  | none => rfl
  | some rec =>
    have h1 := (insertAll_spec w hC Tab.empty Tab.empty).1
    have h2 := (insertAll_spec w sound_empty Tab.empty Tab.empty).1
    rw [← insertionTableaux] at h1 h2
    simp only
    rcases hi : insertionTableaux C w with ⟨o, C'⟩
    rcases hj : insertionTableaux Dict.empty w with ⟨o', C''⟩
    rw [hi] at h1
    rw [hj] at h2
    have : o = o' := h1.trans h2.symm
    subst this
    cases o with
    | none => rfl
    | some r => simp only; split <;> rfl

/-- The factorization `x` and its image `x'`: they have the same insertion tableau `p`, and the recording tableau of `x'` is
`f_i` of that of `x`. -/
def Moved (decreasing : Bool) (i : Int) (x x' : List Int × List Int) : Prop :=
  ∃ p q q', (hecke Dict.empty x.1 (some x.2) (!decreasing)).1 = some (p, q) ∧
    (hecke Dict.empty x'.1 (some x'.2) (!decreasing)).1 = some (p, q') ∧ f? i (!decreasing) q = some (some q')

/-- C90: the assertion in `f_crystal_operator` of a word crystal does not fail.  Either `f_i` of the recording tableau is None, and so
is the result, or the result is the index of the only element that has the same insertion tableau and `f_i` of the recording
tableau; one factor `i` has lost a letter to the factor `i + 1`. -/
theorem C90_operator {elements : List (List Int × List Int)} {w : SPerm} {k length : ℕ} {decreasing : Bool}
    (hE : Factorizations elements w k length decreasing) {C : HCache} (hC : Sound C) {x : ℕ} {X : List Int × List Int}
    (hx : elements[x]? = some X) {i : ℕ} (hi : i < k) :
    Sound (wordIndex elements decreasing C x i).2 ∧
    ((wordIndex elements decreasing C x i).1 = some none ∧
      (∃ p q, (hecke Dict.empty X.1 (some X.2) (!decreasing)).1 = some (p, q) ∧ f? i (!decreasing) q = some none) ∨
    ∃ y Y, (wordIndex elements decreasing C x i).1 = some (some y) ∧ elements[y]? = some Y ∧ Moved decreasing i X Y ∧
      (∀ y' Y', elements[y']? = some Y' → Moved decreasing i X Y' → y' = y) ∧
      ∃ l, X.2.Perm (i :: l) ∧ Y.2.Perm (((i : Int) + 1) :: l)) := by
  obtain ⟨u, rec⟩ := X
  obtain ⟨hpos, hword, hlen, hrec, hbd⟩ := (hE.2 u rec).1 (List.mem_of_getElem? hx)
  obtain ⟨m, hm⟩ : ∃ m, m = !decreasing := ⟨_, rfl⟩
  have hbd' : ∀ x ∈ rec, 0 < x ∧ x ≤ (k : Int) := fun x hx => ⟨by have := hbd x hx; omega, (hbd x hx).2⟩
  obtain ⟨p, q, mu, g, e1, e2, e3, e4, e5, e6, e7⟩ := C72_tableaux hC u rec m k hpos hbd' (hm ▸ hrec)
  have e0 : (hecke Dict.empty u (some rec) m).1 = some (p, q) := by rw [← hecke_value hC]; exact e1
  have hs := hecke_sound hC u (some rec) m
  rcases hh : hecke C u (some rec) m with ⟨o, C'⟩
  rw [hh] at e1 hs
  simp only at e1 hs
  subst e1
  rw [← hm] at hrec
  have huniq : ∀ q' Y', f? (i : Int) m q = some (some q') → Y' ∈ elements → Moved decreasing i (u, rec) Y' →
      inverseHecke p q' m = some Y' := by
    rintro q' ⟨u', rec'⟩ hf hmem ⟨p1, q1, q1', a1, a2, a3⟩
    rw [← hm] at a1 a2 a3
    simp only at a1 a2
    rw [e0] at a1
    cases a1
    rw [hf] at a3
    cases a3
    obtain ⟨b1, -, -, b4, b5⟩ := (hE.2 u' rec').1 hmem
    rw [← hm] at b4
    obtain ⟨p2, q2, c1, c2⟩ := (C42_round_trip sound_empty u' rec' m b1 (fun x hx => by have := b5 x hx; omega)).1 b4
    rw [a2] at c1
    cases c1
    exact c2
  rcases f?_any e2 (i := i) (by omega) e6 with hf | ⟨q', hf, h2, l, h3, h4⟩
  · have hv : wordIndex elements decreasing C x i = (some none, C') := by
      rw [wordIndex, hx]
      simp only [← hm, hh, hf]
    rw [hv]
    exact ⟨hs, Or.inl ⟨rfl, p, q, by rw [← hm]; exact e0, by rw [← hm]; exact hf⟩⟩
  · obtain ⟨u', rec', g1, g2, g3, g4, g5⟩ := C88_onto sound_empty m k e2 e3 e4 e5 h2
    obtain ⟨p3, q3, -, -, k1, -, -, -, -, -, k7⟩ := C72_tableaux sound_empty u' rec' m k g2 g3 g4
    rw [g5] at k1
    cases k1
    have hperm1 : rec.Perm ((i : Int) :: l) := e7.symm.trans h3
    have hperm2 : rec'.Perm (((i : Int) + 1) :: l) := k7.symm.trans h4
    have hmem : (u', rec') ∈ elements := by
      refine (hE.2 u' rec').2 ⟨g2, ?_, ?_, hm ▸ g4, fun x hx => by have := g3 x hx; omega⟩
      · rw [HeckeWord] at hword ⊢
        rw [← hword]
        exact C89_same sound_empty sound_empty g2 hpos g5 e0
      · rw [g4.1, hperm2.length_eq, List.length_cons, ← hlen, hrec.1, hperm1.length_eq, List.length_cons]
    obtain ⟨y, hy⟩ := List.mem_iff_getElem?.1 hmem
    have hv : wordIndex elements decreasing C x i = (some (some y), C') := by
      rw [wordIndex, hx]
      simp only [← hm, hh, hf, g1]
      rw [index_filter_pair hE.1 hy]
      rfl
    rw [hv]
    refine ⟨hs, Or.inr ⟨y, (u', rec'), rfl, hy, ⟨p, q, q', ?_, ?_, ?_⟩, ?_, l, hperm1, hperm2⟩⟩
    · rw [← hm]; exact e0
    · rw [← hm]; exact g5
    · rw [← hm]; exact hf
    · intro y' Y' hy' hmv
      have := huniq q' Y' hf (List.mem_of_getElem? hy') hmv
      rw [g1] at this
      cases this
      obtain ⟨l1, r1⟩ := List.getElem?_eq_some_iff.1 hy
      obtain ⟨l2, r2⟩ := List.getElem?_eq_some_iff.1 hy'
      exact (hE.1.getElem_inj_iff).1 (r2.trans r1.symm)

/-- C90: `edges` consists of the triples `(x, y, i)` with `1 ≤ i < k` such that the elements with the indices `x` and `y` have the same
insertion tableau and `f_i` maps the recording tableau of the first to that of the second, each once. -/
theorem C90_edges {elements : List (List Int × List Int)} {w : SPerm} {k length : ℕ} {decreasing : Bool}
    (hE : Factorizations elements w k length decreasing) {C : HCache} (hC : Sound C) :
    ∃ E, (wordEdges elements decreasing C k).1 = some E ∧ Sound (wordEdges elements decreasing C k).2 ∧ E.Nodup ∧
      ∀ x y i, (x, y, i) ∈ E ↔ 1 ≤ i ∧ i < k ∧
        ∃ X Y, elements[x]? = some X ∧ elements[y]? = some Y ∧ Moved decreasing i X Y := by
  have key : ∀ (l : List (Nat × Nat)) (C : HCache), Sound C → (∀ p ∈ l, p.1 < elements.length ∧ p.2 < k) →
      ∃ E, (wordEdgesLoop elements decreasing C l).1 = some E ∧ Sound (wordEdgesLoop elements decreasing C l).2 ∧
        (l.Nodup → E.Nodup) ∧ ∀ x y i, (x, y, i) ∈ E ↔ (x, i) ∈ l ∧
          ∃ X Y, elements[x]? = some X ∧ elements[y]? = some Y ∧ Moved decreasing i X Y := by
    intro l
    induction l with
    | nil => intro C hC _; exact ⟨[], rfl, hC, fun _ => List.nodup_nil, by simp⟩
    | cons p l ih =>
      obtain ⟨x, i⟩ := p
      intro C hC hl
      obtain ⟨hx, hi⟩ := hl (x, i) (by simp)
      simp only at hx hi
      obtain ⟨hs, hop⟩ := C90_operator hE hC (List.getElem?_eq_getElem hx) hi
      rw [wordEdgesLoop]
      rcases hw : wordIndex elements decreasing C x i with ⟨o, C'⟩
      rw [hw] at hs hop
      simp only at hs hop
      obtain ⟨E, h1, h2, h3, h4⟩ := ih C' hs (fun p hp => hl p (by simp [hp]))
      rcases hop with ⟨rfl, p, q, a1, a2⟩ | ⟨y, Y, rfl, a2, a3, a4, -⟩
      · refine ⟨E, h1, h2, fun hn => h3 (List.nodup_cons.1 hn).2, ?_⟩
        intro x' y' i'
        rw [h4, List.mem_cons]
        constructor
        · rintro ⟨h5, h6⟩; exact ⟨Or.inr h5, h6⟩
        · rintro ⟨h5 | h5, h6⟩
          · exfalso
            cases h5
            obtain ⟨X, Y, b1, -, p', q', q'', b2, -, b3⟩ := h6
            rw [List.getElem?_eq_getElem hx, Option.some.injEq] at b1
            subst b1
            rw [a1] at b2
            cases b2
            rw [a2] at b3
            cases b3
          · exact ⟨h5, h6⟩
      · refine ⟨(x, y, i) :: E, by simp only [h1]; rfl, h2, ?_, ?_⟩
        · intro hn
          obtain ⟨hn1, hn2⟩ := List.nodup_cons.1 hn
          exact List.nodup_cons.2 ⟨fun h => hn1 ((h4 _ _ _).1 h).1, h3 hn2⟩
        · intro x' y' i'
          rw [List.mem_cons, h4, List.mem_cons]
          constructor
          · rintro (h5 | ⟨h5, h6⟩)
            · cases h5; exact ⟨Or.inl rfl, _, Y, List.getElem?_eq_getElem hx, a2, a3⟩
            · exact ⟨Or.inr h5, h6⟩
          · rintro ⟨h5 | h5, h6⟩
            · left
              cases h5
              obtain ⟨X, Y', b1, b2, b3⟩ := h6
              rw [List.getElem?_eq_getElem hx, Option.some.injEq] at b1
              subst b1
              rw [a4 y' Y' b2 b3]
            · exact Or.inr ⟨h5, h6⟩
  have hmem : ∀ x i : Nat, (x, i) ∈ (List.range elements.length).flatMap (fun x => (List.range k).map (fun i => (x, i))) ↔
      x < elements.length ∧ i < k := by
    intro x i
    simp only [List.mem_flatMap, List.mem_range, List.mem_map, Prod.mk.injEq]
    constructor
    · rintro ⟨a, h1, b, h2, rfl, rfl⟩; exact ⟨h1, h2⟩
    · rintro ⟨h1, h2⟩; exact ⟨x, h1, i, h2, rfl, rfl⟩
  obtain ⟨E, h1, h2, h3, h4⟩ := key _ C hC (fun p hp => (hmem p.1 p.2).1 hp)
  refine ⟨E, h1, h2, h3 ?_, ?_⟩
  · rw [List.nodup_flatMap]
    refine ⟨fun x _ => List.nodup_range.map (fun a b h => by simpa using h), ?_⟩
    refine List.nodup_range.imp ?_
    intro a b hab p hp1 hp2
    obtain ⟨i, _, rfl⟩ := List.mem_map.1 hp1
    obtain ⟨j, _, h⟩ := List.mem_map.1 hp2
    simp only [Prod.mk.injEq] at h
    exact hab h.1.symm
  · intro x y i
    rw [h4, hmem]
    constructor
    · rintro ⟨⟨hx, hi⟩, X, Y, b1, b2, b3⟩
      refine ⟨?_, hi, X, Y, b1, b2, b3⟩
      obtain ⟨-, ⟨-, p, q, a1, a2⟩ | ⟨y', Y', -, -, -, -, l, a5, -⟩⟩ := C90_operator hE hC b1 hi
      · obtain ⟨p', q', q'', c1, -, c3⟩ := b3
        rw [a1] at c1
        cases c1
        rw [a2] at c3
        cases c3
      · have := ((hE.2 X.1 X.2).1 (List.mem_of_getElem? b1)).2.2.2.2 i (a5.mem_iff.2 (by simp))
        omega
    · rintro ⟨-, hi, X, Y, b1, b2, b3⟩
      exact ⟨⟨(List.getElem?_eq_some_iff.1 b1).1, hi⟩, X, Y, b1, b2, b3⟩

/-- C90: `components` ends, and elements of the same component have the same insertion tableau. -/
theorem C90_components {elements : List (List Int × List Int)} {w : SPerm} {k length : ℕ} {decreasing : Bool}
    (hE : Factorizations elements w k length decreasing) {C : HCache} (hC : Sound C) {pick : Finset ℕ → ℕ}
    (hpick : ∀ s : Finset ℕ, s.Nonempty → pick s ∈ s) {fuel : ℕ} (hf : elements.length + 1 ≤ fuel) :
    ∃ E comps, (wordEdges elements decreasing C k).1 = some E ∧ components? pick E elements.length fuel = some comps ∧
      comps.Pairwise Disjoint ∧ (∀ x, x < elements.length ↔ ∃ c ∈ comps, x ∈ c) ∧
      ∀ c ∈ comps, ∀ x ∈ c, ∀ y ∈ c, ∃ X Y p q q', elements[x]? = some X ∧ elements[y]? = some Y ∧
        (hecke Dict.empty X.1 (some X.2) (!decreasing)).1 = some (p, q) ∧
        (hecke Dict.empty Y.1 (some Y.2) (!decreasing)).1 = some (p, q') := by
  obtain ⟨E, h1, -, -, h4⟩ := C90_edges hE hC
  have hlt : ∀ x y i, (x, y, i) ∈ E → x < elements.length ∧ y < elements.length := by
    intro x y i h
    obtain ⟨-, -, X, Y, b1, b2, -⟩ := (h4 x y i).1 h
    exact ⟨(List.getElem?_eq_some_iff.1 b1).1, (List.getElem?_eq_some_iff.1 b2).1⟩
  obtain ⟨comps, c1, c2, c3, c4⟩ := C81_components hpick hlt hf
  refine ⟨E, comps, h1, c1, c2, c3, ?_⟩
  intro c hc x hx y hy
  obtain ⟨P, hP⟩ : ∃ P : Nat → Option Tab, ∀ z, P z =
      (elements[z]?).bind (fun X => ((hecke Dict.empty X.1 (some X.2) (!decreasing)).1).map Prod.fst) := ⟨_, fun _ => rfl⟩
  have hsame : ∀ a b, Relation.EqvGen (Joined E) a b → P a = P b := by
    intro a b h
    induction h with
    | rel a b h =>
      obtain ⟨i, h⟩ := h
      obtain ⟨-, -, X, Y, b1, b2, p, q, q', b3, b4, -⟩ := (h4 a b i).1 h
      rw [hP, hP, b1, b2, Option.bind_some, Option.bind_some, b3, b4]; rfl
    | refl => rfl
    | symm a b _ ih => exact ih.symm
    | trans a b c _ _ ih1 ih2 => exact ih1.trans ih2
  have hex : ∀ z ∈ c, ∃ X p q, elements[z]? = some X ∧ (hecke Dict.empty X.1 (some X.2) (!decreasing)).1 = some (p, q) := by
    intro z hz
    have hz' := List.getElem?_eq_getElem ((c3 z).2 ⟨c, hc, hz⟩)
    obtain ⟨b1, -, -, b4, b5⟩ := (hE.2 _ _).1 (List.mem_of_getElem? hz')
    obtain ⟨p, q, -, -, b6, -⟩ := C72_tableaux sound_empty _ _ (!decreasing) k b1 (fun x hx => by have := b5 x hx; omega) b4
    exact ⟨_, p, q, hz', b6⟩
  obtain ⟨X, p, q, x1, x2⟩ := hex x hx
  obtain ⟨Y, p', q', y1, y2⟩ := hex y hy
  have := hsame x y (((c4 c hc).2 x hx y).1 hy)
  rw [hP, hP, x1, y1, Option.bind_some, Option.bind_some, x2, y2, Option.map_some, Option.map_some, Option.some.injEq] at this
  simp only at this
  subst this
  exact ⟨X, Y, p, q, q', x1, y1, x2, y2⟩

/-! ### the Hecke words of length 4 of 321, and their factorizations in three decreasing words -/

def perm321 : SPerm := demazure [1, 2, 1]

example : isUnsigned perm321 = true ∧
    (crystalWords? perm321 4 5 []).map Prod.fst =
      some [[1, 1, 2, 1], [1, 2, 1, 1], [1, 2, 1, 2], [1, 2, 2, 1], [2, 1, 1, 2], [2, 1, 2, 1], [2, 1, 2, 2], [2, 2, 1, 2]] := by
  decide +kernel

example : (crystalWords? perm321 4 5 []).map (fun r => (wordEdges (wordElements r.1 3 true) true Dict.empty 3).1) =
    some (some [(1, 6, 2), (2, 3, 2), (4, 11, 1), (6, 5, 1), (7, 6, 1), (8, 1, 1), (8, 7, 2), (9, 8, 2), (10, 2, 1), (11, 0, 2)]) := by
  decide +kernel

end Verif.Crystal
