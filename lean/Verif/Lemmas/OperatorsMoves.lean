import Verif.Lemmas.Operators
import Verif.Lemmas.DoublebarFam

/-! Applying `1 + y u_i` for all diagonals `i`, in increasing or in decreasing order, puts a letter into the boxes of a
strip. -/

attribute [-simp] List.getD_eq_getElem?_getD

namespace Verif.Operators

open Verif.Part Partition Dualops Tab Tableaux Symm

/-- The rules for shifted marked tableaux with primes on the diagonal. -/
abbrev qRules : Rules := markRules true true true

variable {k i : Nat} {D : Nat → Prop} {mu nu nu' : List Nat}

/-- Diagonal `i` may come after the diagonals in `D`: for unprimed letters the diagonals increase, for primed letters they
decrease. -/
structure StepOk (k : Nat) (D : Nat → Prop) (i : Nat) : Prop where
  new : ¬ D i
  order : (k % 2 = 0 ∧ ¬ D (i + 1)) ∨ (k % 2 = 1 ∧ ∀ j, D j → j + 1 ≠ i)

open scoped Classical in
/-- The moves with boxes on the diagonals in `D`. -/
noncomputable def dMoves (k : Nat) (D : Nat → Prop) (nu : List Nat) : Finset (List Nat × Finset (Nat × Nat)) :=
  (barMoves qRules k nu).filter (fun m => ∀ b ∈ m.2, D (b.2 - b.1))

theorem mem_dMoves {m : List Nat × Finset (Nat × Nat)} :
    m ∈ dMoves k D nu ↔ IsBarMove qRules k nu m.1 (· ∈ m.2) ∧ ∀ b ∈ m.2, D (b.2 - b.1) := by
  classical
  rw [dMoves, Finset.mem_filter, mem_barMoves]

/-- One more diagonal. -/
def more (D : Nat → Prop) (i : Nat) : Nat → Prop := fun j => D j ∨ j = i

theorem diag_of_shape {b : Nat × Nat} (h : b ∈ ShiftedDiagram nu) : b.1 ≤ b.2 :=
  (mem_shiftedDiagram (i := b.1) (j := b.2)).1 h |>.2.1

/-- A box with the letter on the last diagonal is a corner. -/
theorem corner_of_mem (ho : StepOk k D i) {S : Finset (Nat × Nat)} (h : IsBarMove qRules k nu mu (· ∈ S))
    (hD : ∀ b ∈ S, more D i (b.2 - b.1)) {b : Nat × Nat} (hb : b ∈ S) (hi : b.2 - b.1 = i) :
    b ∈ Corners (ShiftedDiagram nu) := by
  obtain ⟨r, c⟩ := b
  have hin : (r, c) ∈ ShiftedDiagram nu := h.inside _ hb
  have hle := diag_of_shape hin
  dsimp only at hi hle
  refine ⟨hin, fun hc => ?_, fun hc => ?_⟩
  · have hle' := diag_of_shape hc
    dsimp only at hc hle'
    by_cases hmu : (r + 1, c) ∈ ShiftedDiagram mu
    · exact (h.corner r c hb ((shape_above (sh := true) h.shape hin hmu : _))).2 hmu
    · have h1 := h.col r c hb hc hmu
      have h2 := hD _ (h.diff _ hc hmu)
      change k % 2 = 1 at h1
      rcases ho.order with h3 | ⟨_, h3⟩
      · omega
      · rcases h2 with h2 | h2
        · exact h3 _ h2 (by dsimp only; omega)
        · dsimp only at h2
          omega
  · dsimp only at hc
    by_cases hmu : (r, c + 1) ∈ ShiftedDiagram mu
    · exact (h.corner r c hb ((shape_left (sh := true) hin hmu : _))).1 hmu
    · have h1 := h.row r c hb hc hmu
      have h2 := hD _ (h.diff _ hc hmu)
      change k % 2 = 0 at h1
      rcases ho.order with ⟨_, h3⟩ | h3
      · rcases h2 with h2 | h2
        · dsimp only at h2
          rw [show c + 1 - r = i + 1 by omega] at h2
          exact h3 h2
        · dsimp only at h2
          omega
      · omega

/-- There is only one corner on a diagonal. -/
theorem corner_unique (hn : IsStrict nu) {b c : Nat × Nat} (hb : b ∈ Corners (ShiftedDiagram nu))
    (hc : c ∈ Corners (ShiftedDiagram nu)) (h : b.2 - b.1 = c.2 - c.1) : b = c := by
  obtain ⟨r, s⟩ := b
  obtain ⟨r', s'⟩ := c
  have h1 := diag_of_shape hb.1
  have h2 := diag_of_shape hc.1
  dsimp only at h h1 h2
  have e1 := (findShiftedInnerCorner_spec hn (s - r) r).2 (by rw [show r + (s - r) = s by omega]; exact hb)
  have e2 := (findShiftedInnerCorner_spec hn (s - r) r').2 (by rw [show r' + (s - r) = s' by omega]; exact hc)
  rw [e1] at e2
  have := Option.some.inj e2
  subst this
  rw [show s = s' by omega]

variable {A : Type*} [CommRing A]

/-- The sum over moves. -/
noncomputable def moveSum (k : Nat) (D : Nat → Prop) (z : A) (f : List Nat → A) (nu : List Nat) : A :=
  ∑ m ∈ dMoves k D nu, z ^ m.2.card * f m.1

theorem moveSum_no_corner (ho : StepOk k D i) (hc : ∀ b ∈ Corners (ShiftedDiagram nu), b.2 - b.1 ≠ i) (z : A)
    (f : List Nat → A) : moveSum k (more D i) z f nu = moveSum k D z f nu := by
  rw [moveSum, moveSum]
  congr 1
  ext m
  rw [mem_dMoves, mem_dMoves]
  constructor
  · rintro ⟨h1, h2⟩
    refine ⟨h1, fun b hb => ?_⟩
    rcases h2 b hb with h | h
    · exact h
    · exact absurd h (hc b (corner_of_mem ho h1 h2 hb h))
  · rintro ⟨h1, h2⟩
    exact ⟨h1, fun b hb => Or.inl (h2 b hb)⟩

/-- Putting the letter into a corner of `nu` that belongs to `mu`. -/
theorem insert_old {S : Finset (Nat × Nat)} (h : IsBarMove qRules k nu mu (· ∈ S)) {c : Nat × Nat}
    (hc : c ∈ Corners (ShiftedDiagram nu)) : IsBarMove qRules k nu mu (· ∈ insert c S) := by
  refine ⟨h.shape, h.sub, fun b h1 h2 => Finset.mem_insert_of_mem (h.diff b h1 h2), fun b hb => ?_, fun r s hb hm => ?_,
    fun r s hb h1 h2 => ?_, fun r s hb h1 h2 => ?_, fun r _ => Or.inl rfl⟩
  · rcases Finset.mem_insert.1 hb with rfl | hb
    · exact hc.1
    · exact h.inside b hb
  · rcases Finset.mem_insert.1 hb with rfl | hb
    · exact ⟨fun hx => hc.2.2 (h.sub hx), fun hx => hc.2.1 (h.sub hx)⟩
    · exact h.corner r s hb hm
  · rcases Finset.mem_insert.1 hb with rfl | hb
    · exact absurd h1 hc.2.2
    · exact h.row r s hb h1 h2
  · rcases Finset.mem_insert.1 hb with rfl | hb
    · exact absurd h1 hc.2.1
    · exact h.col r s hb h1 h2

/-- Taking the letter out of a corner that belongs to `mu`. -/
theorem erase_old {S : Finset (Nat × Nat)} (h : IsBarMove qRules k nu mu (· ∈ S)) {c : Nat × Nat}
    (hc : c ∈ ShiftedDiagram mu) : IsBarMove qRules k nu mu (· ∈ S.erase c) := by
  refine ⟨h.shape, h.sub, fun b h1 h2 => Finset.mem_erase.2 ⟨?_, h.diff b h1 h2⟩,
    fun b hb => h.inside b (Finset.mem_of_mem_erase hb), fun r s hb hm => h.corner r s (Finset.mem_of_mem_erase hb) hm,
    fun r s hb h1 h2 => h.row r s (Finset.mem_of_mem_erase hb) h1 h2,
    fun r s hb h1 h2 => h.col r s (Finset.mem_of_mem_erase hb) h1 h2, fun r _ => Or.inl rfl⟩
  rintro rfl
  exact h2 hc

/-- Taking out a new box. -/
theorem erase_new {S : Finset (Nat × Nat)} (h : IsBarMove qRules k nu mu (· ∈ S)) {c : Nat × Nat}
    (hc : c ∉ ShiftedDiagram mu) (hs : ShiftedDiagram nu' = ShiftedDiagram nu \ {c}) :
    IsBarMove qRules k nu' mu (· ∈ S.erase c) := by
  have hmem : ∀ b, b ∈ shapeSet true nu' ↔ b ∈ shapeSet true nu ∧ b ≠ c := fun b => by
    change b ∈ ShiftedDiagram nu' ↔ _
    rw [hs]
    rfl
  refine ⟨h.shape, fun b hb => (hmem b).2 ⟨h.sub hb, ?_⟩, fun b h1 h2 => ?_,
    fun b hb => (hmem b).2 ⟨h.inside b (Finset.mem_of_mem_erase hb), (Finset.mem_erase.1 hb).1⟩,
    fun r s hb hm => h.corner r s (Finset.mem_of_mem_erase hb) hm,
    fun r s hb h1 h2 => h.row r s (Finset.mem_of_mem_erase hb) ((hmem _).1 h1).1 h2,
    fun r s hb h1 h2 => h.col r s (Finset.mem_of_mem_erase hb) ((hmem _).1 h1).1 h2, fun r _ => Or.inl rfl⟩
  · rintro rfl
    exact hc hb
  · have := (hmem b).1 h1
    exact Finset.mem_erase.2 ⟨this.2, h.diff b this.1 h2⟩

/-- Adding a new box. -/
theorem insert_new (ho : StepOk k D i) {S : Finset (Nat × Nat)} (h : IsBarMove qRules k nu' mu (· ∈ S))
    (hD : ∀ b ∈ S, D (b.2 - b.1)) {c : Nat × Nat} (hc : c ∈ Corners (ShiftedDiagram nu)) (hi : c.2 - c.1 = i)
    (hs : ShiftedDiagram nu' = ShiftedDiagram nu \ {c}) : IsBarMove qRules k nu mu (· ∈ insert c S) := by
  have hmem : ∀ b, b ∈ shapeSet true nu' ↔ b ∈ shapeSet true nu ∧ b ≠ c := fun b => by
    change b ∈ ShiftedDiagram nu' ↔ _
    rw [hs]
    rfl
  have hcm : c ∉ ShiftedDiagram mu := fun hx => ((hmem c).1 (h.sub hx)).2 rfl
  have hcle := diag_of_shape hc.1
  refine ⟨h.shape, fun b hb => ((hmem b).1 (h.sub hb)).1, fun b h1 h2 => ?_, fun b hb => ?_, fun r s hb hm => ?_,
    fun r s hb h1 h2 => ?_, fun r s hb h1 h2 => ?_, fun r _ => Or.inl rfl⟩
  · by_cases hbc : b = c
    · rw [hbc]
      exact Finset.mem_insert_self _ _
    · exact Finset.mem_insert_of_mem (h.diff b ((hmem b).2 ⟨h1, hbc⟩) h2)
  · rcases Finset.mem_insert.1 hb with rfl | hb
    · exact hc.1
    · exact ((hmem b).1 (h.inside b hb)).1
  · rcases Finset.mem_insert.1 hb with rfl | hb
    · exact absurd hm hcm
    · exact h.corner r s hb hm
  · rcases Finset.mem_insert.1 hb with rfl | hb
    · exact absurd h1 hc.2.2
    · by_cases hx : (r, s + 1) = c
      · have hle := diag_of_shape (h.inside _ hb)
        have hd := hD _ hb
        dsimp only at hle hd
        rcases ho.order with ⟨h3, _⟩ | ⟨_, h3⟩
        · exact h3
        · refine absurd ?_ (h3 _ hd)
          rw [← hi, ← hx]
          dsimp only
          omega
      · exact h.row r s hb ((hmem _).2 ⟨h1, hx⟩) h2
  · rcases Finset.mem_insert.1 hb with rfl | hb
    · exact absurd h1 hc.2.1
    · by_cases hx : (r + 1, s) = c
      · have hle := diag_of_shape (h.inside _ hb)
        have hd := hD _ hb
        dsimp only at hle hd
        rcases ho.order with ⟨_, h3⟩ | ⟨h3, _⟩
        · refine absurd ?_ h3
          rw [← hi, ← hx]
          rw [← hx] at hcle
          dsimp only at hcle ⊢
          rwa [show s - (r + 1) + 1 = s - r by omega]
        · exact h3
      · exact h.col r s hb ((hmem _).2 ⟨h1, hx⟩) h2

theorem moveSum_corner (ho : StepOk k D i) (hn : IsStrict nu) {c : Nat × Nat} (hc : c ∈ Corners (ShiftedDiagram nu))
    (hi : c.2 - c.1 = i) (hs : ShiftedDiagram nu' = ShiftedDiagram nu \ {c}) (z : A) (f : List Nat → A) :
    moveSum k (more D i) z f nu = moveSum k D z f nu + z * (moveSum k D z f nu + moveSum k D z f nu') := by
  classical
  have hc' : c ∉ ShiftedDiagram nu' := by
    rw [hs]
    exact fun h => h.2 rfl
  have hnoc : ∀ {x : List Nat} {m}, m ∈ dMoves k D x → c ∉ m.2 := by
    intro x m hm hcm
    have := (mem_dMoves.1 hm).2 c hcm
    rw [hi] at this
    exact ho.new this
  have hold : ∀ {m}, m ∈ dMoves k D nu → c ∈ ShiftedDiagram m.1 := by
    intro m hm
    by_contra hcm
    exact hnoc hm ((mem_dMoves.1 hm).1.diff c hc.1 hcm)
  have hnew : ∀ {m}, m ∈ dMoves k D nu' → c ∉ ShiftedDiagram m.1 := by
    intro m hm hcm
    exact hc' ((mem_dMoves.1 hm).1.sub hcm)
  have hrest : ∀ {m}, m ∈ dMoves k (more D i) nu → ∀ b ∈ m.2.erase c, D (b.2 - b.1) := by
    intro m hm b hb
    obtain ⟨b1, b2⟩ := Finset.mem_erase.1 hb
    have h1 := mem_dMoves.1 hm
    rcases h1.2 b b2 with h | h
    · exact h
    · exact absurd (corner_unique hn (corner_of_mem ho h1.1 h1.2 b2 h) hc (by rw [h, hi])) b1
  have e1 : (dMoves k (more D i) nu).filter (fun m => ¬ c ∈ m.2) = dMoves k D nu := by
    ext m
    rw [Finset.mem_filter]
    constructor
    · rintro ⟨h1, h2⟩
      have := hrest h1
      rw [Finset.erase_eq_of_notMem h2] at this
      exact mem_dMoves.2 ⟨(mem_dMoves.1 h1).1, this⟩
    · intro h
      refine ⟨mem_dMoves.2 ⟨(mem_dMoves.1 h).1, fun b hb => Or.inl ((mem_dMoves.1 h).2 b hb)⟩, hnoc h⟩
  have hins : ∀ {x : List Nat} {m}, m ∈ dMoves k D x → ∀ b ∈ insert c m.2, more D i (b.2 - b.1) := by
    intro x m hm b hb
    rcases Finset.mem_insert.1 hb with rfl | hb
    · exact Or.inr hi
    · exact Or.inl ((mem_dMoves.1 hm).2 b hb)
  have e2 : ∑ m ∈ ((dMoves k (more D i) nu).filter (fun m => c ∈ m.2)).filter (fun m => c ∈ ShiftedDiagram m.1),
      z ^ m.2.card * f m.1 = z * moveSum k D z f nu := by
    rw [moveSum, Finset.mul_sum]
    refine Finset.sum_nbij' (fun m => (m.1, m.2.erase c)) (fun m => (m.1, insert c m.2)) ?_ ?_ ?_ ?_ ?_
    · intro m hm
      rw [Finset.mem_filter, Finset.mem_filter] at hm
      exact mem_dMoves.2 ⟨erase_old (mem_dMoves.1 hm.1.1).1 hm.2, hrest hm.1.1⟩
    · intro m hm
      rw [Finset.mem_filter, Finset.mem_filter]
      exact ⟨⟨mem_dMoves.2 ⟨insert_old (mem_dMoves.1 hm).1 hc, hins hm⟩, Finset.mem_insert_self _ _⟩, hold (m := m) hm⟩
    · intro m hm
      rw [Finset.mem_filter, Finset.mem_filter] at hm
      exact Prod.ext rfl (Finset.insert_erase hm.1.2)
    · intro m hm
      exact Prod.ext rfl (Finset.erase_insert (hnoc hm))
    · intro m hm
      rw [Finset.mem_filter, Finset.mem_filter] at hm
      dsimp only
      rw [← Finset.card_erase_add_one hm.1.2]
      ring
  have e3 : ∑ m ∈ ((dMoves k (more D i) nu).filter (fun m => c ∈ m.2)).filter (fun m => ¬ c ∈ ShiftedDiagram m.1),
      z ^ m.2.card * f m.1 = z * moveSum k D z f nu' := by
    rw [moveSum, Finset.mul_sum]
    refine Finset.sum_nbij' (fun m => (m.1, m.2.erase c)) (fun m => (m.1, insert c m.2)) ?_ ?_ ?_ ?_ ?_
    · intro m hm
      rw [Finset.mem_filter, Finset.mem_filter] at hm
      exact mem_dMoves.2 ⟨erase_new (mem_dMoves.1 hm.1.1).1 hm.2 hs, hrest hm.1.1⟩
    · intro m hm
      rw [Finset.mem_filter, Finset.mem_filter]
      exact ⟨⟨mem_dMoves.2 ⟨insert_new ho (mem_dMoves.1 hm).1 (mem_dMoves.1 hm).2 hc hi hs, hins hm⟩,
        Finset.mem_insert_self _ _⟩, hnew (m := m) hm⟩
    · intro m hm
      rw [Finset.mem_filter, Finset.mem_filter] at hm
      exact Prod.ext rfl (Finset.insert_erase hm.1.2)
    · intro m hm
      exact Prod.ext rfl (Finset.erase_insert (hnoc hm))
    · intro m hm
      rw [Finset.mem_filter, Finset.mem_filter] at hm
      dsimp only
      rw [← Finset.card_erase_add_one hm.1.2]
      ring
  rw [moveSum, ← Finset.sum_filter_add_sum_filter_not (dMoves k (more D i) nu) (fun m => c ∈ m.2), e1,
    ← Finset.sum_filter_add_sum_filter_not ((dMoves k (more D i) nu).filter (fun m => c ∈ m.2))
      (fun m => c ∈ ShiftedDiagram m.1), e2, e3, moveSum]
  ring

/-! ### in terms of parts -/

theorem diagram_lower (hn : IsStrict nu) (h : i + 1 ∈ nu ∧ i ∉ nu) : ∃ r, (r, r + i) ∈ Corners (ShiftedDiagram nu) ∧
    ShiftedDiagram (lower i nu) = ShiftedDiagram nu \ {(r, r + i)} := by
  obtain ⟨r, hr⟩ := (inner_iff hn).2 h
  have hc := (findShiftedInnerCorner_spec hn i r).1 hr
  have hl := lower_strict hn h.2
  have ha := (adds_iff hl hn).2 ⟨h, rfl⟩
  have hh : horizontalOp i i (lower i nu) = some nu := (horizontalOp_iff hl le_rfl).2 ⟨ha.strict, ⟨ha.part, fun t t1 t2 => by
    rw [show t = i + 1 by omega]
    exact ha.free⟩, ha.parts⟩
  obtain ⟨r', h1, h4, h5⟩ := (rowMove_iff le_rfl).1 (horizontalOp_some hl le_rfl hh).2
  have hset : {x : Nat × Nat | ∃ c, i ≤ c ∧ c ≤ i ∧ x = (r', r' + c)} = {(r', r' + i)} := by
    ext x
    simp only [Set.mem_singleton_iff, Set.mem_ofPred_eq]
    constructor
    · rintro ⟨c, c1, c2, rfl⟩
      rw [show c = i by omega]
    · rintro rfl
      exact ⟨i, le_rfl, le_rfl, rfl⟩
  rw [hset] at h5
  have h6 := h4 i le_rfl le_rfl
  have hrr : r' = r := by
    by_contra hne
    -- the corner `(r, r + i)` belongs to the smaller shape, so that the shape with both boxes has no corner at `r`
    have hin : (r', r' + i) ∈ ShiftedDiagram nu := by
      rw [h5]
      exact Or.inr rfl
    have hcl : (r, r + i) ∈ ShiftedDiagram (lower i nu) := by
      have := hc.1
      rw [h5] at this
      rcases this with h | h
      · exact h
      · exact absurd (Prod.mk.inj h).1.symm hne
    rw [mem_shiftedDiagram] at hcl hin h6
    have hc2 := hc.2
    rw [mem_shiftedDiagram, mem_shiftedDiagram] at hc2
    dsimp only at hc2
    have hst := fun a b (hab : a < b) hb => strict_lt hn (i := a) (j := b) hab hb
    have hsl := fun a b (hab : a < b) hb => strict_lt hl (i := a) (j := b) hab hb
    rcases lt_trichotomy r r' with h | h | h
    · have := hst (r - 1) (r' - 1) (by omega) (by omega)
      have e1 : nu.getD (r - 1) 0 = i + 1 := by omega
      omega
    · exact hne h.symm
    · have := hsl (r' - 1) (r - 1) (by omega) (by omega)
      omega
  subst hrr
  refine ⟨r', hc, ?_⟩
  rw [h5]
  ext x
  simp only [Set.mem_sdiff, Set.mem_union, Set.mem_singleton_iff]
  constructor
  · intro hx
    refine ⟨Or.inl hx, ?_⟩
    rintro rfl
    exact h6 hx
  · rintro ⟨hx | hx, hne⟩
    · exact hx
    · exact absurd hx hne

theorem moveSum_step (ho : StepOk k D i) (hn : IsStrict nu) (z : A) (f : List Nat → A) :
    moveSum k (more D i) z f nu = moveSum k D z f nu +
      if i + 1 ∈ nu ∧ i ∉ nu then z * (moveSum k D z f nu + moveSum k D z f (lower i nu)) else 0 := by
  by_cases h : i + 1 ∈ nu ∧ i ∉ nu
  · rw [if_pos h]
    obtain ⟨r, h1, h2⟩ := diagram_lower hn h
    exact moveSum_corner ho hn h1 (by dsimp only; omega) h2 z f
  · rw [if_neg h, add_zero]
    refine moveSum_no_corner ho (fun b hb hbi => h ((inner_iff hn).1 ⟨b.1, ?_⟩)) z f
    rw [findShiftedInnerCorner_spec hn]
    have := diag_of_shape hb.1
    rw [show b.1 + i = b.2 by omega]
    exact hb

theorem lower_sum (hn : IsStrict nu) (h : i + 1 ∈ nu ∧ i ∉ nu) : (lower i nu).sum + 1 = nu.sum := by
  obtain ⟨r, h1, h2⟩ := diagram_lower hn h
  have := sum_of_insert (sh := true) (nu := lower i nu) (nu' := nu) (a := (r, r + i)) (fun hx => by
    change _ ∈ ShiftedDiagram _ at hx
    rw [h2] at hx
    exact hx.2 rfl)
  refine (this (fun b => ?_)).symm
  change b ∈ ShiftedDiagram nu ↔ b ∈ ShiftedDiagram _ ∨ _
  rw [h2]
  by_cases hb : b = (r, r + i)
  · simp [hb, h1.1]
  · simp [hb]

/-! ### all diagonals -/

/-- The diagonals may be treated in this order. -/
def OkList (k : Nat) : (Nat → Prop) → List Nat → Prop
  | _, [] => True
  | D, i :: l => StepOk k D i ∧ OkList k (more D i) l

theorem okList_up (hk : k % 2 = 0) (m : Nat) : ∀ t D, (∀ j, D j → j < t) → OkList k D (List.range' t m) := by
  induction m with
  | zero => exact fun _ _ _ => trivial
  | succ m ih =>
    intro t D hD
    rw [List.range'_succ]
    refine ⟨⟨fun h => ?_, Or.inl ⟨hk, fun h => ?_⟩⟩, ih (t + 1) _ (fun j hj => ?_)⟩
    · have := hD _ h
      omega
    · have := hD _ h
      omega
    · rcases hj with hj | hj
      · have := hD _ hj
        omega
      · omega

theorem okList_down (hk : k % 2 = 1) (t : Nat) : ∀ D, (∀ j, D j → t ≤ j) → OkList k D (List.range t).reverse := by
  induction t with
  | zero => exact fun _ _ => trivial
  | succ t ih =>
    intro D hD
    rw [List.range_succ, List.reverse_append]
    refine ⟨⟨fun h => ?_, Or.inr ⟨hk, fun j hj hc => ?_⟩⟩, ih _ (fun j hj => ?_)⟩
    · have := hD _ h
      omega
    · have := hD _ hj
      omega
    · rcases hj with hj | hj
      · have := hD _ hj
        omega
      · omega

theorem moveSum_congr {D' : Nat → Prop} (h : ∀ j, D j ↔ D' j) (z : A) (f : List Nat → A) :
    moveSum k D z f nu = moveSum k D' z f nu := by
  obtain rfl : D = D' := funext (fun j => propext (h j))
  rfl

theorem moveSum_empty (hn : IsStrict nu) (z : A) (f : List Nat → A) : moveSum k (fun _ => False) z f nu = f nu := by
  have : dMoves k (fun _ => False) nu = {(nu, ∅)} := by
    ext m
    rw [mem_dMoves, Finset.mem_singleton]
    constructor
    · rintro ⟨h1, h2⟩
      have h3 : m.2 = ∅ := Finset.eq_empty_of_forall_notMem h2
      refine Prod.ext (shapeSet_inj (sh := true) h1.shape hn (Set.Subset.antisymm h1.sub (fun b hb => ?_))) h3
      by_contra hc
      exact h2 b (h1.diff b hb hc)
    · rintro rfl
      refine ⟨⟨hn, le_rfl, fun b h1 h2 => absurd h1 h2, fun b hb => absurd hb (by simp), fun r s hb => absurd hb (by simp),
        fun r s hb => absurd hb (by simp), fun r s hb => absurd hb (by simp), fun r hb => absurd hb (by simp)⟩,
        fun b hb => absurd hb (by simp)⟩
  rw [moveSum, this, Finset.sum_singleton, Finset.card_empty, pow_zero, one_mul]

theorem moveSum_all (h : ∀ b ∈ ShiftedDiagram nu, D (b.2 - b.1)) (z : A) (f : List Nat → A) :
    moveSum k D z f nu = ∑ m ∈ barMoves qRules k nu, z ^ m.2.card * f m.1 := by
  rw [moveSum]
  congr 1
  ext m
  rw [mem_dMoves, mem_barMoves]
  exact ⟨fun h => h.1, fun hm => ⟨hm, fun b hb => h b (hm.inside b hb)⟩⟩

section Fold

variable {R : Type*} [CommRing R] [DecidableEq R]

/-- Coefficients times powers of `β`. -/
def scaled (φ : R →+* A) (beta : R) (f : List Nat → R) (nu : List Nat) : A := φ beta ^ nu.sum * φ (f nu)

theorem scaled_add (φ : R →+* A) (beta y : R) (f : List Nat → R) (hn : IsStrict nu) (i : Nat) :
    φ beta ^ nu.sum * φ (f nu + y * addCoef beta i f nu) = scaled φ beta f nu +
      if i + 1 ∈ nu ∧ i ∉ nu then φ (beta * y) * (scaled φ beta f nu + scaled φ beta f (lower i nu)) else 0 := by
  rw [addCoef]
  by_cases h : i + 1 ∈ nu ∧ i ∉ nu
  · rw [if_pos h, if_pos h, scaled, scaled, ← lower_sum hn h, pow_succ]
    simp only [map_add, map_mul]
    ring
  · rw [if_neg h, if_neg h, mul_zero, add_zero, add_zero, scaled]

theorem addLoopStep_spec (beta y : R) {v : Vec (List Nat) R} (hv : StrictKeys v) (hz : Vec.NoZero v) (i : Nat) :
    ∃ w, addLoopStep beta y v i = some w ∧ StrictKeys w ∧ Vec.NoZero w ∧
      ∀ nu, IsStrict nu → w.get nu = v.get nu + y * addCoef beta i v.get nu := by
  obtain ⟨r, h1, h2, h3, h4⟩ := shiftedAddFn_spec beta (i : Int) hv
  refine ⟨plusTimes y v r, ?_, ?_⟩
  · rw [addLoopStep]
    change (shiftedAddFn beta (i : Int) v).map _ = _
    rw [h1]
    rfl
  · have hget : ∀ nu, (plusTimes y v r).get nu = v.get nu + y * coef r nu := by
      intro nu
      cases r with
      | none => rw [plusTimes, coef, mul_zero, add_zero]
      | some w => rw [plusTimes, Vec.get_add, Vec.get_smul, coef, mul_comm]
    have hnz : Vec.NoZero (plusTimes y v r) := by
      cases r with
      | none => exact hz
      | some w => exact Vec.noZero_add hz
    refine ⟨strict_of_get hnz (fun mu hmu => ?_), hnz, fun nu hn => ?_⟩
    · by_contra hc
      apply hmu
      rw [hget, coef_nonstrict h3 hc, Vec.get_of_notMem (fun hx => hc (hv mu hx)), mul_zero, add_zero]
    · rw [hget, h4 nu hn, Int.natAbs_natCast]

theorem addLoop_fold (φ : R →+* A) (beta y : R) (k : Nat) (f : List Nat → A) (l : List Nat) :
    ∀ (D : Nat → Prop) (v : Vec (List Nat) R), OkList k D l → StrictKeys v → Vec.NoZero v →
      (∀ nu, IsStrict nu → scaled φ beta v.get nu = moveSum k D (φ (beta * y)) f nu) →
      ∃ w, l.foldlM (addLoopStep beta y) v = some w ∧ StrictKeys w ∧ Vec.NoZero w ∧
        ∀ nu, IsStrict nu → scaled φ beta w.get nu = moveSum k (fun j => D j ∨ j ∈ l) (φ (beta * y)) f nu := by
  induction l with
  | nil =>
    intro D v _ h2 h3 h4
    exact ⟨v, rfl, h2, h3, fun nu hn => by
      rw [h4 nu hn]
      exact moveSum_congr (fun j => by simp) _ _⟩
  | cons i l ih =>
    intro D v h1 h2 h3 h4
    obtain ⟨w, w1, w2, w3, w4⟩ := addLoopStep_spec beta y h2 h3 i
    obtain ⟨u, u1, u2, u3, u4⟩ := ih (more D i) w h1.2 w2 w3 (fun nu hn => by
      rw [scaled, w4 nu hn, scaled_add φ beta y v.get hn, moveSum_step h1.1 hn, h4 nu hn]
      congr 1
      by_cases h : i + 1 ∈ nu ∧ i ∉ nu
      · rw [if_pos h, if_pos h, h4 _ (lower_strict hn h.2)]
      · rw [if_neg h, if_neg h])
    refine ⟨u, ?_, u2, u3, fun nu hn => ?_⟩
    · rw [List.foldlM_cons, w1]
      exact u1
    · rw [u4 nu hn]
      refine moveSum_congr (fun j => ?_) _ _
      rw [more, List.mem_cons]
      tauto

/-- What `operator_AL(n)` and `operator_AR(n)` do, for shapes with all boxes on the diagonals `0, ..., n`. -/
theorem addLoop_all (φ : R →+* A) (beta y : R) (k n : Nat) {l : List Nat} (hl : OkList k (fun _ => False) l)
    (hmem : ∀ j, j ∈ l ↔ j ≤ n) {v : Vec (List Nat) R} (hv : StrictKeys v) (hz : Vec.NoZero v) :
    ∃ w, l.foldlM (addLoopStep beta y) v = some w ∧ StrictKeys w ∧ Vec.NoZero w ∧
      ∀ nu, IsStrict nu → nu.headD 0 ≤ n + 1 → scaled φ beta w.get nu =
        ∑ m ∈ barMoves qRules k nu, φ (beta * y) ^ m.2.card * scaled φ beta v.get m.1 := by
  obtain ⟨w, h1, h2, h3, h4⟩ := addLoop_fold φ beta y k (scaled φ beta v.get) l (fun _ => False) v hl hv hz
    (fun nu hn => (moveSum_empty hn _ _).symm)
  refine ⟨w, h1, h2, h3, fun nu hn hle => ?_⟩
  rw [h4 nu hn]
  refine moveSum_all (fun b hb => Or.inr ((hmem _).2 ?_)) _ _
  have hb := (mem_shiftedDiagram (i := b.1) (j := b.2)).1 hb
  have ha : nu.getD (b.1 - 1) 0 ≤ nu.getD 0 0 :=
    getD_antitone (isStrict_isPartition hn).1 (Nat.zero_le _)
  have h0 : nu.getD 0 0 = nu.headD 0 := by cases nu <;> rfl
  omega

end Fold

end Verif.Operators
