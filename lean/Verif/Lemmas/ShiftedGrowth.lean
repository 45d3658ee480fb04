import Verif.Model.ShiftedGrowth
import Verif.Props.SkewBoxes

/-! # One step of a shifted growth diagram -/

set_option linter.unusedSectionVars false

namespace Verif.Partition
open Verif.Part
attribute [-simp] List.getD_eq_getElem?_getD

/-- No two boxes in a row or in a column. -/
def IsRookStrip (D : Set (Nat × Nat)) : Prop := ∀ b ∈ D, ∀ c ∈ D, b.1 = c.1 ∨ b.2 = c.2 → b = c

/-- A step between neighbours in a column of the diagram. -/
def VStep (lam mu : List Nat) : Prop := ShiftedDiagram lam ⊆ ShiftedDiagram mu ∧ IsRookStrip (ShiftedDiagram mu \ ShiftedDiagram lam)

/-- A step between neighbours in a row that adds a box; no flag for boxes on the diagonal. -/
def HAdd (lam nu : List Nat) (e : Bool) (c : Option Nat) : Prop :=
  c = none ∧ ∃ a b, (a, b) ∉ ShiftedDiagram lam ∧ ShiftedDiagram nu = ShiftedDiagram lam ∪ {(a, b)} ∧ (e = true → a ≠ b)

/-- A step between neighbours in a row that adds no box but marks a corner by its row or, with the flag, by its column. -/
def HCorner (lam nu : List Nat) (e : Bool) (c : Option Nat) : Prop :=
  nu = lam ∧ ∃ a b, (a, b) ∈ Corners (ShiftedDiagram lam) ∧ (e = false ∧ c = some a ∨ e = true ∧ c = some b ∧ a ≠ b)

/-- The step before the letter of the column. -/
def HTriv (lam nu : List Nat) (e : Bool) (c : Option Nat) : Prop := nu = lam ∧ e = false ∧ c = none

/-- Has a box in the row `r`. -/
def MeetsRow (D : Set (Nat × Nat)) (r : Nat) : Prop := ∃ y, (r, y) ∈ D

/-- Has a box in the column `c`. -/
def MeetsColumn (D : Set (Nat × Nat)) (c : Nat) : Prop := ∃ x, (x, c) ∈ D

/-- `q` is `p` with one more box in the row `r`. -/
def AddsInRow (p q : List Nat) (r : Nat) : Prop := ∃ y, (r, y) ∉ ShiftedDiagram p ∧ ShiftedDiagram q = ShiftedDiagram p ∪ {(r, y)}

/-- `q` is `p` with one more box in the column `c`. -/
def AddsInColumn (p q : List Nat) (c : Nat) : Prop := ∃ x, (x, c) ∉ ShiftedDiagram p ∧ ShiftedDiagram q = ShiftedDiagram p ∪ {(x, c)}

/-- The local rules of shifted growth diagrams, in terms of sets of boxes: `lam`, `nu`, `mu` are the shapes at `(i-1, j-1)`, `(i-1, j)` and
`(i, j-1)`, `e` and `c` belong to the step from `lam` to `nu`, and the last four arguments are the value at `(i, j)`, the shape at `(i, j)` and what
belongs to the step from `mu` to it. -/
inductive ShiftedRule (lam nu mu : List Nat) (e : Bool) (c : Option Nat) : Nat → List Nat → Bool → Option Nat → Prop
  | letter {gamma} : ¬ MeetsRow (ShiftedDiagram mu \ ShiftedDiagram lam) 1 → AddsInRow mu gamma 1 → ShiftedRule lam nu mu e c 1 gamma false none
  | letterStays : MeetsRow (ShiftedDiagram mu \ ShiftedDiagram lam) 1 → ShiftedRule lam nu mu e c 1 mu false (some 1)
  | copy : mu = lam → ShiftedRule lam nu mu e c 0 nu e c
  | before : mu ≠ lam → HTriv lam nu e c → ShiftedRule lam nu mu e c 0 mu false none
  | join {gamma} : mu ≠ lam → ¬ ShiftedDiagram nu ⊆ ShiftedDiagram mu → ShiftedDiagram gamma = ShiftedDiagram nu ∪ ShiftedDiagram mu →
      ShiftedRule lam nu mu e c 0 gamma e none
  | boxRow {a b gamma} : mu ≠ lam → (a, b) ∉ ShiftedDiagram lam → ShiftedDiagram nu = ShiftedDiagram lam ∪ {(a, b)} → ShiftedDiagram nu ⊆ ShiftedDiagram mu →
      e = false → a ≠ b → ¬ MeetsRow (ShiftedDiagram mu \ ShiftedDiagram lam) (a + 1) → AddsInRow mu gamma (a + 1) → ShiftedRule lam nu mu e c 0 gamma false none
  | boxRowStays {a b} : mu ≠ lam → (a, b) ∉ ShiftedDiagram lam → ShiftedDiagram nu = ShiftedDiagram lam ∪ {(a, b)} → ShiftedDiagram nu ⊆ ShiftedDiagram mu →
      e = false → a ≠ b → MeetsRow (ShiftedDiagram mu \ ShiftedDiagram lam) (a + 1) → ShiftedRule lam nu mu e c 0 mu false (some (a + 1))
  | boxColumn {a b gamma} : mu ≠ lam → (a, b) ∉ ShiftedDiagram lam → ShiftedDiagram nu = ShiftedDiagram lam ∪ {(a, b)} → ShiftedDiagram nu ⊆ ShiftedDiagram mu →
      e = true ∨ a = b → ¬ MeetsColumn (ShiftedDiagram mu \ ShiftedDiagram lam) (b + 1) → AddsInColumn mu gamma (b + 1) → ShiftedRule lam nu mu e c 0 gamma true none
  | boxColumnStays {a b} : mu ≠ lam → (a, b) ∉ ShiftedDiagram lam → ShiftedDiagram nu = ShiftedDiagram lam ∪ {(a, b)} → ShiftedDiagram nu ⊆ ShiftedDiagram mu →
      e = true ∨ a = b → MeetsColumn (ShiftedDiagram mu \ ShiftedDiagram lam) (b + 1) → ShiftedRule lam nu mu e c 0 mu true (some (b + 1))
  | rowKept {a b} : mu ≠ lam → nu = lam → (a, b) ∈ Corners (ShiftedDiagram lam) → e = false → c = some a → (a, b) ∈ Corners (ShiftedDiagram mu) →
      ShiftedRule lam nu mu e c 0 mu false (some a)
  | rowNext {a b} : mu ≠ lam → nu = lam → (a, b) ∈ Corners (ShiftedDiagram lam) → e = false → c = some a → (a, b) ∉ Corners (ShiftedDiagram mu) →
      MeetsRow (ShiftedDiagram mu \ ShiftedDiagram lam) (a + 1) → ShiftedRule lam nu mu e c 0 mu false (some (a + 1))
  | rowTurn {a} : mu ≠ lam → nu = lam → (a, a) ∈ Corners (ShiftedDiagram lam) → e = false → c = some a → (a, a) ∉ Corners (ShiftedDiagram mu) →
      ¬ MeetsRow (ShiftedDiagram mu \ ShiftedDiagram lam) (a + 1) → ShiftedRule lam nu mu e c 0 mu true (some (a + 1))
  | rowAdd {a b gamma} : mu ≠ lam → nu = lam → (a, b) ∈ Corners (ShiftedDiagram lam) → e = false → c = some a → (a, b) ∉ Corners (ShiftedDiagram mu) → a ≠ b →
      ¬ MeetsRow (ShiftedDiagram mu \ ShiftedDiagram lam) (a + 1) → AddsInRow mu gamma (a + 1) → ShiftedRule lam nu mu e c 0 gamma false none
  | columnKept {a b} : mu ≠ lam → nu = lam → (a, b) ∈ Corners (ShiftedDiagram lam) → e = true → c = some b → (a, b) ∈ Corners (ShiftedDiagram mu) →
      ShiftedRule lam nu mu e c 0 mu true (some b)
  | columnNext {a b} : mu ≠ lam → nu = lam → (a, b) ∈ Corners (ShiftedDiagram lam) → e = true → c = some b → (a, b) ∉ Corners (ShiftedDiagram mu) →
      MeetsColumn (ShiftedDiagram mu \ ShiftedDiagram lam) (b + 1) → ShiftedRule lam nu mu e c 0 mu true (some (b + 1))
  | columnAdd {a b gamma} : mu ≠ lam → nu = lam → (a, b) ∈ Corners (ShiftedDiagram lam) → e = true → c = some b → (a, b) ∉ Corners (ShiftedDiagram mu) →
      ¬ MeetsColumn (ShiftedDiagram mu \ ShiftedDiagram lam) (b + 1) → AddsInColumn mu gamma (b + 1) → ShiftedRule lam nu mu e c 0 gamma true none

/-! ### Sets of boxes -/

/-- Shifted diagrams of strict partitions, as sets. -/
structure ShapeSet (D : Set (Nat × Nat)) : Prop where
  pos : ∀ i j, (i, j) ∈ D → 1 ≤ i ∧ i ≤ j
  up : ∀ i j k, (i, j) ∈ D → 1 ≤ k → k ≤ i → (k, j) ∈ D
  left : ∀ i j k, (i, j) ∈ D → i ≤ k → k ≤ j → (i, k) ∈ D

theorem shapeSet_of {p : List Nat} (h : IsStrict p) : ShapeSet (ShiftedDiagram p) where
  pos i j hij := ⟨(mem_shiftedDiagram.1 hij).1, (mem_shiftedDiagram.1 hij).2.1⟩
  up i j k hij h1 h2 := shiftedDiagram_column h hij h1 h2
  left i j k hij h1 h2 := by
    rw [mem_shiftedDiagram] at hij ⊢
    omega

section
variable {L M : Set (Nat × Nat)} (hL : ShapeSet L) (hM : ShapeSet M) (hV : IsRookStrip (M \ L))
include hL hM hV

theorem rook_row {x y y' : Nat} (h1 : (x, y) ∈ M \ L) (h2 : (x, y') ∈ M \ L) : y = y' := by
  have := hV _ h1 _ h2 (.inl rfl)
  exact (Prod.mk.injEq _ _ _ _ ▸ this).2

theorem rook_col {x x' y : Nat} (h1 : (x, y) ∈ M \ L) (h2 : (x', y) ∈ M \ L) : x = x' := by
  have := hV _ h1 _ h2 (.inr rfl)
  exact (Prod.mk.injEq _ _ _ _ ▸ this).1

/-- All boxes of the strip are corners. -/
theorem strip_corner {x y : Nat} (h : (x, y) ∈ M \ L) : (x, y) ∈ Corners M := by
  have hp := hM.pos x y h.1
  refine ⟨h.1, fun hc => ?_, fun hc => ?_⟩
  · have h1 : (x + 1, y) ∉ L := fun h2 => h.2 (hL.up _ _ x h2 hp.1 (by omega))
    have := rook_col hL hM hV h ⟨hc, h1⟩
    omega
  · have h1 : (x, y + 1) ∉ L := fun h2 => h.2 (hL.left _ _ y h2 hp.2 (by omega))
    have := rook_row hL hM hV h ⟨hc, h1⟩
    omega

/-- A new box in the row after that of a box of the strip. -/
theorem row_free {a b c : Nat} (hB : (a, b) ∈ M \ L) (hne : a ≠ b) (hrow : ∀ y, (a + 1, y) ∉ M \ L) (hc : (a + 1, c) ∉ M)
    (hc' : ∀ y, a + 1 ≤ y → y < c → (a + 1, y) ∈ M) (hac : a + 1 ≤ c) :
    (a, c) ∈ M ∧ ∀ x y, (x, y) ∈ M \ L → (x, y) ≠ (a, b) → x ≠ a + 1 ∧ y ≠ c := by
  have hp := hM.pos a b hB.1
  have hcb : c ≤ b := by
    by_contra h
    have h1 := hc' b (by omega) (by omega)
    have h2 : (a + 1, b) ∈ L := by
      by_contra h3
      exact hrow b ⟨h1, h3⟩
    exact hB.2 (hL.up _ _ a h2 hp.1 (by omega))
  refine ⟨hM.left _ _ c hB.1 (by omega) hcb, fun x y hxy hn => ⟨fun hx => hrow y (hx ▸ hxy), ?_⟩⟩
  rintro rfl
  have hx := hM.pos x y hxy.1
  by_cases hxa : x ≤ a
  · rcases Nat.eq_or_lt_of_le hcb with rfl | hlt
    · have := rook_col hL hM hV hxy hB
      exact hn (by rw [this])
    · have h1 : (a, y) ∈ M := hM.left _ _ y hB.1 (by omega) hcb
      have h2 : (a, y) ∈ L := by
        by_contra h3
        have := rook_row hL hM hV ⟨h1, h3⟩ hB
        omega
      exact hxy.2 (hL.up _ _ x h2 hx.1 hxa)
  · exact hc (hM.up _ _ (a + 1) hxy.1 (by omega) (by omega))

/-- A new box in the column after that of a box of the strip; `h + 1` is the first free row of that column. -/
theorem col_free {a b h : Nat} (hB : (a, b) ∈ M \ L) (hcol : ∀ x, (x, b + 1) ∉ M \ L) (hh : (h + 1, b + 1) ∉ M)
    (hh' : ∀ x, 1 ≤ x → x ≤ h → (x, b + 1) ∈ M) :
    h < a ∧ (h + 1, b) ∈ M ∧ ∀ x y, (x, y) ∈ M \ L → (x, y) ≠ (a, b) → x ≠ h + 1 ∧ y ≠ b + 1 := by
  have hp := hM.pos a b hB.1
  have hlt : h < a := by
    by_contra hc
    have h1 := hh' a hp.1 (by omega)
    have h2 : (a, b + 1) ∈ L := by
      by_contra h3
      exact hcol a ⟨h1, h3⟩
    exact hB.2 (hL.left _ _ b h2 hp.2 (by omega))
  refine ⟨hlt, hM.up _ _ (h + 1) hB.1 (by omega) (by omega), fun x y hxy hn => ⟨?_, fun hy => hcol x (hy ▸ hxy)⟩⟩
  rintro rfl
  have hx := hM.pos _ y hxy.1
  by_cases hyb : y ≤ b
  · by_cases hyb' : y = b
    · subst hyb'
      have := rook_col hL hM hV hxy hB
      exact hn (by rw [this])
    · have h1 : (h + 1, b) ∈ M := hM.up _ _ (h + 1) hB.1 (by omega) (by omega)
      have h2 : (h + 1, b) ∉ L := fun h3 => hxy.2 (hL.left _ _ y h3 hx.2 (by omega))
      have := rook_row hL hM hV hxy ⟨h1, h2⟩
      omega
  · exact hh (hM.left _ _ (b + 1) hxy.1 (by omega) (by omega))

/-- A new box in the row after that of a corner. -/
theorem row_free_corner {a b c : Nat} (hB : (a, b) ∈ Corners L) (hLM : L ⊆ M) (hne : a ≠ b) (hrow : ∀ y, (a + 1, y) ∉ M \ L) (hc : (a + 1, c) ∉ M)
    (hc' : ∀ y, a + 1 ≤ y → y < c → (a + 1, y) ∈ M) (hac : a + 1 ≤ c) :
    (a, c) ∈ M ∧ ∀ x y, (x, y) ∈ M \ L → x ≠ a + 1 ∧ y ≠ c := by
  have hp := hL.pos a b hB.1
  have hcb : c ≤ b := by
    by_contra h
    have h1 := hc' b (by omega) (by omega)
    by_cases h2 : (a + 1, b) ∈ L
    · exact hB.2.1 h2
    · exact hrow b ⟨h1, h2⟩
  refine ⟨hLM (hL.left _ _ c hB.1 (by omega) hcb), fun x y hxy => ⟨fun hx => hrow y (hx ▸ hxy), ?_⟩⟩
  rintro rfl
  have hx := hM.pos x y hxy.1
  by_cases hxa : x ≤ a
  · exact hxy.2 (hL.up _ _ x (hL.left _ _ y hB.1 (by omega) hcb) hx.1 hxa)
  · exact hc (hM.up _ _ (a + 1) hxy.1 (by omega) (by omega))

/-- A new box in the column after that of a corner. -/
theorem col_free_corner {a b h : Nat} (hB : (a, b) ∈ Corners L) (hLM : L ⊆ M) (hcol : ∀ x, (x, b + 1) ∉ M \ L) (hh : (h + 1, b + 1) ∉ M)
    (hh' : ∀ x, 1 ≤ x → x ≤ h → (x, b + 1) ∈ M) :
    h < a ∧ (h + 1, b) ∈ M ∧ ∀ x y, (x, y) ∈ M \ L → x ≠ h + 1 ∧ y ≠ b + 1 := by
  have hp := hL.pos a b hB.1
  have hlt : h < a := by
    by_contra hc
    have h1 := hh' a hp.1 (by omega)
    by_cases h2 : (a, b + 1) ∈ L
    · exact hB.2.2 h2
    · exact hcol a ⟨h1, h2⟩
  have h1 : (h + 1, b) ∈ L := hL.up _ _ (h + 1) hB.1 (by omega) (by omega)
  refine ⟨hlt, hLM h1, fun x y hxy => ⟨?_, fun hy => hcol x (hy ▸ hxy)⟩⟩
  rintro rfl
  have hx := hM.pos _ y hxy.1
  by_cases hyb : y ≤ b
  · exact hxy.2 (hL.left _ _ y h1 hx.2 hyb)
  · exact hh (hM.left _ _ (b + 1) hxy.1 (by omega) (by omega))

/-- A box of the strip in the column after that of a box outside `L` is off the diagonal. -/
theorem col_off {a b x : Nat} (hab : a ≤ b) (h1 : 1 ≤ a) (hB : (a, b + 1) ∉ L) (hx : (x, b + 1) ∈ M \ L) : x ≠ b + 1 := by
  rintro rfl
  have h2 : (a, b + 1) ∈ M := hM.up _ _ a hx.1 h1 (by omega)
  have := rook_col hL hM hV hx ⟨h2, hB⟩
  omega

end

/-- The strip after a box is removed and another is added. -/
theorem rook_insert {D : Set (Nat × Nat)} (hD : IsRookStrip D) {x0 y0 : Nat} (h : ∀ x y, (x, y) ∈ D → x ≠ x0 ∧ y ≠ y0) :
    IsRookStrip (D ∪ {(x0, y0)}) := by
  rintro ⟨x, y⟩ hb ⟨x', y'⟩ hc he
  dsimp only at he
  rcases hb with hb | hb <;> rcases hc with hc | hc
  · exact hD _ hb _ hc he
  · rw [Set.mem_singleton_iff, Prod.mk.injEq] at hc
    have := h _ _ hb
    omega
  · rw [Set.mem_singleton_iff, Prod.mk.injEq] at hb
    have := h _ _ hc
    omega
  · rw [Set.mem_singleton_iff] at hb hc
    rw [hb, hc]

theorem rook_mono {D E : Set (Nat × Nat)} (hD : IsRookStrip D) (h : E ⊆ D) : IsRookStrip E :=
  fun b hb c hc he => hD b (h hb) c (h hc) he

/-! ### Partitions -/

/-- A box that can be added. -/
theorem addRow_strict {p : List Nat} (hp : IsStrict p) {r c : Nat} (hr : 1 ≤ r) (hc : r + p.getD (r - 1) 0 = c) (hup : r = 1 ∨ (r - 1, c) ∈ ShiftedDiagram p) :
    IsStrict (addBoxToRow p r) ∧ ShiftedDiagram (addBoxToRow p r) = ShiftedDiagram p ∪ {(r, c)} ∧ (r, c) ∉ ShiftedDiagram p := by
  refine ⟨?_, shiftedDiagram_addRow p hr hc, by rw [mem_shiftedDiagram]; omega⟩
  apply trim_isStrict_of_next
  intro k
  rw [getD_rowList, getD_rowList]
  have hk := strict_next hp k
  by_cases e1 : k + 1 + 1 = r
  · rcases hup with h3 | h3
    · omega
    · rw [mem_shiftedDiagram] at h3
      have e2 : r - 1 = k + 1 := by omega
      have e3 : r - 1 - 1 = k := by omega
      rw [e2] at hc
      rw [e3] at h3
      rw [if_pos e1]
      split <;> omega
  · rw [if_neg e1]
    split <;> omega

/-- The first free row of a column. -/
theorem free_row (p : List Nat) (c : Nat) : ∃ h, (h + 1, c) ∉ ShiftedDiagram p ∧ ∀ x, 1 ≤ x → x ≤ h → (x, c) ∈ ShiftedDiagram p := by
  have hex : ∃ h, (h + 1, c) ∉ ShiftedDiagram p := ⟨c, fun hc => by rw [mem_shiftedDiagram] at hc; omega⟩
  classical
  refine ⟨Nat.find hex, Nat.find_spec hex, fun x h1 h2 => ?_⟩
  have := Nat.find_min hex (m := x - 1) (by omega)
  rw [show x - 1 + 1 = x by omega, not_not] at this
  exact this

/-- `add_box_to_column` at a free row with a box to the left. -/
theorem addColumn_eq {p : List Nat} (hp : IsStrict p) {h b : Nat} (hh : (h + 1, b + 1) ∉ ShiftedDiagram p)
    (hh' : ∀ x, 1 ≤ x → x ≤ h → (x, b + 1) ∈ ShiftedDiagram p) (hl : (h + 1, b) ∈ ShiftedDiagram p) :
    ∃ q, addBoxToColumn p (b + 1) true = some q ∧ IsStrict q ∧ ShiftedDiagram q = ShiftedDiagram p ∪ {(h + 1, b + 1)} := by
  have hc : h + 1 + p.getD (h + 1 - 1) 0 = b + 1 := by
    rw [mem_shiftedDiagram] at hh hl
    omega
  obtain ⟨h1, h2, h3⟩ := addRow_strict hp (r := h + 1) (by omega) hc (by
    rcases Nat.eq_zero_or_pos h with rfl | h0
    · exact .inl rfl
    · exact .inr (hh' _ (by omega) (by omega)))
  exact ⟨_, (C113_column_shifted hp _ _).2 ⟨h1, _, h3, h2⟩, h1, h2⟩

theorem mem_sk {mu lam : List Nat} (hm : IsStrict mu) (hl : IsStrict lam) (i j : Nat) :
    (i, j) ∈ skew mu lam true ↔ (i, j) ∈ ShiftedDiagram mu \ ShiftedDiagram lam := C23_skew_shifted hm hl (i, j)

theorem shifted_inj {p q : List Nat} (hp : IsStrict p) (hq : IsStrict q) (h : ShiftedDiagram p = ShiftedDiagram q) : p = q :=
  row_ext hp.2 hq.2 (fun i => le_antisymm (shiftedDiagram_subset.1 h.le i) (shiftedDiagram_subset.1 h.ge i))

theorem union_strict {p q : List Nat} (hp : IsStrict p) (hq : IsStrict q) :
    IsStrict (union p q) ∧ ShiftedDiagram (union p q) = ShiftedDiagram p ∪ ShiftedDiagram q := by
  have hu := union_isPartition (isStrict_isPartition hp) (isStrict_isPartition hq)
  constructor
  · refine isStrict_of_next hu.2 (fun i => ?_)
    have h1 := strict_next hp i
    have h2 := strict_next hq i
    rw [getD_union, getD_union]
    omega
  · ext ⟨i, j⟩
    simp only [Set.mem_union, mem_shiftedDiagram, getD_union]
    omega

/-- What a step has to give. -/
def GoodCell (nu mu : List Nat) (c : GCell) : Prop :=
  IsStrict c.shape ∧ VStep nu c.shape ∧ (HAdd mu c.shape c.edge c.corner ∨ HCorner mu c.shape c.edge c.corner)

section
variable {lam nu mu : List Nat} (hl : IsStrict lam) (hn : IsStrict nu) (hm : IsStrict mu) (hV : VStep lam mu)
include hl hm hV

theorem vstep_same {e : Bool} {x y : Nat} (hxy : (x, y) ∈ ShiftedDiagram mu \ ShiftedDiagram lam) {c : Option Nat}
    (hsub : ShiftedDiagram lam ⊆ ShiftedDiagram nu) (hnm : ShiftedDiagram nu ⊆ ShiftedDiagram mu)
    (hc : e = false ∧ c = some x ∨ e = true ∧ c = some y ∧ x ≠ y) : GoodCell nu mu ⟨mu, e, c⟩ :=
  ⟨hm, ⟨hnm, rook_mono hV.2 (Set.sdiff_subset_sdiff_right hsub)⟩,
    .inr ⟨rfl, x, y, strip_corner (shapeSet_of hl) (shapeSet_of hm) hV.2 hxy, hc⟩⟩

/-- Cases (5) to (8). -/
theorem growthBox_spec (hn : IsStrict nu) {a b : Nat} (hB : (a, b) ∉ ShiftedDiagram lam) (hD : ShiftedDiagram nu = ShiftedDiagram lam ∪ {(a, b)})
    (hsub : ShiftedDiagram nu ⊆ ShiftedDiagram mu) (hne : mu ≠ lam) (edge : Bool) (c0 : Option Nat) :
    ∃ c, growthBox lam nu mu edge = some c ∧ GoodCell nu mu c ∧ ShiftedRule lam nu mu edge c0 0 c.shape c.edge c.corner := by
  have sL := shapeSet_of hl
  have sM := shapeSet_of hm
  have hBM : (a, b) ∈ ShiftedDiagram mu \ ShiftedDiagram lam := ⟨hsub (by rw [hD]; exact .inr rfl), hB⟩
  have hpos := sM.pos a b hBM.1
  have hLN : ShiftedDiagram lam ⊆ ShiftedDiagram nu := by rw [hD]; exact Set.subset_union_left
  have hsk : ∀ i j, (i, j) ∈ skew nu lam true ↔ (i, j) = (a, b) := by
    intro i j
    rw [mem_sk hn hl, hD]
    constructor
    · rintro ⟨h1 | h1, h2⟩
      · exact absurd h1 h2
      · exact h1
    · intro h
      rw [h]
      exact ⟨.inr rfl, hB⟩
  have hdiff : ∀ x y, (x, y) ∈ ShiftedDiagram mu \ ShiftedDiagram nu → (x, y) ∈ ShiftedDiagram mu \ ShiftedDiagram lam ∧ (x, y) ≠ (a, b) := by
    rintro x y ⟨h1, h2⟩
    rw [hD] at h2
    exact ⟨⟨h1, fun h3 => h2 (.inl h3)⟩, fun h3 => h2 (.inr h3)⟩
  have hV' : IsRookStrip (ShiftedDiagram mu \ ShiftedDiagram nu) := rook_mono hV.2 (Set.sdiff_subset_sdiff_right hLN)
  have hrook : ∀ {q : List Nat} {x0 y0 : Nat}, ShiftedDiagram q = ShiftedDiagram mu ∪ {(x0, y0)} →
      (∀ x y, (x, y) ∈ ShiftedDiagram mu \ ShiftedDiagram lam → (x, y) ≠ (a, b) → x ≠ x0 ∧ y ≠ y0) → VStep nu q := by
    intro q x0 y0 hq hfree
    refine ⟨fun z hz => by rw [hq]; exact .inl (hsub hz), ?_⟩
    refine rook_mono (rook_insert hV' (x0 := x0) (y0 := y0) (fun x y hxy => hfree x y (hdiff x y hxy).1 (hdiff x y hxy).2)) ?_
    rintro z ⟨h1, h2⟩
    rw [hq] at h1
    rcases h1 with h1 | h1
    · exact .inl ⟨h1, h2⟩
    · exact .inr h1
  rw [growthBox]
  cases hs : skew nu lam true with
  | nil =>
    have := (hsk a b).2 rfl
    rw [hs] at this
    simp at this
  | cons q rest =>
    obtain ⟨q1, q2⟩ := q
    have hq : (q1, q2) = (a, b) := (hsk q1 q2).1 (by rw [hs]; exact List.mem_cons_self ..)
    rw [Prod.mk.injEq] at hq
    obtain ⟨rfl, rfl⟩ := hq
    dsimp only
    split
    · rename_i hc
      split
      · rename_i hrow
        have hrow' : ∀ y, (q1 + 1, y) ∉ ShiftedDiagram mu \ ShiftedDiagram lam := by
          intro y hy
          have : (q1 + 1, y) ∈ (skew mu lam true).filter (fun q => decide (q.1 = q1 + 1)) := List.mem_filter.2 ⟨(mem_sk hm hl _ _).2 hy, by simp⟩
          rw [hrow] at this
          simp at this
        obtain ⟨c, hcc⟩ : ∃ c, q1 + 1 + mu.getD (q1 + 1 - 1) 0 = c := ⟨_, rfl⟩
        obtain ⟨h1, h2⟩ := row_free sL sM hV.2 hBM hc.2 hrow' (c := c) (by rw [mem_shiftedDiagram]; omega)
          (fun y h3 h4 => by rw [mem_shiftedDiagram]; omega) (by omega)
        obtain ⟨h3, h4, h5⟩ := addRow_strict hm (r := q1 + 1) (by omega) hcc (.inr (by rw [Nat.add_sub_cancel]; exact h1))
        exact ⟨_, rfl, ⟨h3, hrook h4 h2, .inl ⟨rfl, q1 + 1, c, h5, h4, fun h => by cases h⟩⟩,
          .boxRow hne hB hD hsub hc.1 hc.2 (fun ⟨y, hy⟩ => hrow' y hy) ⟨c, h5, h4⟩⟩
      · rename_i hrow
        obtain ⟨⟨x, y⟩, hx⟩ := List.exists_mem_of_ne_nil _ hrow
        obtain ⟨h1, h2⟩ := List.mem_filter.1 hx
        rw [decide_eq_true_eq] at h2
        dsimp only at h2
        subst h2
        exact ⟨_, rfl, vstep_same hl hm hV ((mem_sk hm hl _ _).1 h1) hLN hsub (.inl ⟨rfl, rfl⟩),
          .boxRowStays hne hB hD hsub hc.1 hc.2 ⟨y, (mem_sk hm hl _ _).1 h1⟩⟩
    · rename_i hc
      have hc' : edge = true ∨ q1 = q2 := by
        cases edge with
        | true => exact .inl rfl
        | false => exact .inr (by by_contra h; exact hc ⟨rfl, h⟩)
      split
      · rename_i hcol
        have hcol' : ∀ x, (x, q2 + 1) ∉ ShiftedDiagram mu \ ShiftedDiagram lam := by
          intro x hx
          have : (x, q2 + 1) ∈ (skew mu lam true).filter (fun q => decide (q.2 = q2 + 1)) := List.mem_filter.2 ⟨(mem_sk hm hl _ _).2 hx, by simp⟩
          rw [hcol] at this
          simp at this
        obtain ⟨h, hh, hh'⟩ := free_row mu (q2 + 1)
        obtain ⟨h1, h2, h3⟩ := col_free sL sM hV.2 hBM hcol' hh hh'
        obtain ⟨q, h4, h5, h6⟩ := addColumn_eq hm hh hh' h2
        rw [h4]
        exact ⟨_, rfl, ⟨h5, hrook h6 h3, .inl ⟨rfl, h + 1, q2 + 1, hh, h6, fun _ => by omega⟩⟩,
          .boxColumn hne hB hD hsub hc' (fun ⟨x, hx⟩ => hcol' x hx) ⟨h + 1, hh, h6⟩⟩
      · rename_i hcol
        obtain ⟨⟨x, y⟩, hx⟩ := List.exists_mem_of_ne_nil _ hcol
        obtain ⟨h1, h2⟩ := List.mem_filter.1 hx
        rw [decide_eq_true_eq] at h2
        dsimp only at h2
        subst h2
        have h3 := (mem_sk hm hl _ _).1 h1
        refine ⟨_, rfl, vstep_same hl hm hV h3 hLN hsub (.inr ⟨rfl, rfl, ?_⟩), .boxColumnStays hne hB hD hsub hc' ⟨x, h3⟩⟩
        exact col_off sL sM hV.2 hpos.2 hpos.1 (fun h4 => hB (sL.left _ _ q2 h4 hpos.2 (by omega))) h3

theorem vstep_grow {q : List Nat} {x0 y0 : Nat} (hq : ShiftedDiagram q = ShiftedDiagram mu ∪ {(x0, y0)})
    (hfree : ∀ x y, (x, y) ∈ ShiftedDiagram mu \ ShiftedDiagram lam → x ≠ x0 ∧ y ≠ y0) : VStep lam q := by
  refine ⟨fun z hz => by rw [hq]; exact .inl (hV.1 hz), rook_mono (rook_insert hV.2 (x0 := x0) (y0 := y0) hfree) ?_⟩
  rintro z ⟨h1, h2⟩
  rw [hq] at h1
  rcases h1 with h1 | h1
  · exact .inl ⟨h1, h2⟩
  · exact .inr h1

/-- Cases (9) to (12). -/
theorem growthRowCorner_spec {a b : Nat} (hB : (a, b) ∈ Corners (ShiftedDiagram lam)) (hne : mu ≠ lam) :
    ∃ c, growthRowCorner lam lam mu a = some c ∧ GoodCell lam mu c ∧ ShiftedRule lam lam mu false (some a) 0 c.shape c.edge c.corner := by
  have sL := shapeSet_of hl
  have sM := shapeSet_of hm
  have hpos := sL.pos a b hB.1
  have hb : get lam a + a - 1 = b := by
    have h1 := mem_shiftedDiagram.1 hB.1
    have h2 := hB.2.2
    rw [mem_shiftedDiagram] at h2
    dsimp only at h2
    rw [get_eq lam hpos.1]
    omega
  rw [growthRowCorner]
  simp only [hb]
  split
  · rename_i hc
    rw [mem_sk hm hl, mem_sk hm hl] at hc
    have hB' : (a, b) ∈ Corners (ShiftedDiagram mu) := ⟨hV.1 hB.1, fun h1 => hc.2 ⟨h1, hB.2.1⟩, fun h1 => hc.1 ⟨h1, hB.2.2⟩⟩
    exact ⟨_, rfl, ⟨hm, hV, .inr ⟨rfl, a, b, hB', .inl ⟨rfl, rfl⟩⟩⟩, .rowKept hne rfl hB rfl rfl hB'⟩
  rename_i hc
  split
  · rename_i h1
    have h2 := (mem_sk hm hl _ _).1 h1
    exact ⟨_, rfl, vstep_same hl hm hV h2 (fun _ h => h) hV.1 (.inl ⟨rfl, rfl⟩), .rowNext hne rfl hB rfl rfl (fun h => h.2.1 h2.1) ⟨b, h2⟩⟩
  rename_i h1
  have h2 : (a, b + 1) ∈ skew mu lam true := by
    by_contra h3
    exact hc ⟨h3, h1⟩
  have hB' : (a, b) ∉ Corners (ShiftedDiagram mu) := fun h => h.2.2 ((mem_sk hm hl _ _).1 h2).1
  rw [if_pos h2]
  split
  · rename_i h3
    rw [List.any_eq_true] at h3
    obtain ⟨⟨x, y⟩, h4, h5⟩ := h3
    rw [decide_eq_true_eq] at h5
    dsimp only at h5
    subst h5
    have h5 := (mem_sk hm hl _ _).1 h4
    exact ⟨_, rfl, vstep_same hl hm hV h5 (fun _ h => h) hV.1 (.inl ⟨rfl, rfl⟩), .rowNext hne rfl hB rfl rfl hB' ⟨y, h5⟩⟩
  rename_i h3
  have hrow : ∀ y, (a + 1, y) ∉ ShiftedDiagram mu \ ShiftedDiagram lam := by
    intro y hy
    refine h3 (List.any_eq_true.2 ⟨(a + 1, y), (mem_sk hm hl _ _).2 hy, by simp⟩)
  split
  · rename_i h4
    subst h4
    exact ⟨_, rfl, vstep_same hl hm hV ((mem_sk hm hl _ _).1 h2) (fun _ h => h) hV.1 (.inr ⟨rfl, rfl, by omega⟩),
      .rowTurn hne rfl hB rfl rfl hB' (fun ⟨y, hy⟩ => hrow y hy)⟩
  rename_i h4
  obtain ⟨c, hcc⟩ : ∃ c, a + 1 + mu.getD (a + 1 - 1) 0 = c := ⟨_, rfl⟩
  obtain ⟨h5, h6⟩ := row_free_corner sL sM hV.2 hB hV.1 h4 hrow (c := c) (by rw [mem_shiftedDiagram]; omega)
    (fun y h3 h4 => by rw [mem_shiftedDiagram]; omega) (by omega)
  obtain ⟨h7, h8, h9⟩ := addRow_strict hm (r := a + 1) (by omega) hcc (.inr (by rw [Nat.add_sub_cancel]; exact h5))
  exact ⟨_, rfl, ⟨h7, vstep_grow hl hm hV h8 h6, .inl ⟨rfl, a + 1, c, h9, h8, fun h => by cases h⟩⟩,
    .rowAdd hne rfl hB rfl rfl hB' h4 (fun ⟨y, hy⟩ => hrow y hy) ⟨c, h9, h8⟩⟩

/-- Cases (13) to (15). -/
theorem growthColCorner_spec {a b : Nat} (hB : (a, b) ∈ Corners (ShiftedDiagram lam)) (hab : a ≠ b) (hne : mu ≠ lam) :
    ∃ c, growthColCorner lam lam mu b = some c ∧ GoodCell lam mu c ∧ ShiftedRule lam lam mu true (some b) 0 c.shape c.edge c.corner := by
  have sL := shapeSet_of hl
  have sM := shapeSet_of hm
  have hpos := sL.pos a b hB.1
  have hmax : (((shiftedShape lam).filter (fun q => decide (q.2 = b))).map (fun q => q.1)).max? = some a := by
    rw [List.max?_eq_some_iff]
    constructor
    · exact List.mem_map.2 ⟨(a, b), List.mem_filter.2 ⟨mem_shiftedShape.2 hB.1, by simp⟩, rfl⟩
    · intro x hx
      obtain ⟨⟨x', y⟩, h1, rfl⟩ := List.mem_map.1 hx
      obtain ⟨h0, h2⟩ := List.mem_filter.1 h1
      rw [decide_eq_true_eq] at h2
      dsimp only at h2 ⊢
      subst h2
      by_contra hc
      exact hB.2.1 (sL.up x' y (a + 1) (mem_shiftedShape.1 h0) (by omega) (by omega))
  rw [growthColCorner, hmax]
  dsimp only
  split
  · rename_i hc
    rw [mem_sk hm hl, mem_sk hm hl] at hc
    have hB' : (a, b) ∈ Corners (ShiftedDiagram mu) := ⟨hV.1 hB.1, fun h1 => hc.2 ⟨h1, hB.2.1⟩, fun h1 => hc.1 ⟨h1, hB.2.2⟩⟩
    exact ⟨_, rfl, ⟨hm, hV, .inr ⟨rfl, a, b, hB', .inr ⟨rfl, rfl, hab⟩⟩⟩, .columnKept hne rfl hB rfl rfl hB'⟩
  rename_i hc
  split
  · rename_i h1
    have h2 := (mem_sk hm hl _ _).1 h1
    exact ⟨_, rfl, vstep_same hl hm hV h2 (fun _ h => h) hV.1 (.inr ⟨rfl, rfl, by omega⟩), .columnNext hne rfl hB rfl rfl (fun h => h.2.2 h2.1) ⟨a, h2⟩⟩
  rename_i h1
  have h2 : (a + 1, b) ∈ skew mu lam true := by
    by_contra h3
    exact hc ⟨h1, h3⟩
  have hB' : (a, b) ∉ Corners (ShiftedDiagram mu) := fun h => h.2.1 ((mem_sk hm hl _ _).1 h2).1
  rw [if_pos h2]
  split
  · rename_i h3
    rw [List.any_eq_true] at h3
    obtain ⟨⟨x, y⟩, h4, h5⟩ := h3
    rw [decide_eq_true_eq] at h5
    dsimp only at h5
    subst h5
    have h6 := (mem_sk hm hl _ _).1 h4
    exact ⟨_, rfl, vstep_same hl hm hV h6 (fun _ h => h) hV.1 (.inr ⟨rfl, rfl, col_off sL sM hV.2 hpos.2 hpos.1 hB.2.2 h6⟩),
      .columnNext hne rfl hB rfl rfl hB' ⟨x, h6⟩⟩
  rename_i h3
  have hcol : ∀ x, (x, b + 1) ∉ ShiftedDiagram mu \ ShiftedDiagram lam := by
    intro x hx
    exact h3 (List.any_eq_true.2 ⟨(x, b + 1), (mem_sk hm hl _ _).2 hx, by simp⟩)
  obtain ⟨h, hh, hh'⟩ := free_row mu (b + 1)
  obtain ⟨h4, h5, h6⟩ := col_free_corner sL sM hV.2 hB hV.1 hcol hh hh'
  obtain ⟨q, h7, h8, h9⟩ := addColumn_eq hm hh hh' h5
  rw [h7]
  exact ⟨_, rfl, ⟨h8, vstep_grow hl hm hV h9 h6, .inl ⟨rfl, h + 1, b + 1, hh, h9, fun _ => by omega⟩⟩,
    .columnAdd hne rfl hB rfl rfl hB' (fun ⟨x, hx⟩ => hcol x hx) ⟨h + 1, hh, h9⟩⟩

/-- A step with the letter of the column. -/
theorem growthStep_one (e : Bool) (c : Option Nat) : 
    ∃ r, growthStep 1 lam lam mu e c = some r ∧ GoodCell lam mu r ∧ ShiftedRule lam lam mu e c 1 r.shape r.edge r.corner := by
  have sL := shapeSet_of hl
  have sM := shapeSet_of hm
  have hsub := shiftedDiagram_subset.1 hV.1 0
  rw [growthStep.eq_def, if_neg (by omega)]
  have g1 : get lam 1 = lam.getD 0 0 := get_succ lam 0
  have g2 : get mu 1 = mu.getD 0 0 := get_succ mu 0
  rw [g1, g2]
  split
  · rename_i hc
    obtain ⟨h1, h2, h3⟩ := addRow_strict hm (r := 1) (le_refl _) (c := 1 + mu.getD 0 0) rfl (.inl rfl)
    have hno : ¬ MeetsRow (ShiftedDiagram mu \ ShiftedDiagram lam) 1 := by
      rintro ⟨y, h4, h5⟩
      rw [mem_shiftedDiagram, Nat.sub_self] at h4 h5
      omega
    refine ⟨_, rfl, ⟨h1, vstep_grow hl hm hV h2 ?_, .inl ⟨rfl, _, _, h3, h2, fun h => by cases h⟩⟩, .letter hno ⟨_, h3, h2⟩⟩
    intro x y hxy
    have hp := sM.pos x y hxy.1
    have h4 := sM.up x y 1 hxy.1 (le_refl _) hp.1
    rw [mem_shiftedDiagram, Nat.sub_self] at h4
    refine ⟨?_, by omega⟩
    rintro rfl
    refine hxy.2 ?_
    rw [mem_shiftedDiagram, Nat.sub_self]
    omega
  · rename_i hc
    have hlt : lam.getD 0 0 < mu.getD 0 0 := by omega
    have hbox : (1, lam.getD 0 0 + 1) ∈ ShiftedDiagram mu \ ShiftedDiagram lam := by
      constructor
      · rw [mem_shiftedDiagram, Nat.sub_self]; omega
      · rw [mem_shiftedDiagram, Nat.sub_self]; omega
    have hbox2 : (1, mu.getD 0 0) ∈ ShiftedDiagram mu \ ShiftedDiagram lam := by
      constructor
      · rw [mem_shiftedDiagram, Nat.sub_self]; omega
      · rw [mem_shiftedDiagram, Nat.sub_self]; omega
    have := rook_row sL sM hV.2 hbox hbox2
    rw [if_pos rfl, if_pos this]
    exact ⟨_, rfl, vstep_same hl hm hV hbox2 (fun _ h => h) hV.1 (.inl ⟨rfl, rfl⟩), .letterStays ⟨_, hbox2⟩⟩

end

/-- A step without a letter, before the letter of the column. -/
theorem growthStep_triv {lam mu : List Nat} :
    growthStep 0 lam lam mu false none = some ⟨mu, false, none⟩ ∧ ShiftedRule lam lam mu false none 0 mu false none := by
  refine ⟨?_, ?_⟩
  rotate_left
  · by_cases h : mu = lam
    · have := ShiftedRule.copy (lam := lam) (nu := lam) (mu := mu) (e := false) (c := none) h
      rw [h] at this ⊢
      exact this
    · exact .before h ⟨rfl, rfl, rfl⟩
  rw [growthStep.eq_def, if_neg (by omega), if_neg (by omega), if_neg (by omega)]
  split
  · rename_i h; rw [h]
  · rw [if_pos ⟨rfl, rfl, rfl⟩]

/-- A step without a letter, after the letter of the column. -/
theorem growthStep_zero {lam nu mu : List Nat} (hl : IsStrict lam) (hn : IsStrict nu) (hm : IsStrict mu) (hV : VStep lam mu) {e : Bool} {c : Option Nat}
    (hH : HAdd lam nu e c ∨ HCorner lam nu e c) : 
    ∃ r, growthStep 0 lam nu mu e c = some r ∧ GoodCell nu mu r ∧ ShiftedRule lam nu mu e c 0 r.shape r.edge r.corner := by
  rw [growthStep.eq_def, if_neg (by omega), if_neg (by omega), if_neg (by omega)]
  split
  · rename_i h
    subst h
    refine ⟨_, rfl, ⟨hn, ⟨fun _ h => h, ?_⟩, hH⟩, .copy rfl⟩
    rintro b ⟨h1, h2⟩
    exact absurd h1 h2
  rename_i hml
  rcases hH with ⟨rfl, a, b, h1, h2, h3⟩ | ⟨rfl, a, b, h1, h2⟩
  · have hne : lam ≠ nu := by
      rintro rfl
      exact h1 (by rw [h2]; exact .inr rfl)
    rw [if_neg (fun hc => hne hc.1.symm)]
    split
    · rename_i hcon
      have hnot : (a, b) ∉ ShiftedDiagram mu := by
        intro hc
        have : contains mu nu = true := by
          rw [C23_contains_shifted hm hn, h2]
          exact Set.union_subset hV.1 (Set.singleton_subset_iff.2 hc)
        rw [hcon] at this
        cases this
      obtain ⟨h4, h5⟩ := union_strict hn hm
      refine ⟨_, rfl, ⟨h4, ⟨by rw [h5]; exact Set.subset_union_left, ?_⟩, .inl ⟨rfl, a, b, hnot, ?_, h3⟩⟩,
        .join hml (fun h => hnot (h (by rw [h2]; exact .inr rfl))) h5⟩
      · dsimp only
        refine rook_mono hV.2 ?_
        rintro z ⟨h6, h7⟩
        rw [h5] at h6
        rcases h6 with h6 | h6
        · exact absurd h6 h7
        · exact ⟨h6, fun h8 => h7 (by rw [h2]; exact .inl h8)⟩
      · dsimp only
        rw [h5, h2]
        ext z
        constructor
        · rintro ((h6 | h6) | h6)
          · exact .inl (hV.1 h6)
          · exact .inr h6
          · exact .inl h6
        · rintro (h6 | h6)
          · exact .inr h6
          · exact .inl (.inr h6)
    · rename_i hcon
      rw [Bool.not_eq_false, C23_contains_shifted hm hn] at hcon
      exact growthBox_spec hl hm hV hn h1 h2 hcon hml e none
  · rw [if_neg (by rintro ⟨-, rfl, rfl⟩; rcases h2 with ⟨-, h⟩ | ⟨h, -⟩ <;> cases h), if_neg, if_neg (fun h => h rfl)]
    · rcases h2 with ⟨rfl, rfl⟩ | ⟨rfl, rfl, h3⟩
      · dsimp only
        rw [if_pos rfl]
        exact growthRowCorner_spec hl hm hV h1 hml
      · dsimp only
        rw [if_neg (by decide)]
        exact growthColCorner_spec hl hm hV h1 h3 hml
    · have := (C23_contains_shifted hm hn).2 hV.1
      rw [this]
      decide

end Verif.Partition
