import Verif.Lemmas.ShiftedGrowth

/-!
# C115: shifted growth diagrams

`VStep`, `HTriv`, `HAdd`, `HCorner` and the local rules `ShiftedRule` are stated with sets of boxes in Verif/Lemmas/ShiftedGrowth.lean.
-/

namespace Verif.Partition
open Verif.Part
attribute [-simp] List.getD_eq_getElem?_getD

/-- The step in a row from the cell `p` to the cell `c`: nothing before the letter of the column, one new box or one marked corner after it. -/
def HStep (act : Prop) (p c : GCell) : Prop :=
  (act → HAdd p.shape c.shape c.edge c.corner ∨ HCorner p.shape c.shape c.edge c.corner) ∧ (¬ act → HTriv p.shape c.shape c.edge c.corner)

/-- Along the rest of a row. -/
def RowOk (act : Nat → Prop) : Nat → GCell → List GCell → Prop
  | _, _, [] => True
  | j, p, c :: rest => IsStrict c.shape ∧ HStep (act j) p c ∧ RowOk act (j + 1) c rest

/-- Along the rests of two rows. -/
def RowsOk (v : Nat → Nat) : Nat → GCell → GCell → List GCell → List GCell → Prop
  | j, diag, left, up :: rest, c :: l => VStep up.shape c.shape ∧ ShiftedRule diag.shape up.shape left.shape up.edge up.corner (v j) c.shape c.edge c.corner
      ∧ RowsOk v (j + 1) up c rest l
  | _, _, _, _, _ => True

theorem hstep_congr {p q : Prop} {a c : GCell} (h : p ↔ q) : HStep p a c ↔ HStep q a c := by
  rw [HStep, HStep, h]

theorem growthCells_spec (v : Nat → Nat) (act act' : Nat → Prop) (rest : List GCell) : ∀ (j : Nat) (diag left : GCell),
    (∀ k, j ≤ k → k < j + rest.length → (v k = 0 ∨ v k = 1) ∧ (v k = 1 → ¬ act k) ∧ (act' k ↔ act k ∨ v k = 1)) →
    IsStrict diag.shape → IsStrict left.shape → VStep diag.shape left.shape → RowOk act j diag rest →
    ∃ l, growthCells v j diag left rest = some l ∧ l.length = rest.length ∧ RowOk act' j left l ∧ RowsOk v j diag left rest l := by
  induction rest with
  | nil =>
    intro j diag left _ _ _ _ _
    exact ⟨[], rfl, rfl, trivial, trivial⟩
  | cons up rest ih =>
    intro j diag left hv hd hl hV hrow
    obtain ⟨hu, hs, hrest⟩ := hrow
    obtain ⟨v01, v1, va⟩ := hv j (le_refl _) (by rw [List.length_cons]; omega)
    have key : ∃ c, growthStep (v j) diag.shape up.shape left.shape up.edge up.corner = some c ∧ IsStrict c.shape ∧ VStep up.shape c.shape ∧
        HStep (act' j) left c ∧ ShiftedRule diag.shape up.shape left.shape up.edge up.corner (v j) c.shape c.edge c.corner := by
      simp only [hstep_congr va]
      by_cases ha : act j
      · have h0 : v j = 0 := v01.resolve_right (fun h => v1 h ha)
        obtain ⟨c, h1, ⟨h2, h3, h4⟩, h5⟩ := growthStep_zero hd hu hl hV (hs.1 ha)
        rw [h0]
        exact ⟨c, h1, h2, h3, ⟨fun _ => h4, fun h => absurd (.inl ha) h⟩, h5⟩
      · obtain ⟨h1, h2, h3⟩ := hs.2 ha
        rcases v01 with h0 | h0
        · obtain ⟨h4, h5⟩ := growthStep_triv (lam := diag.shape) (mu := left.shape)
          rw [h0, h1, h2, h3]
          refine ⟨_, h4, hl, hV, ⟨fun h => ?_, fun _ => ⟨rfl, rfl, rfl⟩⟩, h5⟩
          rcases h with h | h
          · exact absurd h ha
          · omega
        · obtain ⟨c, h4, ⟨h5, h6, h7⟩, h8⟩ := growthStep_one hd hl hV up.edge up.corner
          rw [h0, h1]
          exact ⟨c, h4, h5, h6, ⟨fun _ => h7, fun h => absurd (.inr rfl) h⟩, h8⟩
    obtain ⟨c, h1, h2, h3, h4, h5⟩ := key
    obtain ⟨l, h6, h7, h8, h9⟩ := ih (j + 1) up c (fun k hk hk' => hv k (by omega) (by rw [List.length_cons]; omega)) hu h2 h3 hrest
    refine ⟨c :: l, ?_, by rw [List.length_cons, List.length_cons, h7], ⟨h2, h4, h8⟩, ⟨h3, h5, h9⟩⟩
    rw [growthCells, h1]
    dsimp only
    rw [h6]
    rfl

/-- A row with the first cell. -/
def LineOk (act : Nat → Prop) : List GCell → Prop
  | [] => False
  | p :: rest => p = GCell.init ∧ RowOk act 1 p rest

/-- Two rows with the first cells. -/
def LinesOk (v : Nat → Nat) : List GCell → List GCell → Prop
  | p :: rest, q :: l => RowsOk v 1 p q rest l
  | _, _ => False

theorem vstep_refl (p : List Nat) : VStep p p := by
  refine ⟨fun _ h => h, ?_⟩
  rintro b ⟨h1, h2⟩
  exact absurd h1 h2

theorem strict_init : IsStrict GCell.init.shape := by
  refine ⟨List.Pairwise.nil, ?_⟩
  intro x hx
  simp [GCell.init] at hx

theorem growthLine_spec {v : Nat → Nat} {act act' : Nat → Prop} {prev : List GCell} {m : Nat} (hlen : prev.length = m + 1)
    (hv : ∀ k, 1 ≤ k → k ≤ m → (v k = 0 ∨ v k = 1) ∧ (v k = 1 → ¬ act k) ∧ (act' k ↔ act k ∨ v k = 1)) (h : LineOk act prev) :
    ∃ l, growthLine v prev = some l ∧ l.length = m + 1 ∧ LineOk act' l ∧ LinesOk v prev l := by
  cases prev with
  | nil => exact h.elim
  | cons p rest =>
    obtain ⟨rfl, hrow⟩ := h
    rw [List.length_cons] at hlen
    obtain ⟨l, h1, h2, h3, h4⟩ := growthCells_spec v act act' rest 1 GCell.init GCell.init (fun k hk hk' => hv k hk (by omega)) strict_init strict_init
      (vstep_refl _) hrow
    refine ⟨GCell.init :: l, by rw [growthLine, h1]; rfl, by rw [List.length_cons]; omega, ⟨rfl, h3⟩, h4⟩

/-- Along the rows. -/
def GridOk (d : Nat → Nat → Nat) (m : Nat) : Nat → List GCell → List (List GCell) → Prop
  | _, _, [] => True
  | i, prev, r :: rest => r.length = m + 1 ∧ LineOk (fun j => ∃ k, 1 ≤ k ∧ k ≤ i ∧ d k j = 1) r ∧ LinesOk (d i) prev r ∧ GridOk d m (i + 1) r rest

theorem growthLines_spec (d : Nat → Nat → Nat) (m : Nat) (n : Nat) : ∀ (i : Nat) (prev : List GCell), 1 ≤ i →
    (∀ k j, i ≤ k → k < i + n → 1 ≤ j → j ≤ m → d k j = 0 ∨ d k j = 1) →
    (∀ k k' j, 1 ≤ k → k < k' → k' < i + n → 1 ≤ j → j ≤ m → d k j = 1 → d k' j ≠ 1) →
    prev.length = m + 1 → LineOk (fun j => ∃ k, 1 ≤ k ∧ k ≤ i - 1 ∧ d k j = 1) prev →
    ∃ g, growthLines d i n prev = some g ∧ g.length = n ∧ GridOk d m i prev g := by
  induction n with
  | zero =>
    intro i prev _ _ _ _ _
    exact ⟨[], rfl, rfl, trivial⟩
  | succ n ih =>
    intro i prev hi h01 hone hlen hline
    obtain ⟨l, h1, h2, h3, h4⟩ := growthLine_spec (v := d i) (act' := fun j => ∃ k, 1 ≤ k ∧ k ≤ i ∧ d k j = 1) hlen (fun j hj hj' => by
      refine ⟨h01 i j (le_refl _) (by omega) hj hj', ?_, ?_⟩
      · rintro hd ⟨k, hk, hk', hd'⟩
        exact hone k i j hk (by omega) (by omega) hj hj' hd' hd
      · constructor
        · rintro ⟨k, hk, hk', hd⟩
          by_cases he : k = i
          · exact .inr (he ▸ hd)
          · exact .inl ⟨k, hk, by omega, hd⟩
        · rintro (⟨k, hk, hk', hd⟩ | hd)
          · exact ⟨k, hk, by omega, hd⟩
          · exact ⟨i, hi, le_refl _, hd⟩) hline
    obtain ⟨g, h5, h6, h7⟩ := ih (i + 1) l (by omega) (fun k j hk hk' => h01 k j (by omega) (by omega))
      (fun k k' j hk hkk hk' => hone k k' j hk hkk (by omega)) h2 (by rw [Nat.add_sub_cancel]; exact h3)
    refine ⟨l :: g, ?_, by rw [List.length_cons, h6], h2, h3, h4, h7⟩
    rw [growthLines, h1]
    dsimp only
    rw [h5]
    rfl

theorem rowOk_replicate (m j : Nat) (act : Nat → Prop) (hact : ∀ k, ¬ act k) : RowOk act j GCell.init (List.replicate m GCell.init) := by
  induction m generalizing j with
  | zero => trivial
  | succ m ih => exact ⟨strict_init, ⟨fun h => absurd h (hact _), fun _ => ⟨rfl, rfl, rfl⟩⟩, ih (j + 1)⟩

theorem rowOk_get {act : Nat → Prop} (rest : List GCell) : ∀ (j : Nat) (p : GCell), RowOk act j p rest → ∀ k, k < rest.length →
    IsStrict (rest.getD k GCell.init).shape ∧ HStep (act (j + k)) ((p :: rest).getD k GCell.init) (rest.getD k GCell.init) := by
  induction rest with
  | nil => intro j p _ k hk; simp at hk
  | cons c rest ih =>
    rintro j p ⟨h1, h2, h3⟩ k hk
    cases k with
    | zero => exact ⟨h1, h2⟩
    | succ k =>
      have := ih (j + 1) c h3 k (by rw [List.length_cons] at hk; omega)
      rw [show j + (k + 1) = j + 1 + k by omega]
      exact this

theorem rowsOk_get {v : Nat → Nat} (rest : List GCell) : ∀ (l : List GCell) (j : Nat) (p q : GCell), RowsOk v j p q rest l → ∀ k, k < rest.length → k < l.length →
    VStep (rest.getD k GCell.init).shape (l.getD k GCell.init).shape ∧
    ShiftedRule ((p :: rest).getD k GCell.init).shape (rest.getD k GCell.init).shape ((q :: l).getD k GCell.init).shape (rest.getD k GCell.init).edge
      (rest.getD k GCell.init).corner (v (j + k)) (l.getD k GCell.init).shape (l.getD k GCell.init).edge (l.getD k GCell.init).corner := by
  induction rest with
  | nil => intro l j p q _ k hk; simp at hk
  | cons up rest ih =>
    intro l j p q h k hk hk'
    cases l with
    | nil => simp at hk'
    | cons c l =>
      obtain ⟨h1, h2, h3⟩ := h
      cases k with
      | zero => exact ⟨h1, h2⟩
      | succ k =>
        rw [List.length_cons] at hk hk'
        have := ih l (j + 1) up c h3 k (by omega) (by omega)
        rw [show j + (k + 1) = j + 1 + k by omega]
        exact this

/-- The cell at `(i, j)`. -/
def cellAt (g : List (List GCell)) (i j : Nat) : GCell := (g.getD i []).getD j GCell.init

/-- What the cells of a shifted growth diagram have to satisfy. -/
def CellOk (d : Nat → Nat → Nat) (g : List (List GCell)) (i j : Nat) : Prop :=
  IsStrict (cellAt g i j).shape ∧
  (i = 0 ∨ j = 0 → cellAt g i j = GCell.init) ∧
  (1 ≤ i → VStep (cellAt g (i - 1) j).shape (cellAt g i j).shape) ∧
  (1 ≤ j → HStep (∃ k, 1 ≤ k ∧ k ≤ i ∧ d k j = 1) (cellAt g i (j - 1)) (cellAt g i j)) ∧
  (1 ≤ i → 1 ≤ j → ShiftedRule (cellAt g (i - 1) (j - 1)).shape (cellAt g (i - 1) j).shape (cellAt g i (j - 1)).shape (cellAt g (i - 1) j).edge
    (cellAt g (i - 1) j).corner (d i j) (cellAt g i j).shape (cellAt g i j).edge (cellAt g i j).corner)

theorem gridOk_get (d : Nat → Nat → Nat) (m : Nat) (g : List (List GCell)) : ∀ (i : Nat) (prev : List GCell), prev.length = m + 1 → GridOk d m i prev g → ∀ k, k < g.length →
    (g.getD k []).length = m + 1 ∧ ((prev :: g).getD k []).length = m + 1 ∧ LineOk (fun j => ∃ k', 1 ≤ k' ∧ k' ≤ i + k ∧ d k' j = 1) (g.getD k []) ∧
      LinesOk (d (i + k)) ((prev :: g).getD k []) (g.getD k []) := by
  induction g with
  | nil => intro i prev _ _ k hk; simp at hk
  | cons r g ih =>
    rintro i prev hp ⟨h1, h2, h3, h4⟩ k hk
    cases k with
    | zero => exact ⟨h1, hp, h2, h3⟩
    | succ k =>
      rw [List.length_cons] at hk
      have := ih (i + 1) r h1 h4 k (by omega)
      rw [show i + (k + 1) = i + 1 + k by omega]
      exact this

theorem lineOk_get {act : Nat → Prop} {l : List GCell} {m : Nat} (hl : l.length = m + 1) (h : LineOk act l) (j : Nat) (hj : j ≤ m) :
    IsStrict (l.getD j GCell.init).shape ∧ (j = 0 → l.getD j GCell.init = GCell.init) ∧ (1 ≤ j → HStep (act j) (l.getD (j - 1) GCell.init) (l.getD j GCell.init)) := by
  cases l with
  | nil => exact h.elim
  | cons p rest =>
    obtain ⟨rfl, h⟩ := h
    rw [List.length_cons] at hl
    cases j with
    | zero => exact ⟨strict_init, fun _ => rfl, fun h => by omega⟩
    | succ j =>
      have := rowOk_get rest 1 _ h j (by omega)
      rw [Nat.add_comm 1 j] at this
      exact ⟨this.1, fun h => by omega, fun _ => this.2⟩

theorem linesOk_get {v : Nat → Nat} {p l : List GCell} {m : Nat} (hp : p.length = m + 1) (hl : l.length = m + 1) (h : LinesOk v p l) (j : Nat) (h1 : 1 ≤ j) (hj : j ≤ m) :
    VStep (p.getD j GCell.init).shape (l.getD j GCell.init).shape ∧
    ShiftedRule (p.getD (j - 1) GCell.init).shape (p.getD j GCell.init).shape (l.getD (j - 1) GCell.init).shape (p.getD j GCell.init).edge
      (p.getD j GCell.init).corner (v j) (l.getD j GCell.init).shape (l.getD j GCell.init).edge (l.getD j GCell.init).corner := by
  cases p with
  | nil => simp at hp
  | cons q rest =>
    cases l with
    | nil => simp at hl
    | cons r l =>
      rw [List.length_cons] at hp hl
      obtain ⟨k, rfl⟩ : ∃ k, j = k + 1 := ⟨j - 1, by omega⟩
      have := rowsOk_get rest l 1 q r h k (by omega) (by omega)
      rw [Nat.add_comm 1 k] at this
      exact this

/-- C115 for a dictionary with values 0 and 1 and at most one 1 in each column: no exception; the array has `n + 1` rows of `m + 1` cells; the
cells of row 0 and column 0 are empty; all shapes are strict; the steps down are rook strips; the steps to the right add nothing before the 1 of
the column and one box, or a marked corner, after it; and every cell follows from its three neighbours by the local rules. -/
theorem C115_growth (d : Nat → Nat → Nat) (m n : Nat) (h01 : ∀ i j, 1 ≤ i → i ≤ n → 1 ≤ j → j ≤ m → d i j = 0 ∨ d i j = 1)
    (hone : ∀ i i' j, 1 ≤ i → i < i' → i' ≤ n → 1 ≤ j → j ≤ m → d i j = 1 → d i' j ≠ 1) :
    ∃ g, shiftedGrowth d m n = some g ∧ g.length = n + 1 ∧ (∀ r ∈ g, r.length = m + 1) ∧ ∀ i j, i ≤ n → j ≤ m → CellOk d g i j := by
  have hrep : (List.replicate (m + 1) GCell.init).length = m + 1 := List.length_replicate
  have h0 : LineOk (fun j => ∃ k, 1 ≤ k ∧ k ≤ 1 - 1 ∧ d k j = 1) (List.replicate (m + 1) GCell.init) :=
    ⟨rfl, rowOk_replicate m 1 _ (by rintro k ⟨k', h1, h2, -⟩; omega)⟩
  obtain ⟨g, h1, h2, h3⟩ := growthLines_spec d m n 1 (List.replicate (m + 1) GCell.init) (le_refl _)
    (fun k j hk hk' => h01 k j hk (by omega)) (fun k k' j hk hkk hk' => hone k k' j hk hkk (by omega)) hrep h0
  have hget := gridOk_get d m g 1 _ hrep h3
  refine ⟨List.replicate (m + 1) GCell.init :: g, by rw [shiftedGrowth, h1]; rfl, by rw [List.length_cons, h2], ?_, ?_⟩
  · intro r hr
    rcases List.mem_cons.1 hr with rfl | hr
    · exact hrep
    · obtain ⟨k, hk, rfl⟩ := List.mem_iff_getElem.1 hr
      have := (hget k hk).1
      rw [List.getD_eq_getElem _ _ hk] at this
      exact this
  · intro i j hi hj
    cases i with
    | zero =>
      have h5 := lineOk_get hrep h0 j hj
      have h6 : ∀ j, cellAt (List.replicate (m + 1) GCell.init :: g) 0 j = GCell.init := by
        intro j
        change (List.replicate (m + 1) GCell.init).getD j GCell.init = _
        rw [List.getD_eq_getElem?_getD, List.getElem?_replicate]
        split <;> rfl
      refine ⟨h5.1, fun _ => h6 j, fun h => by omega, fun h => ⟨?_, fun _ => ?_⟩, fun h => by omega⟩
      · rintro ⟨k, h7, h8, -⟩
        omega
      · rw [h6, h6]
        exact ⟨rfl, rfl, rfl⟩
    | succ i =>
      obtain ⟨h4, h5, h6, h7⟩ := hget i (by omega)
      obtain ⟨h8, h9, h10⟩ := lineOk_get h4 h6 j hj
      rw [Nat.add_comm 1 i] at h7 h10
      refine ⟨h8, fun h => h9 (by omega), fun _ => ?_, fun h => h10 h, fun _ h => (linesOk_get h5 h4 h7 j h hj).2⟩
      by_cases hj0 : j = 0
      · have hp0 : ((List.replicate (m + 1) GCell.init :: g).getD i []).getD j GCell.init = GCell.init := by
          cases i with
          | zero => rw [hj0]; rfl
          | succ i =>
            obtain ⟨e1, -, e2, -⟩ := hget i (by omega)
            exact (lineOk_get e1 e2 j hj).2.1 hj0
        have e3 := h9 hj0
        change VStep (((List.replicate (m + 1) GCell.init :: g).getD i []).getD j GCell.init).shape ((g.getD i []).getD j GCell.init).shape
        rw [hp0, e3]
        exact vstep_refl _
      · exact (linesOk_get h5 h4 h7 j (by omega) hj).1

theorem wordDict_eq_one {w : List Nat} {i j : Nat} : wordDict w i j = 1 ↔ 1 ≤ j ∧ w[j - 1]? = some i := by
  rw [wordDict]
  split
  · simp_all
  · rename_i h
    simp only [reduceCtorEq, false_iff]
    exact h

/-- C115 for a word: every letter `w_j` adds a box to the shapes of column `j`, or marks a corner, from the row `w_j` on. -/
theorem C115_word (w : List Nat) :
    ∃ g, shiftedGrowthWord w = some g ∧ g.length = w.foldl max 0 + 1 ∧ (∀ r ∈ g, r.length = w.length + 1) ∧
      (∀ i j, i ≤ w.foldl max 0 → j ≤ w.length → CellOk (wordDict w) g i j) ∧
      ∀ i j a, i ≤ w.foldl max 0 → w[j]? = some a → 1 ≤ a → HStep (a ≤ i) (cellAt g i j) (cellAt g i (j + 1)) := by
  obtain ⟨g, h1, h2, h3, h4⟩ := C115_growth (wordDict w) w.length (w.foldl max 0)
    (fun i j _ _ _ _ => by rw [wordDict]; split <;> simp) (fun i i' j _ hlt _ _ _ h h' => by
      rw [wordDict_eq_one] at h h'
      rw [h.2] at h'
      have := h'.2
      rw [Option.some.injEq] at this
      omega)
  refine ⟨g, h1, h2, h3, h4, fun i j a hi hj ha => ?_⟩
  have hlt : j < w.length := by
    by_contra hc
    rw [List.getElem?_eq_none (by omega)] at hj
    cases hj
  have := (h4 i (j + 1) hi (by omega)).2.2.2.1 (by omega)
  rw [Nat.add_sub_cancel] at this
  refine (hstep_congr ?_).1 this
  constructor
  · rintro ⟨k, h5, h6, h7⟩
    rw [wordDict_eq_one, Nat.add_sub_cancel, hj, Option.some.injEq] at h7
    omega
  · intro h5
    exact ⟨a, ha, h5, wordDict_eq_one.2 ⟨by omega, by rw [Nat.add_sub_cancel, hj]⟩⟩

/-- The diagram of tests/test_growth.py for the word 4211232. -/
example : (shiftedGrowthWord [4, 2, 1, 1, 2, 3, 2]).map (fun g => g.map (fun r => r.map (fun c => c.shape))) =
    some [[[], [], [], [], [], [], [], []], [[], [], [], [1], [1], [1], [1], [1]], [[], [], [1], [2], [2], [2], [2], [2]],
      [[], [], [1], [2], [2], [2], [3], [3, 1]], [[], [1], [2], [3], [3], [3, 1], [3, 1], [3, 2]]] := by decide +kernel
example : (shiftedGrowthWord [4, 2, 1, 1, 2, 3, 2]).map (fun g => (g.getD 4 []).map (fun c => (c.edge, c.corner))) =
    some [(false, none), (false, none), (true, none), (true, none), (true, some 3), (false, none), (false, some 2), (true, none)] := by decide +kernel

end Verif.Partition
