import Verif.Model.GrowthTableaux
import Verif.Lemmas.ShiftedStd
import Verif.Lemmas.RppStrips
import Verif.Props.ShiftedGrowth

/-! # C116: the tableaux of a shifted growth diagram -/

namespace Verif.Tableaux
open Partition Verif.Part Verif.FInsertion
attribute [-simp] List.getD_eq_getElem?_getD

/-- The step from `p` to `c` touches the box: it is new, or it is the marked corner. -/
def Touches (p c : GCell) (B : Nat × Nat) : Prop :=
  (B ∉ ShiftedDiagram p.shape ∧ ShiftedDiagram c.shape = ShiftedDiagram p.shape ∪ {B}) ∨
  (c.shape = p.shape ∧ B ∈ Corners (ShiftedDiagram p.shape) ∧ (c.edge = false ∧ c.corner = some B.1 ∨ c.edge = true ∧ c.corner = some B.2))

/-! ### The first tableau -/

section
variable {S : Nat → List Nat} {n : Nat}

theorem chain_mono (hsub : ∀ i, i < n → ShiftedDiagram (S i) ⊆ ShiftedDiagram (S (i + 1))) {i j : Nat} (hij : i ≤ j) (hj : j ≤ n) :
    ShiftedDiagram (S i) ⊆ ShiftedDiagram (S j) := by
  induction j with
  | zero =>
    have : i = 0 := by omega
    rw [this]
  | succ j ih =>
    rcases Nat.eq_or_lt_of_le hij with rfl | h
    · exact fun _ h => h
    · exact fun _ h' => hsub j (by omega) (ih (by omega) (by omega) h')

/-- The step at which a box appears. -/
theorem chain_first (h0 : ShiftedDiagram (S 0) = ∅) {k : Nat} {B : Nat × Nat} (hB : B ∈ ShiftedDiagram (S k)) :
    ∃ i, i < k ∧ B ∈ ShiftedDiagram (S (i + 1)) ∧ B ∉ ShiftedDiagram (S i) := by
  induction k with
  | zero =>
    rw [h0] at hB
    exact absurd hB (Set.notMem_empty _)
  | succ k ih =>
    by_cases h : B ∈ ShiftedDiagram (S k)
    · obtain ⟨i, h1, h2⟩ := ih h
      exact ⟨i, by omega, h2⟩
    · exact ⟨k, by omega, hB, h⟩

theorem growthP_spec (g : List (List GCell)) (m : Nat) (hS : ∀ i, S i = (growthEntry g i m).shape) (hstrict : ∀ i, i ≤ n → IsStrict (S i))
    (h0 : ShiftedDiagram (S 0) = ∅) (hsub : ∀ i, i < n → ShiftedDiagram (S i) ⊆ ShiftedDiagram (S (i + 1))) : ∀ k, k ≤ n →
    (∀ B, B ∉ ShiftedDiagram (S k) → (growthP g m k).get? B = none) ∧
    (∀ B i, i < k → B ∈ ShiftedDiagram (S (i + 1)) → B ∉ ShiftedDiagram (S i) → (growthP g m k).get? B = some [((i + 1 : Nat) : Int)]) := by
  intro k
  induction k with
  | zero => exact fun _ => ⟨fun B _ => rfl, fun B i hi => by omega⟩
  | succ k ih =>
    intro hk
    obtain ⟨h1, h2⟩ := ih (by omega)
    have hent : ∀ B, (B ∉ ShiftedDiagram (S k) ∧ (growthP g m k).ent B = []) ∨ ∃ i, i < k ∧ (growthP g m k).ent B = [((i + 1 : Nat) : Int)] := by
      intro B
      by_cases hB : B ∈ ShiftedDiagram (S k)
      · obtain ⟨i, h3, h4, h5⟩ := chain_first h0 hB
        exact .inr ⟨i, h3, by rw [Tab.ent, h2 B i h3 h4 h5]; rfl⟩
      · exact .inl ⟨hB, by rw [Tab.ent, h1 B hB]; rfl⟩
    have hsk : ∀ B, B ∈ skew (S (k + 1)) (S k) true ↔ B ∈ ShiftedDiagram (S (k + 1)) \ ShiftedDiagram (S k) :=
      fun B => C23_skew_shifted (hstrict _ (by omega)) (hstrict _ (by omega)) B
    have hget := get?_addAll (skew (S (k + 1)) (S k) true) (nodup_skewFrom _ _ _ _) ((k + 1 : Nat) : Int) (growthP g m k)
      (fun B => by
        rcases hent B with ⟨-, h⟩ | ⟨i, -, h⟩ <;> rw [h] <;> simp)
      (fun B x hx => by
        rcases hent B with ⟨-, h⟩ | ⟨i, hi, h⟩ <;> rw [h] at hx <;> simp at hx
        omega)
    have hP : growthP g m (k + 1) = addAll (skew (S (k + 1)) (S k) true) ((k + 1 : Nat) : Int) (growthP g m k) := by
      rw [hS, hS]; rfl
    rw [hP]
    constructor
    · intro B hB
      rw [hget, if_neg (fun h => hB ((hsk B).1 h).1)]
      exact h1 B (fun h => hB (hsub k (by omega) h))
    · intro B i hi h3 h4
      rw [hget]
      rcases Nat.eq_or_lt_of_le (Nat.lt_succ_iff.1 hi) with rfl | hlt
      · rw [if_pos ((hsk B).2 ⟨h3, h4⟩)]
        rcases hent B with ⟨-, h⟩ | ⟨i', hi', h⟩
        · rw [h]; rfl
        · rw [Tab.ent, h1 B h4] at h
          cases h
      · rw [if_neg (fun h => ((hsk B).1 h).2 (chain_mono hsub (show i + 1 ≤ k by omega) (by omega) h3))]
        exact h2 B i hlt h3 h4

end

/-! ### The second tableau -/

theorem mem_keys_iff {Q : Tab} {B : Nat × Nat} : (∃ s, (B, s) ∈ Q.items) ↔ Q.get? B ≠ none := by
  constructor
  · rintro ⟨s, h⟩ h'
    rw [Tab.get?_eq_some.2 h] at h'
    cases h'
  · intro h
    obtain ⟨s, hs⟩ := Option.ne_none_iff_exists'.1 h
    exact ⟨s, Tab.get?_eq_some.1 hs⟩

theorem lastBoxInRow_eq {Q : Tab} {lam : List Nat} (hl : IsStrict lam) (hQ : ∀ B, Q.get? B ≠ none ↔ B ∈ ShiftedDiagram lam) {a b : Nat}
    (hB : (a, b) ∈ Corners (ShiftedDiagram lam)) : lastBoxInRow Q a = some b := by
  rw [lastBoxInRow, List.max?_eq_some_iff]
  constructor
  · obtain ⟨s, hs⟩ := mem_keys_iff.2 ((hQ (a, b)).2 hB.1)
    exact List.mem_map.2 ⟨_, List.mem_filter.2 ⟨hs, by simp⟩, rfl⟩
  · intro y hy
    obtain ⟨⟨⟨x, y'⟩, s⟩, h1, rfl⟩ := List.mem_map.1 hy
    obtain ⟨h0, h2⟩ := List.mem_filter.1 h1
    rw [decide_eq_true_eq] at h2
    dsimp only at h2 ⊢
    subst h2
    have h3 := (hQ _).1 (mem_keys_iff.1 ⟨s, h0⟩)
    by_contra hc
    have := (shapeSet_of hl).pos _ _ hB.1
    exact hB.2.2 ((shapeSet_of hl).left _ _ (b + 1) h3 (by omega) (by omega))

theorem lastBoxInColumn_eq {Q : Tab} {lam : List Nat} (hl : IsStrict lam) (hQ : ∀ B, Q.get? B ≠ none ↔ B ∈ ShiftedDiagram lam) {a b : Nat}
    (hB : (a, b) ∈ Corners (ShiftedDiagram lam)) : lastBoxInColumn Q b = some a := by
  rw [lastBoxInColumn, List.max?_eq_some_iff]
  constructor
  · obtain ⟨s, hs⟩ := mem_keys_iff.2 ((hQ (a, b)).2 hB.1)
    exact List.mem_map.2 ⟨_, List.mem_filter.2 ⟨hs, by simp⟩, rfl⟩
  · intro y hy
    obtain ⟨⟨⟨x, y'⟩, s⟩, h1, rfl⟩ := List.mem_map.1 hy
    obtain ⟨h0, h2⟩ := List.mem_filter.1 h1
    rw [decide_eq_true_eq] at h2
    dsimp only at h2 ⊢
    subst h2
    have h3 := (hQ _).1 (mem_keys_iff.1 ⟨s, h0⟩)
    by_contra hc
    exact hB.2.1 ((shapeSet_of hl).up _ _ (a + 1) h3 (by omega) (by omega))

theorem touches_mem {p c : GCell} {B : Nat × Nat} (h : Touches p c B) : B ∈ ShiftedDiagram c.shape := by
  rcases h with ⟨-, h⟩ | ⟨h, h1, -⟩
  · rw [h]; exact .inr rfl
  · rw [h]; exact h1.1

theorem touches_shape {p c : GCell} {B : Nat × Nat} (h : Touches p c B) : ShiftedDiagram c.shape = ShiftedDiagram p.shape ∪ {B} := by
  rcases h with ⟨-, h⟩ | ⟨h, h1, -⟩
  · exact h
  · rw [h, Set.union_eq_self_of_subset_right]
    exact Set.singleton_subset_iff.2 h1.1

theorem touches_unique {p c : GCell} {B B' : Nat × Nat} (hp : IsStrict p.shape) (h : Touches p c B) (h' : Touches p c B') : B = B' := by
  rcases h with ⟨h1, h2⟩ | ⟨h1, h2, h3⟩ <;> rcases h' with ⟨h1', h2'⟩ | ⟨h1', h2', h3'⟩
  · have : B ∈ ShiftedDiagram p.shape ∪ {B'} := by rw [← h2', h2]; exact .inr rfl
    rcases this with h | h
    · exact absurd h h1
    · exact h
  · exact absurd (show B ∈ ShiftedDiagram p.shape by rw [← h1', h2]; exact .inr rfl) h1
  · exact absurd (show B' ∈ ShiftedDiagram p.shape by rw [← h1, h2']; exact .inr rfl) h1'
  · have hQ := shapeSet_of hp
    obtain ⟨a, b⟩ := B
    obtain ⟨a', b'⟩ := B'
    dsimp only at h3 h3'
    have hpos := hQ.pos _ _ h2.1
    have hpos' := hQ.pos _ _ h2'.1
    rcases h3 with ⟨e1, e2⟩ | ⟨e1, e2⟩ <;> rcases h3' with ⟨e1', e2'⟩ | ⟨e1', e2'⟩
    · rw [e2, Option.some.injEq] at e2'
      subst e2'
      by_contra hne
      rcases Nat.lt_trichotomy b b' with h | h | h
      · exact h2.2.2 (hQ.left _ _ (b + 1) h2'.1 (by omega) (by omega))
      · exact hne (by rw [h])
      · exact h2'.2.2 (hQ.left _ _ (b' + 1) h2.1 (by omega) (by omega))
    · rw [e1] at e1'; cases e1'
    · rw [e1] at e1'; cases e1'
    · rw [e2, Option.some.injEq] at e2'
      subst e2'
      by_contra hne
      rcases Nat.lt_trichotomy a a' with h | h | h
      · exact h2.2.1 (hQ.up _ _ (a + 1) h2'.1 (by omega) (by omega))
      · exact hne (by rw [h])
      · exact h2'.2.1 (hQ.up _ _ (a' + 1) h2.1 (by omega) (by omega))

theorem hstep_touches {p c : GCell} (h : HAdd p.shape c.shape c.edge c.corner ∨ HCorner p.shape c.shape c.edge c.corner) :
    ∃ B, Touches p c B ∧ (c.edge = true → B.1 ≠ B.2) := by
  rcases h with ⟨-, a, b, h1, h2, h3⟩ | ⟨h1, a, b, h2, h3⟩
  · exact ⟨(a, b), .inl ⟨h1, h2⟩, h3⟩
  · refine ⟨(a, b), .inr ⟨h1, h2, ?_⟩, fun h4 => ?_⟩
    · rcases h3 with h3 | h3
      · exact .inl h3
      · exact .inr ⟨h3.1, h3.2.1⟩
    · rcases h3 with h3 | h3
      · rw [h3.1] at h4; cases h4
      · exact h3.2.2

theorem growthQStep_eq {g : List (List GCell)} {n k : Nat} {Q : Tab} {B : Nat × Nat} (h1 : IsStrict (growthEntry g n k).shape)
    (h2 : IsStrict (growthEntry g n (k + 1)).shape) (hQ : ∀ B, Q.get? B ≠ none ↔ B ∈ ShiftedDiagram (growthEntry g n k).shape)
    (hT : Touches (growthEntry g n k) (growthEntry g n (k + 1)) B) {ε : Nat → Bool} (hε : ε k = (growthEntry g n (k + 1)).edge) :
    growthQStep g n (k + 1) Q = some (Q.add B (val ε k)) := by
  have hv : (if (growthEntry g n (k + 1)).edge then -((k + 1 : Nat) : Int) else ((k + 1 : Nat) : Int)) = val ε k := by
    rw [val, sg, hε, Nat.cast_succ]
  rw [growthQStep]
  simp only [Nat.add_sub_cancel, hv]
  rcases hT with ⟨h3, h4⟩ | ⟨h3, h4, h5⟩
  · rw [if_pos]
    · have hsk : ∀ C, C ∈ skew (growthEntry g n (k + 1)).shape (growthEntry g n k).shape true ↔ C = B := by
        intro C
        rw [C23_skew_shifted h2 h1, h4]
        constructor
        · rintro ⟨h5 | h5, h6⟩
          · exact absurd h5 h6
          · exact h5
        · rintro rfl
          exact ⟨.inr rfl, h3⟩
      cases hs : skew (growthEntry g n (k + 1)).shape (growthEntry g n k).shape true with
      | nil =>
        have := (hsk B).2 rfl
        rw [hs] at this
        simp at this
      | cons C rest =>
        have : C = B := (hsk C).1 (by rw [hs]; exact List.mem_cons_self ..)
        rw [this]
    · intro h5
      rw [h5] at h4
      exact h3 (by rw [h4]; exact .inr rfl)
  · rw [if_neg (fun h => h h3)]
    obtain ⟨a, b⟩ := B
    rcases h5 with ⟨h5, h6⟩ | ⟨h5, h6⟩
    · rw [h6]
      dsimp only
      rw [if_neg, lastBoxInRow_eq h1 hQ h4]
      · rfl
      · rw [val, hε, h5, sg, if_neg (by decide)]
        omega
    · rw [h6]
      dsimp only
      rw [if_pos, lastBoxInColumn_eq h1 hQ h4]
      · rfl
      · rw [val, hε, h5, sg, if_pos rfl]
        omega

theorem growthQ_spec (g : List (List GCell)) (n m : Nat) (β : Nat → Nat × Nat) (ε : Nat → Bool) (h0 : ShiftedDiagram (growthEntry g n 0).shape = ∅)
    (hstrict : ∀ j, j ≤ m → IsStrict (growthEntry g n j).shape) (hT : ∀ k, k < m → Touches (growthEntry g n k) (growthEntry g n (k + 1)) (β k))
    (hε : ∀ k, k < m → ε k = (growthEntry g n (k + 1)).edge) : ∀ k, k ≤ m →
    ∃ Q, growthQ g n k = some Q ∧ SStd Q β ε k ∧ ∀ B, Q.get? B ≠ none ↔ B ∈ ShiftedDiagram (growthEntry g n k).shape := by
  intro k
  induction k with
  | zero =>
    intro _
    refine ⟨Tab.empty, rfl, sstd_empty, fun B => ?_⟩
    rw [h0, Tab.get?_empty]
    simp
  | succ k ih =>
    intro hk
    obtain ⟨Q, h1, h2, h3⟩ := ih (by omega)
    refine ⟨Q.add (β k) (val ε k), ?_, h2.step, fun B => ?_⟩
    · rw [growthQ, h1, Option.bind_some]
      exact growthQStep_eq (hstrict k (by omega)) (hstrict (k + 1) hk) h3 (hT k (by omega)) (hε k (by omega))
    · rw [Tab.get?_add, touches_shape (hT k (by omega)), Set.mem_union, ← h3 B, Set.mem_singleton_iff]
      split
      · simp_all
      · simp_all

/-- A shifted tableau with one entry in each box, strictly increasing along rows and columns. -/
structure IsIncreasingShifted (T : Tab) (lam : List Nat) : Prop where
  shape : ∀ B, T.get? B ≠ none ↔ B ∈ ShiftedDiagram lam
  single : ∀ B s, T.get? B = some s → ∃ v, s = [v]
  order : ∀ x y x' y' v v', T.get? (x, y) = some [v] → T.get? (x', y') = some [v'] → x ≤ x' → y ≤ y' → (x, y) ≠ (x', y') → v < v'

/-- A standard set-valued shifted tableau with signs: the numbers `1, ..., m` appear once up to sign, none negative on the diagonal. -/
structure IsStandardSetShifted (T : Tab) (lam : List Nat) (m : Nat) : Prop where
  shape : ∀ B, T.get? B ≠ none ↔ B ∈ ShiftedDiagram lam
  nonempty : ∀ B s, T.get? B = some s → s ≠ []
  sorted : ∀ B s, T.get? B = some s → s.Pairwise (· < ·)
  range : ∀ B s v, T.get? B = some s → v ∈ s → 1 ≤ v.natAbs ∧ v.natAbs ≤ m
  once : ∀ j, 1 ≤ j → j ≤ m → ∃! Bv : (Nat × Nat) × Int, Bv.2.natAbs = j ∧ ∃ s, T.get? Bv.1 = some s ∧ Bv.2 ∈ s
  order : ∀ x y x' y' s s' v v', T.get? (x, y) = some s → T.get? (x', y') = some s' → v ∈ s → v' ∈ s' → x ≤ x' → y ≤ y' → (x, y) ≠ (x', y') →
    v.natAbs < v'.natAbs
  diagonal : ∀ x s v, T.get? (x, x) = some s → v ∈ s → 0 < v

/-- Boxes to the north-west. -/
theorem shape_nw {D : Set (Nat × Nat)} (hD : ShapeSet D) {x y x' y' : Nat} (h : (x', y') ∈ D) (h1 : 1 ≤ x) (hxy : x ≤ y) (hx : x ≤ x') (hy : y ≤ y') : (x, y) ∈ D :=
  hD.left _ _ y (hD.up _ _ x h h1 hx) hxy hy

/-- C116 for a diagram with the properties of C115 and a 1 in every column. -/
theorem C116_diagram (d : Nat → Nat → Nat) (m n : Nat) (g : List (List GCell)) (hn : g.length = n + 1) (hm : ∀ r ∈ g, r.length = m + 1)
    (hg : ∀ i j, i ≤ n → j ≤ m → CellOk d g i j) (hd : ∀ j, 1 ≤ j → j ≤ m → ∃ k, 1 ≤ k ∧ k ≤ n ∧ d k j = 1) :
    ∃ p q, fromShiftedGrowth g = some (p, q) ∧ IsIncreasingShifted p (cellAt g n m).shape ∧ IsStandardSetShifted q (cellAt g n m).shape m ∧
      (∀ B v, p.get? B = some [v] ↔ ∃ i : Nat, 1 ≤ i ∧ i ≤ n ∧ v = i ∧ B ∈ ShiftedDiagram (cellAt g i m).shape ∧ B ∉ ShiftedDiagram (cellAt g (i - 1) m).shape) ∧
      (∀ B v, (∃ s, q.get? B = some s ∧ v ∈ s) ↔ ∃ j, 1 ≤ j ∧ j ≤ m ∧ v = (if (cellAt g n j).edge then -(j : Int) else j) ∧
        Touches (cellAt g n (j - 1)) (cellAt g n j) B) := by
  have hstrict : ∀ i j, i ≤ n → j ≤ m → IsStrict (cellAt g i j).shape := fun i j hi hj => (hg i j hi hj).1
  have hempty : ∀ i j, i ≤ n → j ≤ m → i = 0 ∨ j = 0 → ShiftedDiagram (cellAt g i j).shape = ∅ := by
    intro i j hi hj h
    rw [(hg i j hi hj).2.1 h]
    ext ⟨x, y⟩
    rw [mem_shiftedDiagram]
    simp [GCell.init, List.getD_nil]
  have hV : ∀ i, i < n → VStep (cellAt g i m).shape (cellAt g (i + 1) m).shape := fun i hi => by
    have := (hg (i + 1) m (by omega) (le_refl _)).2.2.1 (by omega)
    rwa [Nat.add_sub_cancel] at this
  have hlen : (g.getD 0 []).length - 1 = m := by
    cases g with
    | nil => simp at hn
    | cons r g =>
      have := hm r (List.mem_cons_self ..)
      change r.length - 1 = m
      omega
  -- the second tableau
  have hB : ∀ k, ∃ B, k < m → Touches (cellAt g n k) (cellAt g n (k + 1)) B ∧ ((cellAt g n (k + 1)).edge = true → B.1 ≠ B.2) := by
    intro k
    by_cases hk : k < m
    · have h1 := (hg n (k + 1) (le_refl _) (by omega)).2.2.2.1 (by omega)
      rw [Nat.add_sub_cancel] at h1
      obtain ⟨B, hB⟩ := hstep_touches (h1.1 (hd (k + 1) (by omega) (by omega)))
      exact ⟨B, fun _ => hB⟩
    · exact ⟨(0, 0), fun h => absurd h hk⟩
  choose β hβ using hB
  obtain ⟨Q, hQ1, hQ2, hQ3⟩ := growthQ_spec g n m β (fun k => (cellAt g n (k + 1)).edge) (hempty n 0 (le_refl _) (by omega) (.inr rfl))
    (fun j hj => hstrict n j (le_refl _) hj) (fun k hk => (hβ k hk).1) (fun k _ => rfl) m (le_refl _)
  obtain ⟨hP1, hP2⟩ := growthP_spec (S := fun i => (cellAt g i m).shape) (n := n) g m (fun i => rfl) (fun i hi => hstrict i m hi (le_refl _))
    (hempty 0 m (by omega) (le_refl _) (.inl rfl)) (fun i hi => (hV i hi).1) n (le_refl _)
  have hPmono : ∀ {i j : Nat}, i ≤ j → j ≤ n → ShiftedDiagram (cellAt g i m).shape ⊆ ShiftedDiagram (cellAt g j m).shape :=
    fun h h' => chain_mono (S := fun i => (cellAt g i m).shape) (fun i hi => (hV i hi).1) h h'
  have hQmono : ∀ {i j : Nat}, i ≤ j → j ≤ m → ShiftedDiagram (cellAt g n i).shape ⊆ ShiftedDiagram (cellAt g n j).shape :=
    fun h h' => chain_mono (S := fun i => (cellAt g n i).shape) (fun i hi => by
      rw [touches_shape (hβ i hi).1]
      exact Set.subset_union_left) h h'
  have hPfirst : ∀ {B : Nat × Nat} {s : List Int}, (growthP g m n).get? B = some s →
      ∃ i, i < n ∧ s = [((i + 1 : Nat) : Int)] ∧ B ∈ ShiftedDiagram (cellAt g (i + 1) m).shape ∧ B ∉ ShiftedDiagram (cellAt g i m).shape := by
    intro B s hs
    by_cases h : B ∈ ShiftedDiagram (cellAt g n m).shape
    · obtain ⟨i, h1, h2, h3⟩ := chain_first (S := fun i => (cellAt g i m).shape) (hempty 0 m (by omega) (le_refl _) (.inl rfl)) h
      have := hP2 B i h1 h2 h3
      rw [hs, Option.some.injEq] at this
      exact ⟨i, h1, this, h2, h3⟩
    · rw [hP1 B h] at hs
      cases hs
  have hQmem : ∀ {B : Nat × Nat} {s : List Int} {v : Int}, Q.get? B = some s → v ∈ s →
      ∃ k, k < m ∧ v.natAbs = k + 1 ∧ v = (if (cellAt g n (k + 1)).edge then -((k + 1 : Nat) : Int) else ((k + 1 : Nat) : Int)) ∧ β k = B := by
    intro B s v hs hv
    have h1 := hQ2.ent B
    rw [Tab.ent, hs, Option.getD_some] at h1
    rw [h1, mem_sortInts, mem_rawList] at hv
    obtain ⟨k, h2, h3, h4⟩ := hv
    refine ⟨k, h2, by rw [h4, val_natAbs], ?_, h3⟩
    rw [h4, val, sg, Nat.cast_succ]
  have hQin : ∀ k, k < m → ∃ s, Q.get? (β k) = some s ∧ (if (cellAt g n (k + 1)).edge then -((k + 1 : Nat) : Int) else ((k + 1 : Nat) : Int)) ∈ s := by
    intro k hk
    have hmem : val (fun k => (cellAt g n (k + 1)).edge) k ∈ Q.ent (β k) := by
      rw [hQ2.ent, mem_sortInts, mem_rawList]
      exact ⟨k, hk, rfl, rfl⟩
    have hne := (hQ3 (β k)).2 (hQmono (show k + 1 ≤ m by omega) (le_refl _) (touches_mem (hβ k hk).1))
    obtain ⟨s, hs⟩ := Option.ne_none_iff_exists'.1 hne
    refine ⟨s, hs, ?_⟩
    rw [Tab.ent, hs, Option.getD_some, val, sg] at hmem
    rw [Nat.cast_succ]
    exact hmem
  refine ⟨growthP g m n, Q, ?_, ⟨?_, ?_, ?_⟩, ⟨hQ3, ?_, ?_, ?_, ?_, ?_, ?_⟩, ?_, ?_⟩
  · rw [fromShiftedGrowth]
    simp only [hn, Nat.add_sub_cancel, hlen, hQ1]
    rfl
  · intro B
    constructor
    · intro h
      by_contra hc
      exact h (hP1 B hc)
    · intro h
      obtain ⟨i, h1, h2, h3⟩ := chain_first (S := fun i => (cellAt g i m).shape) (hempty 0 m (by omega) (le_refl _) (.inl rfl)) h
      rw [hP2 B i h1 h2 h3]
      simp
  · intro B s hs
    obtain ⟨i, -, h, -⟩ := hPfirst hs
    exact ⟨_, h⟩
  · intro x y x' y' v v' h1 h2 hx hy hne
    obtain ⟨i, hi, e1, h3, h4⟩ := hPfirst h1
    obtain ⟨i', hi', e2, h5, h6⟩ := hPfirst h2
    rw [List.cons.injEq] at e1 e2
    rw [e1.1, e2.1]
    have s1 := shapeSet_of (hstrict (i + 1) m (by omega) (le_refl _))
    have s0 := shapeSet_of (hstrict i m (by omega) (le_refl _))
    have s1' := shapeSet_of (hstrict (i' + 1) m (by omega) (le_refl _))
    have hpos := s1.pos _ _ h3
    have h7 : (x, y) ∈ ShiftedDiagram (cellAt g (i' + 1) m).shape := shape_nw s1' h5 hpos.1 hpos.2 hx hy
    have h8 : i ≤ i' := by
      by_contra hc
      exact h4 (hPmono (show i' + 1 ≤ i by omega) (by omega) h7)
    rcases Nat.eq_or_lt_of_le h8 with rfl | hlt
    · exfalso
      have h9 : (x, y') ∈ ShiftedDiagram (cellAt g (i + 1) m).shape := s1.up _ _ x h5 hpos.1 hx
      have h10 : (x, y') ∉ ShiftedDiagram (cellAt g i m).shape := fun h => h4 (s0.left _ _ y h hpos.2 hy)
      have e3 := (hV i hi).2 _ ⟨h3, h4⟩ _ ⟨h9, h10⟩ (.inl rfl)
      have e4 := (hV i hi).2 _ ⟨h5, h6⟩ _ ⟨h9, h10⟩ (.inr rfl)
      exact hne (e3.trans e4.symm)
    · omega
  · intro B s hs
    have := hQ2 B
    rw [hs] at this
    split at this
    · cases this
    · rename_i h1
      rw [Option.some.injEq] at this
      rw [this]
      intro h2
      have h3 : (rawList β (fun k => (cellAt g n (k + 1)).edge) m B).length = 0 := by
        rw [← (List.perm_insertionSort (· ≤ ·) _).length_eq]
        exact congrArg List.length h2
      exact h1 (List.length_eq_zero_iff.1 h3)
  · intro B s hs
    have h1 := hQ2.ent B
    rw [Tab.ent, hs, Option.getD_some] at h1
    rw [h1]
    exact ((sortInts_sorted _).and (sortInts_nodup (rawList_nodup m B))).imp (fun h => lt_of_le_of_ne h.1 h.2)
  · intro B s v hs hv
    obtain ⟨k, h1, h2, -⟩ := hQmem hs hv
    omega
  · intro j h1 hj
    obtain ⟨s, hs, hv⟩ := hQin (j - 1) (by omega)
    obtain ⟨u, hu⟩ : ∃ u, (if (cellAt g n (j - 1 + 1)).edge then -((j - 1 + 1 : Nat) : Int) else ((j - 1 + 1 : Nat) : Int)) = u := ⟨_, rfl⟩
    rw [hu] at hv
    refine ⟨(β (j - 1), u), ⟨?_, s, hs, hv⟩, ?_⟩
    · dsimp only
      rw [← hu]
      split <;> omega
    · rintro ⟨B, v⟩ ⟨h2, s', h3, h4⟩
      dsimp only at h2 h3 h4
      obtain ⟨k, h5, h6, h7, h8⟩ := hQmem h3 h4
      have : k = j - 1 := by omega
      subst this
      rw [h8, h7, hu]
  · intro x y x' y' s s' v v' h1 h2 hv hv' hx hy hne
    obtain ⟨k, hk, h3, -, h4⟩ := hQmem h1 hv
    obtain ⟨k', hk', h5, -, h6⟩ := hQmem h2 hv'
    rw [h3, h5]
    by_contra hc
    have hT := (hβ k hk).1
    rw [h4] at hT
    have hT' := touches_mem (hβ k' hk').1
    rw [h6] at hT'
    have hkk : k' ≠ k := by
      rintro rfl
      exact hne (h4.symm.trans h6)
    have h7 : (x', y') ∈ ShiftedDiagram (cellAt g n k).shape := hQmono (show k' + 1 ≤ k by omega) (by omega) hT'
    have sk := shapeSet_of (hstrict n k (le_refl _) (by omega))
    have hpos := (shapeSet_of (hstrict n (k + 1) (le_refl _) (by omega))).pos _ _ (touches_mem hT)
    rcases hT with ⟨h8, -⟩ | ⟨-, h8, -⟩
    · exact h8 (shape_nw sk h7 hpos.1 hpos.2 hx hy)
    · by_cases hyy : y = y'
      · have : x ≠ x' := fun h => hne (by rw [h, hyy])
        subst hyy
        exact h8.2.1 (sk.up _ _ (x + 1) h7 (by omega) (by omega))
      · exact h8.2.2 (shape_nw sk h7 hpos.1 (by omega) hx (by omega))
  · intro x s v hs hv
    obtain ⟨k, hk, -, h1, h2⟩ := hQmem hs hv
    have := (hβ k hk).2
    rw [h2] at this
    rw [h1, if_neg (fun h => this h rfl)]
    omega
  · intro B v
    constructor
    · intro h
      obtain ⟨i, h1, h2, h3, h4⟩ := hPfirst h
      rw [List.cons.injEq] at h2
      exact ⟨i + 1, by omega, by omega, h2.1, h3, by rw [Nat.add_sub_cancel]; exact h4⟩
    · rintro ⟨i, h1, h2, rfl, h3, h4⟩
      obtain ⟨i, rfl⟩ : ∃ i', i = i' + 1 := ⟨i - 1, by omega⟩
      rw [Nat.add_sub_cancel] at h4
      exact hP2 B i (by omega) h3 h4
  · intro B v
    constructor
    · rintro ⟨s, hs, hv⟩
      obtain ⟨k, hk, -, h1, h2⟩ := hQmem hs hv
      refine ⟨k + 1, by omega, by omega, h1, ?_⟩
      rw [Nat.add_sub_cancel, ← h2]
      exact (hβ k hk).1
    · rintro ⟨j, h1, h2, h3, h4⟩
      obtain ⟨k, rfl⟩ : ∃ k, j = k + 1 := ⟨j - 1, by omega⟩
      rw [Nat.add_sub_cancel] at h4
      have := touches_unique (hstrict n k (le_refl _) (by omega)) h4 (hβ k (by omega)).1
      rw [this, h3]
      exact hQin k (by omega)

/-- C116 for words of positive ints. -/
theorem C116_word (w : List Nat) (hw : ∀ a ∈ w, 1 ≤ a) :
    ∃ g p q lam, shiftedGrowthWord w = some g ∧ fromShiftedGrowth g = some (p, q) ∧ IsStrict lam ∧ IsIncreasingShifted p lam ∧ IsStandardSetShifted q lam w.length ∧
      (∀ B s v, p.get? B = some s → v ∈ s → 1 ≤ v ∧ v ≤ (w.foldl max 0 : Nat)) := by
  obtain ⟨g, h1, h2, h3, h4, -⟩ := C115_word w
  obtain ⟨p, q, h5, h6, h7, h8, -⟩ := C116_diagram (wordDict w) w.length (w.foldl max 0) g h2 h3 h4 (by
    intro j hj hj'
    obtain ⟨a, ha⟩ : ∃ a, w[j - 1]? = some a := ⟨w[j - 1]'(by omega), List.getElem?_eq_getElem _⟩
    have hmem := List.mem_of_getElem? ha
    exact ⟨a, hw a hmem, (foldl_max_ge w 0).2 a hmem, wordDict_eq_one.2 ⟨hj, ha⟩⟩)
  refine ⟨g, p, q, _, h1, h5, (h4 _ _ (le_refl _) (le_refl _)).1, h6, h7, ?_⟩
  intro B s v hs hv
  obtain ⟨v', rfl⟩ := h6.single B s hs
  rw [List.mem_singleton] at hv
  subst hv
  obtain ⟨i, h9, h10, h11, -⟩ := (h8 B v).1 hs
  omega

/-- The tableaux of the word 4211232: the boxes with their entries. -/
example : ((shiftedGrowthWord [4, 2, 1, 1, 2, 3, 2]).bind fromShiftedGrowth).map (fun r => (r.1.items, r.2.items)) =
    some ([((1, 1), [1]), ((1, 2), [2]), ((1, 3), [3]), ((2, 2), [3]), ((2, 3), [4])],
      [((1, 1), [1]), ((1, 2), [-2]), ((1, 3), [-4, -3]), ((2, 2), [5, 6]), ((2, 3), [-7])]) := by decide +kernel

end Verif.Tableaux
