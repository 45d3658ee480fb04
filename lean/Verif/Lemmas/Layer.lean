import Verif.Lemmas.Tableau
import Mathlib.Order.Nat
import Mathlib.Data.Nat.Find
import Mathlib.Algebra.BigOperators.Group.Finset.Basic
import Mathlib.Algebra.BigOperators.Group.Finset.Sigma

/-!
Tableaux built letter by letter: a general form of the argument that adding the largest letter to all tableaux of
smaller shapes yields all tableaux of a given shape.  It covers unshifted and shifted shapes, set-valued and ordinary
tableaux, and any rule saying which letters may be repeated in rows, in columns and on the diagonal.
-/

attribute [-simp] List.getD_eq_getElem?_getD

namespace Verif.Tab

/-- A tableau without empty boxes whose boxes hold strictly increasing lists. -/
structure Canon (T : Tab) : Prop where
  ne : ∀ b, T.get? b ≠ some []
  sorted : ∀ b, (T.ent b).Pairwise (· < ·)

theorem eq_of_pairwise_lt {l l' : List Int} (h : l.Pairwise (· < ·)) (h' : l'.Pairwise (· < ·))
    (hm : ∀ x, x ∈ l ↔ x ∈ l') : l = l' := by
  have hn : l.Nodup := h.imp (fun h => ne_of_lt h)
  have hn' : l'.Nodup := h'.imp (fun h => ne_of_lt h)
  exact ((List.perm_ext_iff_of_nodup hn hn').2 hm).eq_of_pairwise (le := (· < ·))
    (fun a b _ _ h1 h2 => absurd (lt_trans h1 h2) (lt_irrefl _)) h h'

theorem ent_ne_nil_iff {T : Tab} (h : T.Canon) (b : Nat × Nat) : T.ent b ≠ [] ↔ T.get? b ≠ none := by
  unfold ent
  cases hg : T.get? b with
  | none => simp
  | some s =>
    have := h.ne b
    rw [hg] at this
    simpa using this

theorem Canon.ext {T T' : Tab} (h : T.Canon) (h' : T'.Canon) (hm : ∀ b x, x ∈ T.ent b ↔ x ∈ T'.ent b) : T = T' := by
  apply ext_get?
  intro b
  have he : T.ent b = T'.ent b := eq_of_pairwise_lt (h.sorted b) (h'.sorted b) (hm b)
  have e1 := h.ne b
  have e2 := h'.ne b
  unfold ent at he
  cases h1 : T.get? b with
  | none =>
    cases h2 : T'.get? b with
    | none => rfl
    | some s => simp only [h1, h2] at he e2; simp at he; subst he; exact absurd rfl e2
  | some s =>
    cases h2 : T'.get? b with
    | none => simp only [h1, h2] at he e1; simp at he; subst he; exact absurd rfl e1
    | some s' => simp only [h1, h2] at he; simp at he; subst he; rfl

theorem canon_empty : empty.Canon := ⟨fun b => by simp [get?_empty], fun b => by simp [ent, get?_empty]⟩

theorem ent_empty (b : Nat × Nat) : empty.ent b = [] := rfl

theorem ent_add (T : Tab) (b c : Nat × Nat) (v : Int) :
    (T.add b v).ent c = if c = b then sortInts (T.ent b ++ [v]) else T.ent c := by
  rw [ent, get?_add]
  split <;> simp [ent]

theorem mem_ent_add (T : Tab) (b c : Nat × Nat) (v x : Int) :
    x ∈ (T.add b v).ent c ↔ x ∈ T.ent c ∨ (c = b ∧ x = v) := by
  rw [ent_add]
  split
  · rename_i h
    subst h
    simp [sortInts]
  · rename_i h
    simp [h]

theorem sortInts_lt {l : List Int} (h : l.Nodup) : (sortInts l).Pairwise (· < ·) := by
  have h1 : (sortInts l).Pairwise (· ≤ ·) := List.pairwise_insertionSort (· ≤ ·) l
  have h2 : (sortInts l).Nodup := (List.perm_insertionSort (· ≤ ·) l).nodup_iff.2 h
  exact (List.pairwise_and_iff.2 ⟨h1, h2⟩).imp (fun h => lt_of_le_of_ne h.1 h.2)

theorem canon_add {T : Tab} (h : T.Canon) {b : Nat × Nat} {v : Int} (hv : v ∉ T.ent b) : (T.add b v).Canon := by
  constructor
  · intro c
    rw [get?_add]
    split
    · intro hc
      have : (sortInts (T.ent b ++ [v])).length = 0 := by rw [Option.some.inj hc]; rfl
      simp [sortInts] at this
    · exact h.ne c
  · intro c
    rw [ent_add]
    split
    · apply sortInts_lt
      rw [List.nodup_append]
      refine ⟨(h.sorted b).imp (fun h => ne_of_lt h), by simp, ?_⟩
      rintro x hx y hy rfl
      simp at hy
      subst hy
      exact hv hx
    · exact h.sorted c

theorem addAll_spec (aug : List (Nat × Nat)) (hnd : aug.Nodup) (v : Int) {T : Tab} (h : T.Canon)
    (hv : ∀ b ∈ aug, v ∉ T.ent b) :
    (Tableaux.addAll aug v T).Canon ∧
      ∀ b x, x ∈ (Tableaux.addAll aug v T).ent b ↔ x ∈ T.ent b ∨ (b ∈ aug ∧ x = v) := by
  unfold Tableaux.addAll
  induction aug generalizing T with
  | nil => exact ⟨h, by simp⟩
  | cons a aug ih =>
    rw [List.nodup_cons] at hnd
    rw [List.foldl_cons]
    have hc := canon_add h (hv a (by simp))
    obtain ⟨h1, h2⟩ := ih hnd.2 hc (by
      intro b hb
      rw [mem_ent_add]
      rintro (hx | ⟨rfl, -⟩)
      · exact hv b (by simp [hb]) hx
      · exact hnd.1 hb)
    refine ⟨h1, ?_⟩
    intro b x
    rw [h2, mem_ent_add, List.mem_cons]
    tauto

theorem exists_box_bound (T : Tab) : ∃ l : List (Nat × Nat), ∀ b, T.ent b ≠ [] → b ∈ l := by
  refine ⟨T.items.map Prod.fst, fun b hb => ?_⟩
  unfold ent at hb
  cases hg : T.get? b with
  | none => simp [hg] at hb
  | some s => exact List.mem_map.2 ⟨(b, s), get?_eq_some.1 hg, rfl⟩

/-- The part of a tableau whose entries satisfy `p`. -/
theorem exists_restrict (T : Tab) (p : Int → Prop) :
    ∃ T' : Tab, T'.Canon ∧ ∀ b x, x ∈ T'.ent b ↔ x ∈ T.ent b ∧ p x := by
  classical
  obtain ⟨l, hl⟩ := exists_box_bound T
  suffices hs : ∀ l : List ((Nat × Nat) × Int), ∃ T' : Tab, T'.Canon ∧ ∀ b x, x ∈ T'.ent b ↔ (b, x) ∈ l by
    obtain ⟨T', h1, h2⟩ := hs (l.flatMap (fun b => ((T.ent b).filter (fun x => decide (p x))).map (fun x => (b, x))))
    refine ⟨T', h1, fun b x => ?_⟩
    rw [h2]
    simp only [List.mem_flatMap, List.mem_map, List.mem_filter, decide_eq_true_eq, Prod.mk.injEq]
    constructor
    · rintro ⟨b', _, x', ⟨hx, hp⟩, rfl, rfl⟩
      exact ⟨hx, hp⟩
    · rintro ⟨hx, hp⟩
      exact ⟨b, hl b (List.ne_nil_of_mem hx), x, ⟨hx, hp⟩, rfl, rfl⟩
  intro l
  induction l with
  | nil => exact ⟨empty, canon_empty, by simp [ent_empty]⟩
  | cons a l ih =>
    obtain ⟨T', h1, h2⟩ := ih
    obtain ⟨b, v⟩ := a
    by_cases hv : v ∈ T'.ent b
    · refine ⟨T', h1, fun c x => ?_⟩
      rw [h2, List.mem_cons, Prod.mk.injEq]
      constructor
      · exact Or.inr
      · rintro (⟨rfl, rfl⟩ | h)
        · exact (h2 _ _).1 hv
        · exact h
    · refine ⟨T'.add b v, canon_add h1 hv, fun c x => ?_⟩
      have e : (c, x) = (b, v) ↔ c = b ∧ x = v := Prod.mk_inj
      rw [mem_ent_add, h2, List.mem_cons, e]
      tauto

end Verif.Tab

namespace Verif.Tableaux

open Tab Verif.Part

/-! ### shapes -/

/-- The diagram of a shape, shifted or not. -/
def shapeSet (sh : Bool) (mu : List Nat) : Set (Nat × Nat) := if sh then ShiftedDiagram mu else Diagram mu

/-- Partitions, or strict partitions for shifted shapes. -/
def IsShape (sh : Bool) (mu : List Nat) : Prop := if sh then IsStrict mu else IsPartition mu

/-- The number of columns to the left of row `i`. -/
def off (sh : Bool) (i : Nat) : Nat := if sh then i - 1 else 0

theorem mem_shapeSet {sh : Bool} {mu : List Nat} {i j : Nat} :
    (i, j) ∈ shapeSet sh mu ↔ 1 ≤ i ∧ off sh i < j ∧ j ≤ off sh i + mu.getD (i - 1) 0 := by
  cases sh
  · simp only [shapeSet, off, Bool.false_eq_true, if_false, Partition.mem_diagram]
    omega
  · simp only [shapeSet, off, if_true, Partition.mem_shiftedDiagram]
    omega

theorem IsShape.pos {sh : Bool} {mu : List Nat} (h : IsShape sh mu) : ∀ a ∈ mu, 0 < a := by
  cases sh
  · exact h.2
  · exact h.2

theorem IsShape.next {sh : Bool} {mu : List Nat} (h : IsShape sh mu) (i : Nat) (h0 : 0 < mu.getD (i + 1) 0) :
    mu.getD (i + 1) 0 + (if sh then 1 else 0) ≤ mu.getD i 0 := by
  cases sh
  · have h : IsPartition mu := h
    simpa using Partition.pairwise_ge_iff.1 h.1 i
  · have h : IsStrict mu := h
    have h1 := (Partition.pairwise_gt_iff h.2).1 h.1 i
    have h2 := Partition.pairwise_ge_iff.1 (Partition.isStrict_isPartition h).1 i
    simp only [if_true]
    have := h1 (by omega)
    omega

theorem isShape_of {sh : Bool} {mu : List Nat} (hp : ∀ a ∈ mu, 0 < a)
    (h : ∀ i, 0 < mu.getD (i + 1) 0 → mu.getD (i + 1) 0 + (if sh then 1 else 0) ≤ mu.getD i 0) : IsShape sh mu := by
  cases sh
  · refine ⟨Partition.pairwise_ge_iff.2 fun i => ?_, hp⟩
    have := h i
    simp only [Bool.false_eq_true, if_false] at this
    omega
  · refine ⟨(Partition.pairwise_gt_iff hp).2 fun i h0 => ?_, hp⟩
    have := h i
    simp only [if_true] at this
    omega

theorem shapeSet_subset {sh : Bool} {mu nu : List Nat} :
    shapeSet sh nu ⊆ shapeSet sh mu ↔ ∀ i, nu.getD i 0 ≤ mu.getD i 0 := by
  cases sh
  · exact Partition.diagram_subset
  · exact Partition.shiftedDiagram_subset

theorem shapeSet_inj {sh : Bool} {mu nu : List Nat} (hm : IsShape sh mu) (hn : IsShape sh nu)
    (h : shapeSet sh mu = shapeSet sh nu) : mu = nu :=
  Partition.row_ext hm.pos hn.pos
    (fun i => le_antisymm (shapeSet_subset.1 h.le i) (shapeSet_subset.1 h.ge i))

/-- A box to the left of a box of a shape is in it, as far as it is in some shape at all. -/
theorem shape_left {sh : Bool} {mu nu : List Nat} {i j : Nat} (h : (i, j) ∈ shapeSet sh mu)
    (h' : (i, j + 1) ∈ shapeSet sh nu) : (i, j) ∈ shapeSet sh nu := by
  rw [mem_shapeSet] at *
  omega

/-- A box above a box of a shape is in it, as far as it is in some shape at all. -/
theorem shape_above {sh : Bool} {mu nu : List Nat} (hn : IsShape sh nu) {i j : Nat} (h : (i, j) ∈ shapeSet sh mu)
    (h' : (i + 1, j) ∈ shapeSet sh nu) : (i, j) ∈ shapeSet sh nu := by
  rw [mem_shapeSet] at *
  obtain ⟨h1, h2, h3⟩ := h'
  obtain ⟨k, rfl⟩ : ∃ k, i = k + 1 := ⟨i - 1, by omega⟩
  have := hn.next k
  simp only [Nat.add_sub_cancel, off] at *
  cases sh
  · simp at *
    omega
  · simp at *
    omega

/-- A set of boxes of a shape, closed under going left and up, is a shape. -/
theorem exists_shape {sh : Bool} {mu : List Nat} (hm : IsShape sh mu) (S : Set (Nat × Nat))
    (hS : S ⊆ shapeSet sh mu)
    (hl : ∀ i j, (i, j) ∈ shapeSet sh mu → (i, j + 1) ∈ S → (i, j) ∈ S)
    (hu : ∀ i j, (i, j) ∈ shapeSet sh mu → (i + 1, j) ∈ S → (i, j) ∈ S) :
    ∃ nu, IsShape sh nu ∧ shapeSet sh nu = S := by
  classical
  -- the length of row `i` (counted from 0)
  let c : Nat → Nat := fun i => Nat.findGreatest (fun j => (i + 1, off sh (i + 1) + j) ∈ S) (mu.getD i 0)
  have hdown : ∀ i j, 1 ≤ j → (i + 1, off sh (i + 1) + (j + 1)) ∈ S → (i + 1, off sh (i + 1) + j) ∈ S := by
    intro i j hj h
    refine hl (i + 1) (off sh (i + 1) + j) ?_ h
    have := mem_shapeSet.1 (hS h)
    rw [mem_shapeSet]
    omega
  have hdown' : ∀ i k j, 1 ≤ j → (i + 1, off sh (i + 1) + (j + k)) ∈ S → (i + 1, off sh (i + 1) + j) ∈ S := by
    intro i k
    induction k with
    | zero => intro j _ h; exact h
    | succ k ih => intro j hj h; exact ih j hj (hdown i (j + k) (by omega) h)
  have hc : ∀ i j, 1 ≤ j → ((i + 1, off sh (i + 1) + j) ∈ S ↔ j ≤ c i) := by
    intro i j hj
    constructor
    · intro h
      apply Nat.le_findGreatest _ h
      have := mem_shapeSet.1 (hS h)
      simp only [Nat.add_sub_cancel] at this
      omega
    · intro h
      have hne : c i ≠ 0 := by omega
      have hs : (i + 1, off sh (i + 1) + c i) ∈ S := Nat.findGreatest_of_ne_zero (P := fun j => (i + 1, off sh (i + 1) + j) ∈ S) rfl hne
      obtain ⟨k, hk⟩ : ∃ k, c i = j + k := ⟨c i - j, by omega⟩
      rw [hk] at hs
      exact hdown' i k j hj hs
  have hcm : ∀ i, c i ≤ mu.getD i 0 := fun i => Nat.findGreatest_le _
  have hstep : ∀ i, 0 < c (i + 1) → c (i + 1) + (if sh then 1 else 0) ≤ c i := by
    intro i h0
    have h1 : (i + 2, off sh (i + 2) + c (i + 1)) ∈ S := (hc (i + 1) _ h0).2 le_rfl
    have h2 := mem_shapeSet.1 (hS h1)
    have h3 := hm.next i
    have h4 := hcm (i + 1)
    have h5 : (i + 1, off sh (i + 2) + c (i + 1)) ∈ S := by
      apply hu _ _ _ h1
      rw [mem_shapeSet]
      simp only [Nat.add_sub_cancel, off] at *
      have : i + 2 - 1 = i + 1 := rfl
      rw [this] at h2
      cases sh
      · simp at *
        omega
      · simp at *
        omega
    apply (hc i _ (by omega)).1
    convert h5 using 2
    unfold off
    cases sh
    · simp
    · simp
      omega
  let rows := Partition.trim ((List.range mu.length).map c)
  have hget : ∀ i, rows.getD i 0 = c i := by
    intro i
    show (Partition.trim _).getD i 0 = _
    rw [Partition.getD_trim]
    by_cases hi : i < mu.length
    · rw [List.getD_eq_getElem _ _ (by simpa using hi)]
      simp
    · rw [List.getD_eq_default _ _ (by simp; omega)]
      have := hcm i
      rw [List.getD_eq_default _ _ (by omega)] at this
      omega
  have hanti : ∀ i, c (i + 1) ≤ c i := by
    intro i
    have := hstep i
    omega
  have hp : ∀ a ∈ rows, 0 < a := by
    have h1 : ((List.range mu.length).map c).Pairwise (· ≥ ·) := by
      rw [List.pairwise_map]
      exact List.pairwise_lt_range.imp (fun {a b} h => antitone_nat_of_succ_le hanti h.le)
    exact Partition.trim_pos h1
  refine ⟨rows, isShape_of hp ?_, ?_⟩
  · intro i
    rw [hget, hget]
    exact hstep i
  · ext ⟨i, j⟩
    rw [mem_shapeSet]
    constructor
    · rintro ⟨h1, h2, h3⟩
      obtain ⟨k, rfl⟩ : ∃ k, i = k + 1 := ⟨i - 1, by omega⟩
      rw [Nat.add_sub_cancel, hget] at h3
      obtain ⟨d, rfl⟩ : ∃ d, j = off sh (k + 1) + d := ⟨j - off sh (k + 1), by omega⟩
      exact (hc k d (by omega)).2 (by omega)
    · intro h
      have h1 := mem_shapeSet.1 (hS h)
      obtain ⟨k, rfl⟩ : ∃ k, i = k + 1 := ⟨i - 1, by omega⟩
      obtain ⟨d, rfl⟩ : ∃ d, j = off sh (k + 1) + d := ⟨j - off sh (k + 1), by omega⟩
      refine ⟨h1.1, h1.2.1, ?_⟩
      rw [Nat.add_sub_cancel, hget]
      have := (hc k d (by omega)).1 h
      omega

end Verif.Tableaux
