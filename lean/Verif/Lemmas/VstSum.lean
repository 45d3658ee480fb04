import Verif.Lemmas.Vst
import Verif.Props.Transposed
import Mathlib.Algebra.BigOperators.Ring.Finset

/-! Valued-set tableaux: the sum over the groupings of a shifted marked tableau. -/

attribute [-simp] List.getD_eq_getElem?_getD

namespace Verif.Vst

open Symm Tableaux Verif.Part Partition

/-! ### equal entries are next to each other -/

/-- The place of a letter in the order `1' < 1 < 2' < 2 < ...`. -/
def mrank (a : Int) : Int := 2 * |a| - (if a < 0 then 1 else 0)

theorem mrank_pos {a : Int} (h : 0 ≤ a) : mrank a = 2 * a := by
  rw [mrank, abs_of_nonneg h, if_neg (by omega)]; omega

theorem mrank_neg {a : Int} (h : a < 0) : mrank a = -2 * a - 1 := by
  rw [mrank, abs_of_neg h, if_pos h]; omega

theorem mrank_lt {a b : Int} (h : MarkedLT a b) : mrank a < mrank b := by
  unfold MarkedLT at h
  rcases lt_or_ge a 0 with h1 | h1 <;> rcases lt_or_ge b 0 with h2 | h2 <;>
    simp only [mrank_pos, mrank_neg, abs_of_neg, abs_of_nonneg, h1, h2] at h ⊢ <;> omega

theorem mrank_inj {a b : Int} (h : mrank a = mrank b) : a = b := by
  rcases lt_or_ge a 0 with h1 | h1 <;> rcases lt_or_ge b 0 with h2 | h2 <;>
    simp only [mrank_pos, mrank_neg, h1, h2] at h <;> omega

section
variable {mu nu : List Nat} {dp : Bool} {n : Nat} {f : Nat × Nat → Int}

/-- A skew shifted diagram. -/
abbrev skewD (mu nu : List Nat) : Set (Nat × Nat) := ShiftedDiagram mu \ ShiftedDiagram nu

theorem skewD_row {r c k c' : Nat} (h1 : (r, c) ∈ skewD mu nu) (h2 : (r, c') ∈ skewD mu nu) (h3 : c ≤ k) (h4 : k ≤ c') :
    (r, k) ∈ skewD mu nu := by
  simp only [skewD, Set.mem_sdiff, mem_shiftedDiagram] at *
  omega

theorem strict_step {mu : List Nat} (h : IsStrict mu) (i : Nat) : i + 1 + mu.getD (i + 1) 0 ≤ i + mu.getD i 0 ∨ mu.getD (i + 1) 0 = 0 := by
  by_cases hi : i + 1 < mu.length
  · left
    have := List.pairwise_iff_getElem.1 h.1 i (i + 1) (by omega) hi (by omega)
    rw [List.getD_eq_getElem _ _ hi, List.getD_eq_getElem _ _ (by omega)]
    omega
  · right
    rw [List.getD_eq_default _ _ (by omega)]

theorem shifted_up {mu : List Nat} (h : IsStrict mu) {r c : Nat} (h1 : (r + 1, c) ∈ ShiftedDiagram mu) (hr : 1 ≤ r) :
    (r, c) ∈ ShiftedDiagram mu := by
  rw [mem_shiftedDiagram] at *
  have := strict_step h (r - 1)
  rw [Nat.sub_add_cancel hr] at this
  simp only [Nat.add_sub_cancel] at h1
  omega

theorem shifted_up_add {mu : List Nat} (h : IsStrict mu) {r c : Nat} (k : Nat) (h1 : (r + k, c) ∈ ShiftedDiagram mu) (hr : 1 ≤ r) :
    (r, c) ∈ ShiftedDiagram mu := by
  induction k with
  | zero => exact h1
  | succ k ih => exact ih (shifted_up h h1 (by omega))

theorem skewD_col (hm : IsStrict mu) (hn : IsStrict nu) {r k r' c : Nat} (h1 : (r, c) ∈ skewD mu nu) (h2 : (r', c) ∈ skewD mu nu)
    (h3 : r ≤ k) (h4 : k ≤ r') : (k, c) ∈ skewD mu nu := by
  have hr : 1 ≤ r := (mem_shiftedDiagram.1 h1.1).1
  obtain ⟨a, rfl⟩ := Nat.exists_eq_add_of_le h3
  obtain ⟨b, rfl⟩ := Nat.exists_eq_add_of_le h4
  exact ⟨shifted_up_add hm b h2.1 (by omega), fun h => h1.2 (shifted_up_add hn a h hr)⟩

theorem mrank_row (hf : IsMarked dp n (skewD mu nu) f) {r c : Nat} (k : Nat) (h1 : (r, c) ∈ skewD mu nu)
    (h2 : (r, c + k) ∈ skewD mu nu) : mrank (f (r, c)) ≤ mrank (f (r, c + k)) := by
  induction k with
  | zero => exact le_rfl
  | succ k ih =>
    have h3 : (r, c + k) ∈ skewD mu nu := skewD_row h1 h2 (by omega) (by omega)
    refine (ih h3).trans ?_
    rcases hf.2.1 r (c + k) h3 h2 with h | h
    · exact (mrank_lt h).le
    · exact le_of_eq (by rw [h.1]; rfl)

theorem mrank_col (hm : IsStrict mu) (hn : IsStrict nu) (hf : IsMarked dp n (skewD mu nu) f) {r c : Nat} (k : Nat)
    (h1 : (r, c) ∈ skewD mu nu) (h2 : (r + k, c) ∈ skewD mu nu) : mrank (f (r, c)) ≤ mrank (f (r + k, c)) := by
  induction k with
  | zero => exact le_rfl
  | succ k ih =>
    have h3 : (r + k, c) ∈ skewD mu nu := skewD_col hm hn h1 h2 (by omega) (by omega)
    refine (ih h3).trans ?_
    rcases hf.2.2.1 (r + k) c h3 h2 with h | h
    · exact (mrank_lt h).le
    · exact le_of_eq (by rw [h.1]; rfl)

theorem next_row (hf : IsMarked dp n (skewD mu nu) f) {r c c' : Nat} (h1 : (r, c) ∈ skewD mu nu)
    (h2 : (r, c') ∈ skewD mu nu) (hlt : c < c') (he : f (r, c) = f (r, c')) :
    (r, c + 1) ∈ skewD mu nu ∧ f (r, c + 1) = f (r, c) := by
  have h3 : (r, c + 1) ∈ skewD mu nu := skewD_row h1 h2 (by omega) (by omega)
  refine ⟨h3, mrank_inj (le_antisymm ?_ (mrank_row hf 1 h1 h3))⟩
  rw [he]
  have := mrank_row hf (c' - (c + 1)) h3 (by rwa [show c + 1 + (c' - (c + 1)) = c' by omega])
  rwa [show c + 1 + (c' - (c + 1)) = c' by omega] at this

theorem next_col (hm : IsStrict mu) (hn : IsStrict nu) (hf : IsMarked dp n (skewD mu nu) f) {r r' c : Nat}
    (h1 : (r, c) ∈ skewD mu nu) (h2 : (r', c) ∈ skewD mu nu) (hlt : r < r') (he : f (r, c) = f (r', c)) :
    (r' - 1, c) ∈ skewD mu nu ∧ f (r' - 1, c) = f (r', c) := by
  have h3 : (r' - 1, c) ∈ skewD mu nu := skewD_col hm hn h1 h2 (by omega) (by omega)
  refine ⟨h3, mrank_inj (le_antisymm ?_ ?_)⟩
  · have := mrank_col hm hn hf 1 h3 (by rwa [show r' - 1 + 1 = r' by omega])
    rwa [show r' - 1 + 1 = r' by omega] at this
  · rw [← he]
    have := mrank_col hm hn hf (r' - 1 - r) h1 (by rwa [show r + (r' - 1 - r) = r' - 1 by omega])
    rwa [show r + (r' - 1 - r) = r' - 1 by omega] at this

end

/-! ### the boxes of a shifted marked tableau -/

/-- A shifted marked tableau with its entries as a function. -/
structure MarkedTab (mu nu : List Nat) (n : Nat) (T : Tab) (f : Nat × Nat → Int) : Prop where
  hm : IsStrict mu
  hn : IsStrict nu
  boxes : ∀ b, (T.get? b).isSome ↔ b ∈ skewD mu nu
  val : ∀ b ∈ skewD mu nu, T.get? b = some [f b]
  marked : IsMarked true n (skewD mu nu) f

theorem markedTab_of {mu nu : List Nat} (hm : IsStrict mu) (hn : IsStrict nu) {dp : Bool} {n : Nat} {T : Tab}
    (h : IsTableauOf false (skewD mu nu) (IsMarked dp n (skewD mu nu)) T.get?) : ∃ f, MarkedTab mu nu n T f := by
  have hv : ∀ b s, T.get? b = some s → s = [(T.entry b).getD 0] := by
    intro b s hs
    have h1 := (h.2.1 b s hs).2.2 rfl
    obtain ⟨a, rfl⟩ := List.length_eq_one_iff.1 h1
    rw [entry_some.2 hs]; rfl
  refine ⟨fun b => (T.entry b).getD 0, hm, hn, h.1, fun b hb => ?_, ?_⟩
  · obtain ⟨s, hs⟩ := Option.isSome_iff_exists.1 ((h.1 b).2 hb)
    rw [hs, ← hv b s hs]
  · obtain ⟨h1, h2, h3, _⟩ := h.2.2 (fun b => (T.entry b).getD 0) (fun b s hs => by rw [hv b s hs]; simp)
    exact ⟨h1, h2, h3, by simp⟩

namespace MarkedTab
variable {mu nu : List Nat} {n : Nat} {T : Tab} {f : Nat × Nat → Int} (h : MarkedTab mu nu n T f)
include h

theorem ne {b : Nat × Nat} (hb : b ∈ skewD mu nu) : f b ≠ 0 := by
  intro h0
  have := (h.marked.1 b hb).1
  rw [h0] at this
  simp at this

theorem plain : Plain T := by
  refine ⟨fun b hb => ?_, fun b s hs => ?_⟩
  · have := mem_shiftedDiagram.1 ((h.boxes b).1 hb).1
    omega
  · have hb := (h.boxes b).1 (by rw [hs]; rfl)
    refine ⟨f b, ?_, h.ne hb⟩
    rw [h.val b hb, Option.some_inj] at hs
    exact hs.symm

theorem single : SingleTab T := by
  rintro ⟨b, s⟩ hp
  obtain ⟨a, h1, _⟩ := h.plain.single b s (Tab.get?_eq_some.2 hp)
  exact ⟨a, h1⟩

theorem get?_iff {b : Nat × Nat} {a : Int} : T.get? b = some [a] ↔ b ∈ skewD mu nu ∧ f b = a := by
  constructor
  · intro h1
    have hb := (h.boxes b).1 (by rw [h1]; rfl)
    refine ⟨hb, ?_⟩
    rw [h.val b hb] at h1
    simpa using h1
  · rintro ⟨h1, rfl⟩
    exact h.val b h1

theorem allowed_iff {b : Nat × Nat} : Allowed T b ↔ b ∈ skewD mu nu ∧ ((0 < f b ∧ (b.1, b.2 + 1) ∈ skewD mu nu ∧ f (b.1, b.2 + 1) = f b) ∨
    (f b < 0 ∧ 1 < b.1 ∧ (b.1 - 1, b.2) ∈ skewD mu nu ∧ f (b.1 - 1, b.2) = f b)) := by
  unfold Allowed
  simp only [h.get?_iff]
  constructor
  · rintro ⟨a, ⟨h1, rfl⟩, h2⟩
    exact ⟨h1, h2⟩
  · rintro ⟨h1, h2⟩
    exact ⟨_, ⟨h1, rfl⟩, h2⟩

end MarkedTab

/-- The boxes of a tableau. -/
def keySet (T : Tab) : Finset (Nat × Nat) := (T.items.map Prod.fst).toFinset

theorem mem_keySet {T : Tab} {b : Nat × Nat} : b ∈ keySet T ↔ (T.get? b).isSome := by
  rw [keySet, List.mem_toFinset, mem_keys]

open scoped Classical in
/-- The boxes in which `1` is allowed. -/
noncomputable def freeSet (T : Tab) : Finset (Nat × Nat) := (keySet T).filter (Allowed T)

section
variable {mu nu : List Nat} {n : Nat} {T : Tab} {f : Nat × Nat → Int} (h : MarkedTab mu nu n T f)
include h

theorem mem_key {b : Nat × Nat} : b ∈ keySet T ↔ b ∈ skewD mu nu := by rw [mem_keySet, h.boxes]

open scoped Classical in
theorem mem_free {b : Nat × Nat} : b ∈ freeSet T ↔ b ∈ skewD mu nu ∧ Allowed T b := by
  rw [freeSet, Finset.mem_filter, mem_key h]

theorem card_pos {a : Int} (ha : 0 < a) : ((keySet T \ freeSet T).filter (fun b => f b = a)).card = rowsHolding T a := by
  have hinj : Set.InjOn Prod.fst (((keySet T \ freeSet T).filter (fun b => f b = a) : Finset (Nat × Nat)) : Set (Nat × Nat)) := by
    have key : ∀ r c c', (r, c) ∈ (keySet T \ freeSet T).filter (fun b => f b = a) →
        (r, c') ∈ (keySet T \ freeSet T).filter (fun b => f b = a) → ¬ c < c' := by
      intro r c c' h1 h2 hlt
      rw [Finset.mem_filter, Finset.mem_sdiff, mem_key h, mem_free h] at h1 h2
      have h3 := next_row h.marked h1.1.1 h2.1.1 hlt (by rw [h1.2, h2.2])
      refine h1.1.2 ⟨h1.1.1, h.allowed_iff.2 ⟨h1.1.1, Or.inl ⟨by rw [h1.2]; exact ha, h3.1, h3.2⟩⟩⟩
    rintro ⟨r, c⟩ h1 ⟨r', c'⟩ h2 he
    simp only at he
    subst he
    rw [Finset.mem_coe] at h1 h2
    have := key r c c' h1 h2
    have := key r c' c h2 h1
    rw [Prod.mk.injEq]
    omega
  rw [rowsHolding, ← Finset.card_image_of_injOn hinj, ← Set.ncard_coe_finset]
  congr 1
  ext r
  simp only [Finset.coe_image, Set.mem_image, Finset.mem_coe, Finset.mem_filter, Finset.mem_sdiff, mem_key h, mem_free h, holding,
    Set.mem_ofPred_eq, h.get?_iff]
  constructor
  · rintro ⟨⟨r', c⟩, h1, rfl⟩
    exact ⟨c, h1.1.1, h1.2⟩
  · rintro ⟨c, h1⟩
    -- the last box of the row
    obtain ⟨m, hm1, hm2⟩ := Finset.exists_max_image ((keySet T).filter (fun b => b.1 = r ∧ f b = a)) (fun b => b.2)
      ⟨(r, c), Finset.mem_filter.2 ⟨(mem_key h).2 h1.1, rfl, h1.2⟩⟩
    rw [Finset.mem_filter, mem_key h] at hm1
    refine ⟨m, ⟨⟨hm1.1, ?_⟩, hm1.2.2⟩, hm1.2.1⟩
    rintro ⟨_, h2⟩
    rw [h.allowed_iff] at h2
    rcases h2.2 with h3 | h3
    · have := hm2 (m.1, m.2 + 1) (Finset.mem_filter.2 ⟨(mem_key h).2 h3.2.1, hm1.2.1, by rw [h3.2.2, hm1.2.2]⟩)
      simp only at this
      omega
    · have := h3.1
      rw [hm1.2.2] at this
      omega

theorem card_neg {a : Int} (ha : a < 0) : ((keySet T \ freeSet T).filter (fun b => f b = a)).card = colsHolding T a := by
  have hinj : Set.InjOn Prod.snd (((keySet T \ freeSet T).filter (fun b => f b = a) : Finset (Nat × Nat)) : Set (Nat × Nat)) := by
    have key : ∀ r r' c, (r, c) ∈ (keySet T \ freeSet T).filter (fun b => f b = a) →
        (r', c) ∈ (keySet T \ freeSet T).filter (fun b => f b = a) → ¬ r < r' := by
      intro r r' c h1 h2 hlt
      rw [Finset.mem_filter, Finset.mem_sdiff, mem_key h, mem_free h] at h1 h2
      have h3 := next_col h.hm h.hn h.marked h1.1.1 h2.1.1 hlt (by rw [h1.2, h2.2])
      have h4 := (mem_shiftedDiagram.1 h1.1.1.1).1
      refine h2.1.2 ⟨h2.1.1, h.allowed_iff.2 ⟨h2.1.1, Or.inr ⟨by rw [h2.2]; exact ha, by simp only; omega, h3.1, h3.2⟩⟩⟩
    rintro ⟨r, c⟩ h1 ⟨r', c'⟩ h2 he
    simp only at he
    subst he
    rw [Finset.mem_coe] at h1 h2
    have := key r r' c h1 h2
    have := key r' r c h2 h1
    rw [Prod.mk.injEq]
    omega
  rw [colsHolding, ← Finset.card_image_of_injOn hinj, ← Set.ncard_coe_finset]
  congr 1
  ext c
  simp only [Finset.coe_image, Set.mem_image, Finset.mem_coe, Finset.mem_filter, Finset.mem_sdiff, mem_key h, mem_free h, holding,
    Set.mem_ofPred_eq, h.get?_iff]
  constructor
  · rintro ⟨⟨r, c'⟩, h1, rfl⟩
    exact ⟨r, h1.1.1, h1.2⟩
  · rintro ⟨r, h1⟩
    -- the first box of the column
    obtain ⟨m, hm1, hm2⟩ := Finset.exists_min_image ((keySet T).filter (fun b => b.2 = c ∧ f b = a)) (fun b => b.1)
      ⟨(r, c), Finset.mem_filter.2 ⟨(mem_key h).2 h1.1, rfl, h1.2⟩⟩
    rw [Finset.mem_filter, mem_key h] at hm1
    refine ⟨m, ⟨⟨hm1.1, ?_⟩, hm1.2.2⟩, hm1.2.1⟩
    rintro ⟨_, h2⟩
    rw [h.allowed_iff] at h2
    rcases h2.2 with h3 | h3
    · have := h3.1
      rw [hm1.2.2] at this
      omega
    · have := hm2 (m.1 - 1, m.2) (Finset.mem_filter.2 ⟨(mem_key h).2 h3.2.2.1, hm1.2.1, by rw [h3.2.2.2, hm1.2.2]⟩)
      simp only at this
      omega

omit h in
theorem filter_abs (S : Finset (Nat × Nat)) {i : Nat} (hi : 1 ≤ i) : (S.filter (fun b => (f b).natAbs = i)).card =
    (S.filter (fun b => f b = (i : Int))).card + (S.filter (fun b => f b = -(i : Int))).card := by
  rw [← Finset.card_union_of_disjoint]
  · congr 1
    ext b
    simp only [Finset.mem_filter, Finset.mem_union, ← and_or_left]
    refine and_congr_right (fun _ => ?_)
    omega
  · rw [Finset.disjoint_left]
    intro b h1 h2
    rw [Finset.mem_filter] at h1 h2
    omega

theorem lineTerm_prod (w : Laurent) : lineTerm w n T =
    (∏ b ∈ keySet T \ freeSet T, Laurent.xpow ((f b).natAbs : Nat) 1) * ∏ b ∈ freeSet T, (Laurent.xpow ((f b).natAbs : Nat) 1 + w) := by
  have hmap : ∀ b ∈ keySet T, (f b).natAbs ∈ Finset.Icc 1 n := by
    intro b hb
    have := h.marked.1 b ((mem_key h).1 hb)
    rw [Finset.mem_Icc]
    rw [Int.abs_eq_natAbs] at this
    omega
  have hsub : freeSet T ⊆ keySet T := by
    intro b hb
    rw [mem_free h] at hb
    exact (mem_key h).2 hb.1
  rw [← Finset.prod_fiberwise_of_maps_to' (s := keySet T \ freeSet T) (t := Finset.Icc 1 n) (g := fun b => (f b).natAbs)
      (fun b hb => hmap b (Finset.sdiff_subset hb)) (fun i => Laurent.xpow (i : Nat) 1),
    ← Finset.prod_fiberwise_of_maps_to' (s := freeSet T) (t := Finset.Icc 1 n) (g := fun b => (f b).natAbs)
      (fun b hb => hmap b (hsub hb)) (fun i => Laurent.xpow (i : Nat) 1 + w), ← Finset.prod_mul_distrib, lineTerm]
  refine Finset.prod_congr rfl (fun i hi => ?_)
  have hi1 : 1 ≤ i := (Finset.mem_Icc.1 hi).1
  rw [Finset.prod_const, Finset.prod_const]
  have e1 : ((keySet T \ freeSet T).filter (fun b => (f b).natAbs = i)).card = rowsHolding T i + colsHolding T (-i) := by
    rw [filter_abs _ hi1, card_pos h (by omega), card_neg h (by omega)]
  have e2 : (holding T i ∪ holding T (-i)).ncard = ((keySet T).filter (fun b => (f b).natAbs = i)).card := by
    rw [← Set.ncard_coe_finset]
    congr 1
    ext b
    simp only [Set.mem_union, holding, Set.mem_ofPred_eq, h.get?_iff, Finset.coe_filter, mem_key h]
    rw [← and_or_left]
    refine and_congr_right (fun _ => ?_)
    omega
  have e3 : ((keySet T).filter (fun b => (f b).natAbs = i)).card = ((keySet T \ freeSet T).filter (fun b => (f b).natAbs = i)).card +
      ((freeSet T).filter (fun b => (f b).natAbs = i)).card := by
    rw [← Finset.card_union_of_disjoint, ← Finset.filter_union, Finset.sdiff_union_of_subset hsub]
    exact Finset.disjoint_filter_filter Finset.sdiff_disjoint
  rw [e1, e2, e3, e1]
  congr 2
  omega

theorem lineTerm_sum (w : Laurent) : lineTerm w n T =
    ∑ S ∈ (freeSet T).powerset, (∏ b ∈ keySet T \ S, Laurent.xpow ((f b).natAbs : Nat) 1) * w ^ S.card := by
  have hsub : freeSet T ⊆ keySet T := by
    intro b hb
    rw [mem_free h] at hb
    exact (mem_key h).2 hb.1
  rw [lineTerm_prod h]
  simp only [fun b => add_comm (Laurent.xpow (((f b).natAbs : Nat) : Int) 1) w]
  rw [Finset.prod_add, Finset.mul_sum]
  refine Finset.sum_congr rfl (fun S hS => ?_)
  rw [Finset.mem_powerset] at hS
  have : keySet T \ S = (keySet T \ freeSet T) ∪ (freeSet T \ S) := by
    ext b
    simp only [Finset.mem_sdiff, Finset.mem_union]
    have h1 := @hS b
    have h2 := @hsub b
    tauto
  rw [this, Finset.prod_union, Finset.prod_const]
  · ring
  · rw [Finset.disjoint_left]
    intro b h1 h2
    rw [Finset.mem_sdiff] at h1 h2
    exact h1.2 h2.1

end

end Verif.Vst
