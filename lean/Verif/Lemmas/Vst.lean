import Verif.Model.Vst
import Verif.Lemmas.Tableau
import Verif.Lemmas.TransTab
import Verif.Lemmas.SlowPoly

/-! Valued-set tableaux: the groupings of a tableau. -/

attribute [-simp] List.getD_eq_getElem?_getD

namespace Verif.Vst

open Symm

/-! ### specification -/

/-- `G` groups the boxes of `T`: it has the same boxes, each box holds `0` or `1`, and `1` is only in boxes whose entry is positive and
equal to the entry to the right, or negative and equal to the entry in the row before. -/
def IsVst (T G : Tab) : Prop :=
  (∀ b, (G.get? b).isSome ↔ (T.get? b).isSome) ∧
  ∀ i j s, G.get? (i, j) = some s → s = [0] ∨ (s = [1] ∧ ∃ a, T.get? (i, j) = some [a] ∧
    ((0 < a ∧ T.get? (i, j + 1) = some [a]) ∨ (a < 0 ∧ 1 < i ∧ T.get? (i - 1, j) = some [a])))

/-- Boxes of the tableau are numbered from 1 and hold one nonzero number. -/
structure Plain (T : Tab) : Prop where
  pos : ∀ b, (T.get? b).isSome → 1 ≤ b.1 ∧ 1 ≤ b.2
  single : ∀ b s, T.get? b = some s → ∃ a, s = [a] ∧ a ≠ 0

/-- The boxes in which `1` is allowed. -/
def Allowed (T : Tab) (b : Nat × Nat) : Prop :=
  ∃ a, T.get? b = some [a] ∧ ((0 < a ∧ T.get? (b.1, b.2 + 1) = some [a]) ∨ (a < 0 ∧ 1 < b.1 ∧ T.get? (b.1 - 1, b.2) = some [a]))

theorem entry_some {T : Tab} {b : Nat × Nat} {a : Int} : T.entry b = some a ↔ T.get? b = some [a] := by
  unfold Tab.entry
  split
  · rename_i v h
    rw [h]; simp
  · rename_i h
    constructor
    · simp
    · intro h2; exact absurd h2 (h a)

theorem isValid_true {T : Tab} (h : Plain T) {b : Nat × Nat} (hb : (T.get? b).isSome) :
    ∃ c, isValidPosition T true b = some c ∧ (c = true ↔ Allowed T b) := by
  obtain ⟨s, hs⟩ := Option.isSome_iff_exists.1 hb
  obtain ⟨a, rfl, ha⟩ := h.single b s hs
  rw [isValidPosition, if_pos rfl, entry_some.2 hs]
  by_cases h0 : 0 < a
  · simp only [h0, if_true]
    refine ⟨_, rfl, ?_⟩
    rw [decide_eq_true_iff, eq_comm, entry_some]
    constructor
    · intro h1; exact ⟨a, hs, Or.inl ⟨h0, h1⟩⟩
    · rintro ⟨a', h1, h2⟩
      rw [hs] at h1
      simp only [Option.some.injEq, List.cons.injEq, and_true] at h1
      subst h1
      rcases h2 with h2 | h2
      · exact h2.2
      · omega
  · simp only [h0, if_false]
    refine ⟨_, rfl, ?_⟩
    rw [decide_eq_true_iff, eq_comm, entry_some]
    constructor
    · intro h1
      refine ⟨a, hs, Or.inr ⟨by omega, ?_, h1⟩⟩
      have := (h.pos (b.1 - 1, b.2) (by rw [h1]; rfl)).1
      simp only at this
      omega
    · rintro ⟨a', h1, h2⟩
      rw [hs] at h1
      simp only [Option.some.injEq, List.cons.injEq, and_true] at h1
      subst h1
      rcases h2 with h2 | h2
      · exact absurd h2.1 h0
      · exact h2.2.2

theorem mem_keys {T : Tab} {b : Nat × Nat} : b ∈ T.items.map Prod.fst ↔ (T.get? b).isSome := by
  rw [Option.isSome_iff_exists, List.mem_map]
  constructor
  · rintro ⟨⟨c, s⟩, h, rfl⟩
    exact ⟨s, Tab.get?_eq_some.2 h⟩
  · rintro ⟨s, h⟩
    exact ⟨(b, s), Tab.get?_eq_some.1 h, rfl⟩

theorem validList_some {T : Tab} (h : Plain T) : ∃ f : Nat × Nat → Bool, (∀ b, (T.get? b).isSome → (f b = true ↔ Allowed T b)) ∧
    validList T = some ((T.items.map Prod.fst).map (fun b => (b, f b))) := by
  refine ⟨fun b => decide (isValidPosition T true b = some true), fun b hb => ?_, ?_⟩
  · obtain ⟨c, h1, h2⟩ := isValid_true h hb
    change decide (isValidPosition T true b = some true) = true ↔ _
    rw [h1, decide_eq_true_iff, Option.some_inj, h2]
  · rw [validList, if_pos, List.map_map]
    · rfl
    · rw [List.all_eq_true]
      intro p hp
      obtain ⟨c, h1, h2⟩ := isValid_true h (mem_keys.1 (List.mem_map_of_mem hp))
      rw [h1]; rfl

/-! ### bits -/

theorem mem_groupBits (keys : List (Nat × Nat)) (f : Nat × Nat → Bool) (l : List ((Nat × Nat) × Int)) :
    (∃ v < 2 ^ ((keys.map (fun b => (b, f b))).map (fun p => if p.2 then 1 else 0)).sum, groupBits (keys.map (fun b => (b, f b))) v = l) ↔
      ∃ g : List Int, g.length = keys.length ∧ l = keys.zip g ∧ ∀ p ∈ l, p.2 = 0 ∨ (p.2 = 1 ∧ f p.1 = true) := by
  induction keys generalizing l with
  | nil =>
    simp only [List.map_nil, List.sum_nil, pow_zero, Nat.lt_one_iff, groupBits, exists_eq_left, List.length_nil, List.zip_nil_left]
    constructor
    · rintro rfl; exact ⟨[], rfl, rfl, by simp⟩
    · rintro ⟨g, h1, h2, h3⟩; exact h2.symm
  | cons b t ih =>
    simp only [List.map_cons, List.sum_cons]
    constructor
    · rintro ⟨v, hv, hl⟩
      cases hf : f b with
      | true =>
        rw [hf] at hv hl
        simp only [if_true, groupBits] at hv hl
        rw [pow_add, pow_one] at hv
        obtain ⟨g, h1, h2, h3⟩ := (ih _).1 ⟨v / 2, by omega, rfl⟩
        refine ⟨((v % 2 : Nat) : Int) :: g, by simp [h1], ?_, ?_⟩
        · rw [← hl, h2]; rfl
        · rw [← hl]
          intro p hp
          rcases List.mem_cons.1 hp with rfl | hp
          · simp only
            rcases Nat.mod_two_eq_zero_or_one v with h | h
            · left; omega
            · right; exact ⟨by omega, hf⟩
          · exact h3 p hp
      | false =>
        rw [hf] at hv hl
        simp only [Bool.false_eq_true, if_false, groupBits, zero_add] at hv hl
        obtain ⟨g, h1, h2, h3⟩ := (ih _).1 ⟨v, hv, rfl⟩
        refine ⟨0 :: g, by simp [h1], ?_, ?_⟩
        · rw [← hl, h2]; rfl
        · rw [← hl]
          intro p hp
          rcases List.mem_cons.1 hp with rfl | hp
          · left; rfl
          · exact h3 p hp
    · rintro ⟨g, h1, rfl, h3⟩
      cases g with
      | nil => simp at h1
      | cons x g =>
        simp only [List.length_cons, Nat.add_right_cancel_iff] at h1
        rw [List.zip_cons_cons] at h3 ⊢
        obtain ⟨v, hv, hl⟩ := (ih (t.zip g)).2 ⟨g, h1, rfl, fun p hp => h3 p (List.mem_cons_of_mem _ hp)⟩
        have h4 := h3 (b, x) List.mem_cons_self
        simp only at h4
        cases hf : f b with
        | true =>
          rcases h4 with h4 | h4
          · refine ⟨2 * v, ?_, ?_⟩
            · simp only [if_true]; rw [pow_add, pow_one]; omega
            · rw [groupBits, Nat.mul_mod_right, Nat.mul_div_cancel_left _ (by omega), hl, h4]; rfl
          · refine ⟨2 * v + 1, ?_, ?_⟩
            · simp only [if_true]; rw [pow_add, pow_one]; omega
            · rw [groupBits, show (2 * v + 1) % 2 = 1 by omega, show (2 * v + 1) / 2 = v by omega, hl, h4.1]; rfl
        | false =>
          refine ⟨v, ?_, ?_⟩
          · simpa using hv
          · rw [groupBits, hl]
            rcases h4 with h4 | h4
            · rw [h4]
            · rw [hf] at h4; simp at h4

theorem get?_foldSet (l : List ((Nat × Nat) × Int)) (hl : (l.map Prod.fst).Nodup) (G : Tab) (b : Nat × Nat) (s : List Int) :
    (l.foldl (fun G p => G.set p.1 [p.2]) G).get? b = some s ↔ (∃ x, (b, x) ∈ l ∧ s = [x]) ∨ (b ∉ l.map Prod.fst ∧ G.get? b = some s) := by
  induction l generalizing G with
  | nil => simp
  | cons p t ih =>
    obtain ⟨c, y⟩ := p
    rw [List.map_cons, List.nodup_cons] at hl
    rw [List.foldl_cons, ih hl.2, Tab.get?_set]
    by_cases hbc : b = c
    · subst hbc
      have hn : ∀ x, (b, x) ∉ t := fun x hx => hl.1 (List.mem_map.2 ⟨_, hx, rfl⟩)
      simp only [if_true, List.map_cons, List.mem_cons, true_or, not_true_eq_false, false_and, or_false]
      constructor
      · rintro (⟨x, hx, _⟩ | ⟨_, h⟩)
        · exact absurd hx (hn x)
        · exact ⟨y, Or.inl rfl, (Option.some_inj.1 h).symm⟩
      · rintro ⟨x, hx | hx, rfl⟩
        · right
          simp only [Prod.mk.injEq, true_and] at hx
          exact ⟨hl.1, by rw [hx]⟩
        · exact absurd hx (hn x)
    · simp only [hbc, if_false, List.map_cons, List.mem_cons, false_or, Prod.mk.injEq, false_and]

theorem zip_map_fst {α β : Type*} (k : List α) (g : List β) (h : g.length = k.length) : (k.zip g).map Prod.fst = k :=
  List.map_fst_zip (by omega)

theorem mem_zip_map {α β : Type*} (k : List α) (f : α → β) (p : α × β) : p ∈ k.zip (k.map f) ↔ p.1 ∈ k ∧ p.2 = f p.1 := by
  induction k with
  | nil => simp
  | cons a t ih =>
    rw [List.map_cons, List.zip_cons_cons, List.mem_cons, ih, List.mem_cons]
    constructor
    · rintro (rfl | h)
      · exact ⟨Or.inl rfl, rfl⟩
      · exact ⟨Or.inr h.1, h.2⟩
    · rintro ⟨h1 | h1, h2⟩
      · left; exact Prod.ext h1 (by rw [h2, h1])
      · exact Or.inr ⟨h1, h2⟩

/-- The groupings that python generates for a tableau. -/
theorem mem_groups {T : Tab} (h : Plain T) {grp : List ((Nat × Nat) × Bool)} (hg : validList T = some grp) (G : Tab) :
    (∃ v < 2 ^ (grp.map (fun p => if p.2 then 1 else 0)).sum, nextGroup grp v = G) ↔ IsVst T G := by
  obtain ⟨f, hf, hv⟩ := validList_some h
  rw [hv, Option.some_inj] at hg
  subst hg
  have hnd := T.keys_nodup
  constructor
  · rintro ⟨v, hlt, rfl⟩
    obtain ⟨g, h1, h2, h3⟩ := (mem_groupBits (T.items.map Prod.fst) f _).1 ⟨v, hlt, rfl⟩
    have hk : (groupBits ((T.items.map Prod.fst).map (fun b => (b, f b))) v).map Prod.fst = T.items.map Prod.fst := by
      rw [h2, zip_map_fst _ _ h1]
    have hget : ∀ b s, (nextGroup ((T.items.map Prod.fst).map (fun b => (b, f b))) v).get? b = some s ↔
        ∃ x, (b, x) ∈ groupBits ((T.items.map Prod.fst).map (fun b => (b, f b))) v ∧ s = [x] := by
      intro b s
      rw [nextGroup, get?_foldSet _ (by rw [hk]; exact hnd)]
      simp [Tab.get?_empty]
    refine ⟨fun b => ?_, fun i j s hs => ?_⟩
    · have hm := List.mem_map (f := Prod.fst) (b := b) (l := groupBits ((T.items.map Prod.fst).map (fun b => (b, f b))) v)
      rw [hk] at hm
      rw [← mem_keys (T := T), Option.isSome_iff_exists, hm]
      constructor
      · rintro ⟨s, hs⟩
        obtain ⟨x, hx, _⟩ := (hget b s).1 hs
        exact ⟨_, hx, rfl⟩
      · rintro ⟨⟨c, x⟩, hx, rfl⟩
        exact ⟨[x], (hget _ _).2 ⟨x, hx, rfl⟩⟩
    · obtain ⟨x, hx, rfl⟩ := (hget _ _).1 hs
      rcases h3 _ hx with h4 | ⟨h4, h5⟩
      · left; simp only at h4; rw [h4]
      · right
        simp only at h4 h5
        refine ⟨by rw [h4], (hf (i, j) ?_).1 h5⟩
        have hm := List.mem_map_of_mem (f := Prod.fst) hx
        rw [hk] at hm
        exact mem_keys.1 hm
  · rintro ⟨hb, hval⟩
    have hval' : ∀ b ∈ T.items.map Prod.fst, ∃ x, G.get? b = some [x] ∧ (x = 0 ∨ (x = 1 ∧ Allowed T b)) := by
      intro b hbk
      obtain ⟨s, hs⟩ := Option.isSome_iff_exists.1 ((hb b).2 (mem_keys.1 hbk))
      rcases hval b.1 b.2 s hs with rfl | ⟨rfl, h5⟩
      · exact ⟨0, hs, Or.inl rfl⟩
      · exact ⟨1, hs, Or.inr ⟨rfl, h5⟩⟩
    obtain ⟨v, hv1, hv2⟩ := (mem_groupBits (T.items.map Prod.fst) f
      ((T.items.map Prod.fst).zip ((T.items.map Prod.fst).map (fun b => (G.entry b).getD 0)))).2 ⟨_, by simp, rfl, by
        intro p hp
        rw [mem_zip_map] at hp
        obtain ⟨x, hx1, hx2⟩ := hval' p.1 hp.1
        rw [hp.2, entry_some.2 hx1, Option.getD_some]
        rcases hx2 with hx2 | ⟨hx2, hx3⟩
        · exact Or.inl hx2
        · exact Or.inr ⟨hx2, (hf p.1 (mem_keys.1 hp.1)).2 hx3⟩⟩
    refine ⟨v, hv1, Tab.ext_get? (fun b => ?_)⟩
    rw [nextGroup, hv2]
    refine Option.ext (fun s => ?_)
    rw [get?_foldSet _ (by rw [zip_map_fst _ _ (by simp)]; exact hnd)]
    simp only [Tab.get?_empty, reduceCtorEq, and_false, or_false]
    constructor
    · rintro ⟨x, hx, rfl⟩
      rw [mem_zip_map] at hx
      obtain ⟨y, hy, _⟩ := hval' b hx.1
      have h6 := hx.2
      simp only [entry_some.2 hy, Option.getD_some] at h6
      rw [hy, h6]
    · intro hs
      have hbk : b ∈ T.items.map Prod.fst := by
        rw [mem_keys, ← hb, hs]; rfl
      obtain ⟨x, hx, _⟩ := hval' b hbk
      refine ⟨x, ?_, by rw [hx, Option.some_inj] at hs; exact hs.symm⟩
      rw [mem_zip_map]
      exact ⟨hbk, by simp only [entry_some.2 hx, Option.getD_some]⟩

theorem mk?_some {T G : Tab} (h : Plain T) (hG : IsVst T G) : mk? T G = some (T, G) := by
  rw [mk?, if_pos]
  rw [List.all_eq_true]
  intro p hp
  rw [decide_eq_true_iff]
  have hb : (T.get? p.1).isSome := mem_keys.1 (List.mem_map_of_mem hp)
  obtain ⟨s, hs⟩ := Option.isSome_iff_exists.1 ((hG.1 p.1).2 hb)
  rcases hG.2 p.1.1 p.1.2 s hs with rfl | ⟨rfl, h1⟩
  · have : truthy G p.1 = false := by rw [truthy, hs]; rfl
    rw [this, isValidPosition]; rfl
  · have : truthy G p.1 = true := by rw [truthy, hs]; rfl
    rw [this]
    obtain ⟨c, h2, h3⟩ := isValid_true h hb
    rw [h2, h3.2 h1]

theorem mapM_eq_map {α β : Type*} {f : α → Option β} {g : α → β} {l : List α} (h : ∀ a ∈ l, f a = some (g a)) :
    l.mapM f = some (l.map g) := by
  induction l with
  | nil => rfl
  | cons a t ih =>
    rw [List.mapM_cons, h a List.mem_cons_self, ih (fun b hb => h b (List.mem_cons_of_mem _ hb))]
    rfl

theorem ofTab_some {T : Tab} (h : Plain T) : ∃ l, ofTab T = some l ∧ ∀ V, V ∈ l ↔ V.1 = T ∧ IsVst T V.2 := by
  obtain ⟨f, hf, hv⟩ := validList_some h
  refine ⟨(List.range (2 ^ (((T.items.map Prod.fst).map (fun b => (b, f b))).map (fun p => if p.2 then 1 else 0)).sum)).map
      (fun v => (T, nextGroup ((T.items.map Prod.fst).map (fun b => (b, f b))) v)), ?_, ?_⟩
  · rw [ofTab, hv, Option.bind_some]
    refine mapM_eq_map (fun v hv2 => ?_)
    exact mk?_some h ((mem_groups h hv _).1 ⟨v, List.mem_range.1 hv2, rfl⟩)
  · rintro ⟨T', G⟩
    rw [List.mem_map]
    simp only [Prod.mk.injEq, List.mem_range]
    constructor
    · rintro ⟨v, hv2, rfl, rfl⟩
      exact ⟨rfl, (mem_groups h hv _).1 ⟨v, hv2, rfl⟩⟩
    · rintro ⟨rfl, h2⟩
      obtain ⟨v, h3, h4⟩ := (mem_groups h hv _).2 h2
      exact ⟨v, h3, rfl, h4⟩

theorem allOf_fold {tabs : List Tab} (h : ∀ T ∈ tabs, Plain T) (A : Finset (Tab × Tab)) :
    ∃ B, tabs.foldlM (fun ans T => (ofTab T).map (fun l => ans ∪ l.toFinset)) A = some B ∧
      ∀ V, V ∈ B ↔ V ∈ A ∨ (V.1 ∈ tabs ∧ IsVst V.1 V.2) := by
  induction tabs generalizing A with
  | nil => exact ⟨A, rfl, by simp⟩
  | cons T t ih =>
    obtain ⟨l, h1, h2⟩ := ofTab_some (h T List.mem_cons_self)
    obtain ⟨B, h3, h4⟩ := ih (fun T' hT' => h T' (List.mem_cons_of_mem _ hT')) (A ∪ l.toFinset)
    refine ⟨B, ?_, fun V => ?_⟩
    · rw [List.foldlM_cons, h1]
      exact h3
    · rw [h4, Finset.mem_union, List.mem_toFinset, h2, List.mem_cons]
      constructor
      · rintro ((h5 | ⟨rfl, h5⟩) | h5)
        · exact Or.inl h5
        · exact Or.inr ⟨Or.inl rfl, h5⟩
        · exact Or.inr ⟨Or.inr h5.1, h5.2⟩
      · rintro (h5 | ⟨h5 | h5, h6⟩)
        · exact Or.inl (Or.inl h5)
        · left; right; rw [h5] at h6; exact ⟨h5, h6⟩
        · exact Or.inr ⟨h5, h6⟩

theorem allOf_some {tabs : List Tab} (h : ∀ T ∈ tabs, Plain T) :
    ∃ B, allOf tabs = some B ∧ ∀ V, V ∈ B ↔ V.1 ∈ tabs ∧ IsVst V.1 V.2 := by
  obtain ⟨B, h1, h2⟩ := allOf_fold h ∅
  exact ⟨B, h1, fun V => by rw [h2]; simp⟩

end Verif.Vst
