import Verif.Lemmas.PermInvolutions

/-! # The lists of involutions -/

attribute [-simp] List.getD_eq_getElem?_getD

namespace Verif.Perm

open Verif.Partition

/-- The numbers `1, ..., n`. -/
def ones (n : Nat) : List Nat := (List.range n).map (· + 1)

theorem mem_ones {n x : Nat} : x ∈ ones n ↔ 1 ≤ x ∧ x ≤ n := by
  rw [ones, List.mem_map]
  constructor
  · rintro ⟨y, hy, rfl⟩
    rw [List.mem_range] at hy
    omega
  · intro h
    exact ⟨x - 1, List.mem_range.2 (by omega), by omega⟩

theorem nodup_ones (n : Nat) : (ones n).Nodup := List.nodup_range.map (fun a b h => by simpa using h)

theorem length_ones (n : Nat) : (ones n).length = n := by simp [ones]

theorem sublist_eq_filter {l s : List Nat} (hn : l.Nodup) (h : s.Sublist l) : s = l.filter (fun x => x ∈ s) := by
  induction h with
  | slnil => rfl
  | @cons s l a h ih =>
    rw [List.nodup_cons] at hn
    rw [List.filter_cons_of_neg (by simpa using fun hc => hn.1 (h.subset hc))]
    exact ih hn.2
  | @cons_cons s l a h ih =>
    rw [List.nodup_cons] at hn
    rw [List.filter_cons_of_pos (by simp), List.cons.injEq]
    refine ⟨rfl, ?_⟩
    conv_lhs => rw [ih hn.2]
    refine List.filter_congr (fun x hx => ?_)
    rw [decide_eq_decide, List.mem_cons]
    constructor
    · exact .inr
    · rintro (rfl | hx')
      · exact absurd hx hn.1
      · exact hx'

/-- The numbers that are not in `fixed`. -/
def others (n : Nat) (fixed : List Nat) : List Nat := (ones n).filter (fun i => i ∉ fixed)

theorem mem_others {n : Nat} {fixed : List Nat} {x : Nat} : x ∈ others n fixed ↔ (1 ≤ x ∧ x ≤ n) ∧ x ∉ fixed := by
  rw [others, List.mem_filter, mem_ones]; simp

theorem length_others {n : Nat} {fixed : List Nat} (h : fixed.Sublist (ones n)) : (others n fixed).length = n - fixed.length := by
  have h1 := sublist_eq_filter (nodup_ones n) h
  have h2 := List.length_eq_length_filter_add (l := ones n) (fun x => decide (x ∈ fixed))
  rw [← h1, length_ones] at h2
  rw [others]
  have h3 : (ones n).filter (fun i => decide (i ∉ fixed)) = (ones n).filter (fun x => !decide (x ∈ fixed)) := by
    refine List.filter_congr (fun x _ => by simp)
  rw [h3]
  omega

/-- An involution of `1, ..., n` with the given list of fixed points. -/
theorem matching_others {n : Nat} {fixed : List Nat} (h : fixed.Sublist (ones n)) (w : SPerm) :
    Matching (others n fixed) w ↔ (w.rank ≤ n ∧ (∀ x : Int, 0 < x → 0 < w.call x) ∧ (∀ a, w.call (w.call a) = a)) ∧
      fixed = (ones n).filter (fun x : Nat => w.call x = x) := by
  constructor
  · intro hw
    have hout : ∀ x : Nat, n < x → w.call x = x := fun x hx => hw.fix x (by omega) (by rw [mem_others]; omega)
    have hpos : ∀ x : Nat, 1 ≤ x → 0 < w.call x := by
      intro x hx
      by_cases hS : x ∈ others n fixed
      · obtain ⟨y, hy, he⟩ := (hw.move x hS).2
        rw [mem_others] at hy
        omega
      · rw [hw.fix x hx hS]; omega
    refine ⟨⟨?_, fun x hx => ?_, hw.inv⟩, ?_⟩
    · by_contra hc
      have h1 := hout w.rank (by omega)
      have h2 := w.trimmed
      rw [oneline_eq_line] at h2
      apply h2
      rw [List.getLast?_eq_getElem?, length_line, List.getElem?_eq_getElem (by rw [length_line]; omega), getElem_line,
        show (((w.rank - 1 : Nat) : Int) + 1) = (w.rank : Int) by omega, h1]
    · have := hpos x.toNat (by omega)
      rwa [show ((x.toNat : Nat) : Int) = x by omega] at this
    · refine (sublist_eq_filter (nodup_ones n) h).trans (List.filter_congr (fun x hx => ?_))
      rw [mem_ones] at hx
      rw [decide_eq_decide]
      constructor
      · intro hx'
        exact hw.fix x hx.1 (by rw [mem_others]; tauto)
      · intro he
        by_contra hc
        exact (hw.move x (mem_others.2 ⟨hx, hc⟩)).1 he
  · rintro ⟨⟨h1, h2, h3⟩, h4⟩
    have hmf : ∀ x : Nat, 1 ≤ x → x ≤ n → (x ∈ fixed ↔ w.call x = x) := by
      intro x hx hxn
      rw [h4, List.mem_filter, mem_ones]
      simp [hx, hxn]
    have hod := (call_odd w).mono h1
    refine ⟨h3, fun x hx => ?_, fun x hx hxS => ?_⟩
    · rw [mem_others] at hx
      have hne : w.call x ≠ x := fun hc => hx.2 ((hmf x hx.1.1 hx.1.2).2 hc)
      refine ⟨hne, (w.call x).toNat, ?_, ?_⟩
      · have g1 := h2 x (by omega)
        have g2 := hod.bound x (by omega)
        rw [mem_others]
        refine ⟨by omega, ?_⟩
        rw [hmf _ (by omega) (by omega)]
        intro hc
        rw [show (((w.call x).toNat : Nat) : Int) = w.call x by omega, h3] at hc
        exact hne hc.symm
      · have := h2 x (by omega)
        omega
    · by_cases hxn : x ≤ n
      · rw [mem_others] at hxS
        exact (hmf x hx hxn).1 (by by_contra hc; exact hxS ⟨⟨hx, hxn⟩, hc⟩)
      · exact hod.out x (by omega)

theorem involutionsFixing?_spec {n k : Nat} {fixed : List Nat} (h : fixed.Sublist (ones n)) (hk : fixed.length = k)
    (hp : (n - k) % 2 = 0) : ∃ N R, (∀ fuel, N ≤ fuel → involutionsFixing? fuel n k fixed = some R) ∧ R.Nodup ∧
      ∀ w, w ∈ R ↔ Matching (others n fixed) w := by
  obtain ⟨N, D, h1, h2, h3⟩ := deltaLoop_top (n - k)
  have hl : (others n fixed).length = n - k := by rw [length_others h, hk]
  have hpos : ∀ x ∈ others n fixed, 1 ≤ x := fun x hx => (mem_others.1 hx).1.1
  have hnd : (others n fixed).Nodup := (nodup_ones n).filter _
  obtain ⟨R, r1, r2, r3⟩ := mapM_option_exists (f := fun delta => createLoop delta (others n fixed) identity) (l := D)
    (fun d hd => by
      obtain ⟨w, hw, _⟩ := createLoop_sound _ hl hp hpos hnd ((h3 d).1 hd)
      exact ⟨w, hw⟩)
  refine ⟨N, R, fun fuel hf => ?_, r3 h2 (fun d hd d' hd' he => createLoop_inj _ hl hp hpos hnd ((h3 d).1 hd) ((h3 d').1 hd') he),
    fun w => ?_⟩
  · rw [involutionsFixing?, h1 fuel hf]
    exact r1
  · rw [r2]
    constructor
    · rintro ⟨d, hd, he⟩
      obtain ⟨w', hw', hm⟩ := createLoop_sound _ hl hp hpos hnd ((h3 d).1 hd)
      rw [hw', Option.some.injEq] at he
      exact he ▸ hm
    · intro hm
      obtain ⟨_, d, hd, he⟩ := createLoop_complete _ hl hpos hnd hm
      exact ⟨d, (h3 d).2 hd, he⟩

/-- Lists of lists that are defined for enough fuel. -/
theorem mapM_fuel {α β : Type} {f : Nat → α → Option β} {l : List α} {g : α → β → Prop}
    (h : ∀ x ∈ l, ∃ N y, (∀ fuel, N ≤ fuel → f fuel x = some y) ∧ g x y) :
    ∃ N r, (∀ fuel, N ≤ fuel → l.mapM (f fuel) = some r) ∧ List.Forall₂ g l r := by
  induction l with
  | nil => exact ⟨0, [], fun _ _ => rfl, .nil⟩
  | cons x l ih =>
    obtain ⟨N, r, h1, h2⟩ := ih (fun y hy => h y (by simp [hy]))
    obtain ⟨N', y, h3, h4⟩ := h x (by simp)
    refine ⟨max N N', y :: r, fun fuel hf => ?_, .cons h4 h2⟩
    rw [List.mapM_cons, h3 fuel (by omega), h1 fuel (by omega)]
    rfl

/-- The concatenation of lists without repetitions for disjoint classes. -/
theorem flatten_classes {α β : Type} {l : List α} {r : List (List β)} {P : α → β → Prop}
    (h : List.Forall₂ (fun x y => y.Nodup ∧ ∀ w, w ∈ y ↔ P x w) l r) (hn : l.Nodup)
    (hd : ∀ x ∈ l, ∀ x' ∈ l, ∀ w, P x w → P x' w → x = x') :
    r.flatten.Nodup ∧ ∀ w, w ∈ r.flatten ↔ ∃ x ∈ l, P x w := by
  induction h with
  | nil => simp
  | @cons x y l r h1 h2 ih =>
    rw [List.nodup_cons] at hn
    obtain ⟨g1, g2⟩ := ih hn.2 (fun a ha b hb => hd a (by simp [ha]) b (by simp [hb]))
    rw [List.flatten_cons]
    constructor
    · rw [List.nodup_append]
      refine ⟨h1.1, g1, ?_⟩
      rintro a ha b hb rfl
      obtain ⟨x', hx', hP⟩ := (g2 a).1 hb
      have := hd x (by simp) x' (by simp [hx']) a ((h1.2 a).1 ha) hP
      subst this
      exact hn.1 hx'
    · intro w
      rw [List.mem_append, h1.2, g2]
      simp

/-- An unsigned involution of `1, ..., n`. -/
def UnsignedInvolution (n : Nat) (w : SPerm) : Prop :=
  w.rank ≤ n ∧ (∀ x : Int, 0 < x → 0 < w.call x) ∧ ∀ a, w.call (w.call a) = a

theorem mem_fixedCounts_false {n k : Nat} : k ∈ fixedCounts n false ↔ k ≤ n ∧ (n - k) % 2 = 0 := by
  simp [fixedCounts, List.mem_filter, Nat.lt_succ_iff]

theorem nodup_fixedCounts (n : Nat) (fpf : Bool) : (fixedCounts n fpf).Nodup := by
  cases fpf
  · simp only [fixedCounts, Bool.false_eq_true, if_false]
    rw [List.nodup_reverse]
    exact List.nodup_range.filter _
  · simp [fixedCounts]

theorem unsignedInvolutions?_spec {n : Nat} {fpf : Bool} (hf : fpf = true → n % 2 = 0) :
    ∃ N R, (∀ fuel, N ≤ fuel → unsignedInvolutions? fuel n fpf = some R) ∧ R.Nodup ∧
      ∀ w, w ∈ R ↔ UnsignedInvolution n w ∧ (fpf = true → ∀ x : Nat, 1 ≤ x → x ≤ n → w.call x ≠ x) := by
  obtain ⟨L, hL⟩ : ∃ L, (fixedCounts n fpf).flatMap (fun k => (combinations (ones n) k).map (fun fixed => (k, fixed))) = L := ⟨_, rfl⟩
  have hmem : ∀ p, p ∈ L ↔ p.1 ∈ fixedCounts n fpf ∧ p.2.Sublist (ones n) ∧ p.2.length = p.1 := by
    rintro ⟨k, fixed⟩
    rw [← hL]
    simp only [List.mem_flatMap, List.mem_map, mem_combinations, Prod.mk.injEq]
    constructor
    · rintro ⟨k', hk', f, ⟨h1, h2⟩, rfl, rfl⟩
      exact ⟨hk', h1, h2⟩
    · rintro ⟨h1, h2, h3⟩
      exact ⟨k, h1, fixed, ⟨h2, h3⟩, rfl, rfl⟩
  have hLn : L.Nodup := by
    rw [← hL, List.nodup_flatMap]
    constructor
    · intro k _
      refine (nodup_combinations _ (nodup_ones n) k).map (fun a b h => ?_)
      simpa using h
    · refine (nodup_fixedCounts n fpf).imp ?_
      intro a b hab
      rw [Function.onFun, List.disjoint_left]
      intro p h1 h2
      obtain ⟨_, _, rfl⟩ := List.mem_map.1 h1
      obtain ⟨_, _, he⟩ := List.mem_map.1 h2
      simp only [Prod.mk.injEq] at he
      exact hab he.1.symm
  have hpar : ∀ p ∈ L, (n - p.1) % 2 = 0 := by
    intro p hp
    have := ((hmem p).1 hp).1
    cases fpf
    · exact (mem_fixedCounts_false.1 this).2
    · simp only [fixedCounts, if_true, List.mem_singleton] at this
      rw [this]
      exact hf rfl
  obtain ⟨N, r, h1, h2⟩ := mapM_fuel (f := fun fuel (p : Nat × List Nat) => involutionsFixing? fuel n p.1 p.2) (l := L)
    (g := fun p y => y.Nodup ∧ ∀ w, w ∈ y ↔ Matching (others n p.2) w) (fun p hp => by
      obtain ⟨_, g2, g3⟩ := (hmem p).1 hp
      exact involutionsFixing?_spec g2 g3 (hpar p hp))
  obtain ⟨k1, k2⟩ := flatten_classes h2 hLn (fun p hp p' hp' w hw hw' => by
    obtain ⟨_, g2, g3⟩ := (hmem p).1 hp
    obtain ⟨_, g2', g3'⟩ := (hmem p').1 hp'
    have e1 := ((matching_others g2 w).1 hw).2
    have e2 := ((matching_others g2' w).1 hw').2
    have : p.2 = p'.2 := e1.trans e2.symm
    refine Prod.ext ?_ this
    rw [← g3, ← g3', this])
  refine ⟨N, r.flatten, fun fuel hfu => ?_, k1, fun w => ?_⟩
  · rw [unsignedInvolutions?]
    change ((((fixedCounts n fpf).flatMap (fun k => (combinations (ones n) k).map (fun fixed => (k, fixed)))).mapM
      (fun p => involutionsFixing? fuel n p.1 p.2)).bind fun parts => some parts.flatten) = _
    rw [hL, h1 fuel hfu]
    rfl
  · rw [k2]
    constructor
    · rintro ⟨p, hp, hm⟩
      obtain ⟨g1, g2, g3⟩ := (hmem p).1 hp
      obtain ⟨e1, e2⟩ := (matching_others g2 w).1 hm
      refine ⟨e1, fun hft x hx hxn hc => ?_⟩
      subst hft
      simp only [fixedCounts, if_true, List.mem_singleton] at g1
      rw [g1, List.length_eq_zero_iff] at g3
      rw [g3] at e2
      have : x ∈ (ones n).filter (fun x : Nat => w.call x = x) := by
        rw [List.mem_filter, mem_ones]
        simp [hx, hxn, hc]
      rw [← e2] at this
      simp at this
    · rintro ⟨hu, hfp⟩
      obtain ⟨fixed, hfx⟩ : ∃ fixed, (ones n).filter (fun x : Nat => w.call x = x) = fixed := ⟨_, rfl⟩
      have hs : fixed.Sublist (ones n) := hfx ▸ List.filter_sublist
      have hm := (matching_others hs w).2 ⟨hu, hfx.symm⟩
      refine ⟨(fixed.length, fixed), (hmem _).2 ⟨?_, hs, rfl⟩, hm⟩
      have hev := (createLoop_complete _ (length_others hs) (fun x hx => (mem_others.1 hx).1.1) ((nodup_ones n).filter _) hm).1
      cases fpf
      · rw [mem_fixedCounts_false]
        have := hs.length_le
        rw [length_ones] at this
        exact ⟨this, hev⟩
      · simp only [fixedCounts, if_true, List.mem_singleton, List.length_eq_zero_iff]
        rw [← hfx, List.filter_eq_nil_iff]
        intro x hx
        rw [mem_ones] at hx
        simpa using hfp rfl x hx.1 hx.2

end Verif.Perm
