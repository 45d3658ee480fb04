import Verif.Model.Permutations
import Mathlib.Data.Fintype.Card
import Mathlib.Data.List.Basic
import Mathlib.Data.List.GetD
import Mathlib.Data.Finset.Card
import Mathlib.Order.Interval.Finset.Defs
import Mathlib.Data.Int.Interval
import Mathlib.Tactic.Linarith
import Mathlib.Algebra.Group.End
import Mathlib.Data.Set.Finite.Basic

/-! Signed permutations as functions on the integers. -/

namespace Verif.Perm

attribute [-simp] List.getD_eq_getElem?_getD

/-- An odd permutation of the integers moving only numbers of absolute value at most `N`. -/
structure Odd (f : Int → Int) (N : Nat) : Prop where
  neg : ∀ i, f (-i) = -f i
  inj : ∀ i j, f i = f j → i = j
  bound : ∀ i, i.natAbs ≤ N → (f i).natAbs ≤ N
  out : ∀ i, N < i.natAbs → f i = i

theorem Odd.zero {f N} (h : Odd f N) : f 0 = 0 := by
  have := h.neg 0
  simp only [neg_zero] at this
  omega

theorem Odd.ne_zero {f N} (h : Odd f N) {i : Int} (hi : i ≠ 0) : f i ≠ 0 := by
  intro hc
  rw [← h.zero] at hc
  exact hi (h.inj _ _ hc)

theorem Odd.surj_on {f N} (h : Odd f N) (j : Int) : ∃ i, f i = j := by
  by_cases hj : N < j.natAbs
  · exact ⟨j, h.out j hj⟩
  · have hmem : ∀ a ∈ Finset.Icc (-(N : Int)) N, f a ∈ Finset.Icc (-(N : Int)) N := by
      intro a ha
      rw [Finset.mem_Icc] at ha ⊢
      have := h.bound a (by omega)
      omega
    obtain ⟨i, _, hi⟩ := Finset.surj_on_of_inj_on_of_card_le (s := Finset.Icc (-(N : Int)) N)
      (t := Finset.Icc (-(N : Int)) N) (fun a _ => f a) hmem (fun a b _ _ hab => h.inj a b hab) (le_refl _) j
      (by rw [Finset.mem_Icc]; omega)
    exact ⟨i, hi.symm⟩

theorem Odd.mono {f N M} (h : Odd f N) (hNM : N ≤ M) : Odd f M := by
  refine ⟨h.neg, h.inj, fun i hi => ?_, fun i hi => h.out i (by omega)⟩
  by_cases hi' : i.natAbs ≤ N
  · exact (h.bound i hi').trans hNM
  · rw [h.out i (by omega)]; exact hi

/-! ### the one-line notation -/

theorem isOneline_iff (l : List Int) : isOneline l = true ↔
    (∀ k < l.length, ∃ a ∈ l, a.natAbs = k + 1) ∧ ∀ a ∈ l, 1 ≤ a.natAbs ∧ a.natAbs ≤ l.length := by
  simp [isOneline, and_comm]

/-- The function described by a one-line notation. -/
def lineCall (l : List Int) (i : Int) : Int :=
  if 0 < i ∧ i ≤ l.length then l.getD (i - 1).toNat 0
  else if -(l.length : Int) ≤ i ∧ i < 0 then -l.getD (-i - 1).toNat 0
  else i

theorem call_eq (w : SPerm) (i : Int) : w.call i = lineCall w.oneline i := rfl

theorem lineCall_neg (l : List Int) (i : Int) : lineCall l (-i) = -lineCall l i := by
  unfold lineCall
  by_cases h1 : 0 < i ∧ i ≤ l.length
  · rw [if_neg (by omega), if_pos (by omega), if_pos h1, neg_neg]
  · rw [if_neg h1]
    by_cases h2 : -(l.length : Int) ≤ i ∧ i < 0
    · rw [if_pos (by omega), if_pos h2, neg_neg]
    · rw [if_neg (by omega), if_neg (by omega), if_neg h2]

theorem natAbs_inj_of_isOneline {l : List Int} (h : isOneline l = true) {i j : Nat} (hi : i < l.length)
    (hj : j < l.length) (he : l[i].natAbs = l[j].natAbs) : i = j := by
  rw [isOneline_iff] at h
  have hsurj : Function.Surjective (fun k : Fin l.length => (⟨l[k].natAbs - 1, by
      have := h.2 l[k] (List.getElem_mem k.2)
      omega⟩ : Fin l.length)) := by
    intro k
    obtain ⟨a, ha, hk⟩ := h.1 k.1 k.2
    obtain ⟨m, hm, rfl⟩ := List.getElem_of_mem ha
    refine ⟨⟨m, hm⟩, ?_⟩
    apply Fin.ext
    simp only [Fin.getElem_fin]
    omega
  have hinj := Finite.injective_iff_surjective.2 hsurj
  have := @hinj ⟨i, hi⟩ ⟨j, hj⟩ (by simp only [Fin.getElem_fin]; rw [Fin.mk.injEq, he])
  simpa using this

theorem lineCall_odd {l : List Int} (h : isOneline l = true) : Odd (lineCall l) l.length := by
  have h2 := ((isOneline_iff l).1 h).2
  have hpos : ∀ i : Int, 0 < i → i ≤ l.length → ∃ (k : Nat) (hk : k < l.length), i = k + 1 ∧ lineCall l i = l[k] := by
    intro i h0 h1
    refine ⟨(i - 1).toNat, by omega, by omega, ?_⟩
    rw [lineCall, if_pos ⟨h0, h1⟩, List.getD_eq_getElem _ _ (by omega)]
  have hout : ∀ i : Int, l.length < i.natAbs → lineCall l i = i := by
    intro i hi
    rw [lineCall, if_neg (by omega), if_neg (by omega)]
  have h0 : lineCall l 0 = 0 := by
    rw [lineCall, if_neg (by omega), if_neg (by omega)]
  have hb : ∀ i : Int, i.natAbs ≤ l.length → (lineCall l i).natAbs ≤ l.length ∧ (i ≠ 0 → (lineCall l i) ≠ 0) := by
    have hb' : ∀ i : Int, 0 < i → i ≤ l.length → (lineCall l i).natAbs ≤ l.length ∧ (lineCall l i) ≠ 0 := by
      intro i h0 h1
      obtain ⟨k, hk, _, he⟩ := hpos i h0 h1
      rw [he]
      have := h2 l[k] (List.getElem_mem hk)
      omega
    intro i hi
    rcases lt_trichotomy i 0 with h | h | h
    · have := hb' (-i) (by omega) (by omega)
      rw [lineCall_neg] at this
      omega
    · subst h; rw [h0]; omega
    · have := hb' i h (by omega)
      omega
  have hinjabs : ∀ i j : Int, 0 < i → 0 < j → i ≤ l.length → j ≤ l.length →
      (lineCall l i).natAbs = (lineCall l j).natAbs → i = j := by
    intro i j hi hj hi' hj' he
    obtain ⟨k, hk, hik, hek⟩ := hpos i hi hi'
    obtain ⟨m, hm, him, hem⟩ := hpos j hj hj'
    rw [hek, hem] at he
    have := natAbs_inj_of_isOneline h hk hm he
    omega
  have hnat : ∀ i j : Int, i.natAbs ≤ l.length → j.natAbs ≤ l.length → i ≠ 0 → j ≠ 0 →
      (lineCall l i).natAbs = (lineCall l j).natAbs → i.natAbs = j.natAbs := by
    intro i j hi hj hi0 hj0 he
    have key : ∀ i : Int, (lineCall l i).natAbs = (lineCall l (i.natAbs : Int)).natAbs := by
      intro i
      rcases Int.natAbs_eq i with h | h
      · rw [← h]
      · conv_lhs => rw [h, lineCall_neg]
        exact Int.natAbs_neg _
    rw [key i, key j] at he
    have := hinjabs _ _ (by omega) (by omega) (by omega) (by omega) he
    omega
  refine ⟨lineCall_neg l, fun i j he => ?_, fun i hi => (hb i hi).1, hout⟩
  by_cases hi : i.natAbs ≤ l.length
  · by_cases hj : j.natAbs ≤ l.length
    · by_cases hi0 : i = 0
      · subst hi0
        by_contra hj0
        rw [h0] at he
        exact (hb j hj).2 (fun h => hj0 h.symm) he.symm
      · by_cases hj0 : j = 0
        · subst hj0
          rw [h0] at he
          exact absurd he ((hb i hi).2 hi0)
        · have := hnat i j hi hj hi0 hj0 (by rw [he])
          by_contra hne
          have hij : i = -j := by omega
          rw [hij, lineCall_neg] at he
          have := (hb j hj).2 hj0
          omega
    · have := (hb i hi).1
      rw [he, hout j (by omega)] at this
      omega
  · by_cases hj : j.natAbs ≤ l.length
    · have := (hb j hj).1
      rw [← he, hout i (by omega)] at this
      omega
    · rw [hout i (by omega), hout j (by omega)] at he
      exact he

theorem call_odd (w : SPerm) : Odd w.call w.rank := lineCall_odd w.ok

theorem lineCall_dropLast {l : List Int} (h : l ≠ [] ∧ l.getLast? = some (l.length : Int)) (i : Int) :
    lineCall l.dropLast i = lineCall l i := by
  have hl := List.length_pos_iff.2 h.1
  have key : ∀ i : Int, 0 < i → lineCall l.dropLast i = lineCall l i := by
    intro i hi
    unfold lineCall
    rw [List.length_dropLast]
    by_cases h1 : i ≤ (l.length - 1 : Nat)
    · rw [if_pos ⟨hi, h1⟩, if_pos ⟨hi, by omega⟩, List.getD_eq_getElem _ _ (by rw [List.length_dropLast]; omega),
        List.getD_eq_getElem _ _ (by omega), List.getElem_dropLast]
    · rw [if_neg (by omega), if_neg (by omega)]
      by_cases h2 : i ≤ l.length
      · rw [if_pos ⟨hi, h2⟩]
        have : i = l.length := by omega
        have h3 := h.2
        rw [List.getLast?_eq_getElem?] at h3
        rw [List.getD_eq_getElem?_getD, show (i - 1).toNat = l.length - 1 by omega, h3]
        simpa using this
      · rw [if_neg (by omega), if_neg (by omega)]
  rcases lt_trichotomy i 0 with hi | hi | hi
  · have := key (-i) (by omega)
    rw [lineCall_neg, lineCall_neg] at this
    omega
  · subst hi
    rw [lineCall, if_neg (by omega), if_neg (by omega), lineCall, if_neg (by omega), if_neg (by omega)]
  · exact key i hi

theorem isOneline_dropLast {l : List Int} (h : l ≠ [] ∧ l.getLast? = some (l.length : Int)) (ho : isOneline l = true) :
    isOneline l.dropLast = true := by
  have hl := List.length_pos_iff.2 h.1
  rw [List.getLast?_eq_getElem?] at h
  have hlast : l[l.length - 1]'(by omega) = (l.length : Int) := by
    have h3 := h.2
    rw [List.getElem?_eq_getElem (by omega)] at h3
    exact Option.some.inj h3
  have hne : ∀ (m : Nat) (hm : m < l.length), l[m].natAbs = l.length → m = l.length - 1 := by
    intro m hm he
    exact natAbs_inj_of_isOneline ho hm (by omega) (by rw [he, hlast]; omega)
  have h0 := (isOneline_iff l).1 ho
  rw [isOneline_iff, List.length_dropLast]
  constructor
  · intro k hk
    obtain ⟨a, ha, hak⟩ := h0.1 k (by omega)
    obtain ⟨m, hm, rfl⟩ := List.getElem_of_mem ha
    have hm' : m < l.length - 1 := by
      by_contra hc
      have : m = l.length - 1 := by omega
      subst this
      rw [hlast] at hak
      omega
    refine ⟨l[m], ?_, hak⟩
    rw [← List.getElem_dropLast (i := m) (xs := l) (by rw [List.length_dropLast]; omega)]
    exact List.getElem_mem _
  · intro a ha
    obtain ⟨m, hm, rfl⟩ := List.getElem_of_mem ha
    rw [List.length_dropLast] at hm
    rw [List.getElem_dropLast]
    have h1 := h0.2 l[m] (List.getElem_mem _)
    have := hne m (by omega)
    refine ⟨h1.1, ?_⟩
    by_contra hc
    have := this (by omega)
    omega

theorem trimLine_spec (l : List Int) : (∀ i, lineCall (trimLine l) i = lineCall l i) ∧
    (isOneline l = true → isOneline (trimLine l) = true) := by
  rw [trimLine_eq]
  split
  · rename_i h
    obtain ⟨h1, h2⟩ := trimLine_spec l.dropLast
    exact ⟨fun i => (h1 i).trans (lineCall_dropLast h i), fun ho => h2 (isOneline_dropLast h ho)⟩
  · exact ⟨fun _ => rfl, fun h => h⟩
termination_by l.length
decreasing_by
  rename_i h
  have := List.length_pos_iff.2 h.1
  simp; omega

theorem construct_spec {l : List Int} (h : isOneline l = true) :
    ∃ w, construct l = some w ∧ ∀ i, w.call i = lineCall l i := by
  obtain ⟨h1, h2⟩ := trimLine_spec l
  refine ⟨_, dif_pos (h2 h), fun i => h1 i⟩

/-- The one-line notation of an odd permutation. -/
def line (f : Int → Int) (N : Nat) : List Int := (List.range N).map (fun i : Nat => f ((i : Int) + 1))

@[simp] theorem length_line (f N) : (line f N).length = N := by simp [line]

theorem getElem_line (f N) {k : Nat} (h : k < (line f N).length) : (line f N)[k] = f ((k : Int) + 1) := by
  simp [line]

theorem isOneline_line {f N} (h : Odd f N) : isOneline (line f N) = true := by
  rw [isOneline_iff, length_line]
  constructor
  · intro k hk
    obtain ⟨i, hi⟩ := h.surj_on ((k : Int) + 1)
    have hi0 : i ≠ 0 := by rintro rfl; rw [h.zero] at hi; omega
    have hiN : i.natAbs ≤ N := by
      by_contra hc
      rw [h.out i (by omega)] at hi
      omega
    rcases lt_or_gt_of_ne hi0 with hlt | hgt
    · refine ⟨f (((-i - 1).toNat : Int) + 1), List.mem_map.2 ⟨(-i - 1).toNat, List.mem_range.2 (by omega), rfl⟩, ?_⟩
      rw [show (((-i - 1).toNat : Nat) : Int) + 1 = -i by omega, h.neg, hi]
      omega
    · refine ⟨f (((i - 1).toNat : Int) + 1), List.mem_map.2 ⟨(i - 1).toNat, List.mem_range.2 (by omega), rfl⟩, ?_⟩
      rw [show (((i - 1).toNat : Nat) : Int) + 1 = i by omega, hi]
      omega
  · intro a ha
    obtain ⟨i, hi, rfl⟩ := List.mem_map.1 ha
    rw [List.mem_range] at hi
    have h1 := h.bound ((i : Int) + 1) (by omega)
    have h2 := h.ne_zero (i := (i : Int) + 1) (by omega)
    omega

theorem lineCall_line {f N} (h : Odd f N) (i : Int) : lineCall (line f N) i = f i := by
  have key : ∀ i : Int, 0 < i → lineCall (line f N) i = f i := by
    intro i hi
    rw [lineCall, length_line]
    by_cases h1 : i ≤ N
    · rw [if_pos ⟨hi, h1⟩, List.getD_eq_getElem _ _ (by rw [length_line]; omega)]
      rw [getElem_line]
      congr 1
      omega
    · rw [if_neg (by omega), if_neg (by omega), h.out i (by omega)]
  rcases lt_trichotomy i 0 with hi | hi | hi
  · have := key (-i) (by omega)
    rw [lineCall_neg, h.neg] at this
    omega
  · subst hi
    rw [h.zero, lineCall, if_neg (by omega), if_neg (by omega)]
  · exact key i hi

theorem construct_line {f N} (h : Odd f N) : ∃ w, construct (line f N) = some w ∧ ∀ i, w.call i = f i := by
  obtain ⟨w, h1, h2⟩ := construct_spec (isOneline_line h)
  exact ⟨w, h1, fun i => (h2 i).trans (lineCall_line h i)⟩

/-- Two permutations that agree as functions are equal. -/
theorem ext_call {u v : SPerm} (h : ∀ i, u.call i = v.call i) : u = v := by
  have hrank : ∀ {u v : SPerm}, (∀ i, u.call i = v.call i) → v.rank ≤ u.rank := by
    intro u v h
    by_contra hc
    have h1 : v.call (v.rank : Int) = v.rank := by
      rw [← h]
      exact (call_odd u).out _ (by omega)
    apply v.trimmed
    rw [List.getLast?_eq_getElem?]
    rw [call_eq, lineCall] at h1
    have hr : v.rank = v.oneline.length := rfl
    rw [if_pos (by omega), List.getD_eq_getElem _ _ (by omega)] at h1
    rw [List.getElem?_eq_getElem (by omega)]
    congr 1
    simp only [show ((v.rank : Int) - 1).toNat = v.oneline.length - 1 by omega] at h1
    exact h1
  have hr : u.rank = v.rank := le_antisymm (hrank (fun i => (h i).symm)) (hrank h)
  have hl : u.oneline = v.oneline := by
    refine List.ext_getElem hr (fun k h1 h2 => ?_)
    have := h ((k : Int) + 1)
    rw [call_eq, call_eq, lineCall, lineCall, if_pos (by omega), if_pos (by omega),
      List.getD_eq_getElem _ _ (by omega), List.getD_eq_getElem _ _ (by omega)] at this
    simpa using this
  cases u; cases v
  simp only at hl
  subst hl
  rfl

/-! ### the operations as functions -/

theorem call_identity (i : Int) : identity.call i = i := by
  rw [call_eq, lineCall]
  have : identity.oneline.length = 0 := rfl
  rw [this, if_neg (by omega), if_neg (by omega)]

theorem mul_odd (u v : SPerm) : Odd (fun i => u.call (v.call i)) (max u.rank v.rank) := by
  have hu := (call_odd u).mono (le_max_left u.rank v.rank)
  have hv := (call_odd v).mono (le_max_right u.rank v.rank)
  refine ⟨fun i => ?_, fun i j h => hv.inj _ _ (hu.inj _ _ h), fun i hi => hu.bound _ (hv.bound _ hi), fun i hi => ?_⟩
  · rw [hv.neg, hu.neg]
  · rw [hv.out i hi, hu.out i hi]

theorem mul?_spec (u v : SPerm) : ∃ w, mul? u v = some w ∧ ∀ i, w.call i = u.call (v.call i) :=
  construct_line (mul_odd u v)

theorem mul?_eq (u v : SPerm) : mul? u v = some (mul u v) := by
  obtain ⟨w, h, _⟩ := mul?_spec u v
  rw [mul, h]; rfl

@[simp] theorem call_mul (u v : SPerm) (i : Int) : (mul u v).call i = u.call (v.call i) := by
  obtain ⟨w, h, hw⟩ := mul?_spec u v
  rw [mul, h]; exact hw i

theorem mul_assoc' (u v w : SPerm) : mul (mul u v) w = mul u (mul v w) := ext_call (fun i => by simp)
theorem one_mul' (w : SPerm) : mul identity w = w := ext_call (fun i => by simp [call_identity])
theorem mul_one' (w : SPerm) : mul w identity = w := ext_call (fun i => by simp [call_identity])

/-! inverse -/

theorem inverse?_spec (w : SPerm) : ∃ v, inverse? w = some v ∧ ∀ i, v.call (w.call i) = i := by
  have hw := call_odd w
  -- the inverse function
  choose g hg using hw.surj_on
  have hginj : ∀ i j, g i = g j → i = j := by
    intro i j h
    rw [← hg i, h, hg j]
  have hgw : ∀ i, g (w.call i) = i := fun i => hw.inj _ _ (hg _)
  have hgo : Odd g w.rank := by
    refine ⟨fun i => ?_, hginj, fun i hi => ?_, fun i hi => ?_⟩
    · apply hw.inj; rw [hg, hw.neg, hg]
    · by_contra hc
      have := hg i
      rw [hw.out _ (by omega)] at this
      omega
    · have := hgw i
      rwa [hw.out i hi] at this
  have hline : inverseLine w = line g w.rank := by
    have hinv : ∀ m ≤ w.rank, (((List.range m).foldl (fun (nl : List Int) (i : Nat) =>
        let j := w.call ((i : Int) + 1)
        if j > 0 then nl.set (j - 1).toNat ((i : Int) + 1) else nl.set (-j - 1).toNat (-((i : Int) + 1)))
        (List.replicate w.rank 0)).length = w.rank) ∧ ∀ k < w.rank, (g ((k : Int) + 1)).natAbs ≤ m →
        ((List.range m).foldl (fun (nl : List Int) (i : Nat) =>
        let j := w.call ((i : Int) + 1)
        if j > 0 then nl.set (j - 1).toNat ((i : Int) + 1) else nl.set (-j - 1).toNat (-((i : Int) + 1)))
        (List.replicate w.rank 0)).getD k 0 = g ((k : Int) + 1) := by
      intro m
      induction m with
      | zero =>
        intro _
        refine ⟨by simp, fun k hk h => ?_⟩
        have := hgo.ne_zero (i := (k : Int) + 1) (by omega)
        omega
      | succ m ih =>
        intro hm
        obtain ⟨ih1, ih2⟩ := ih (by omega)
        rw [List.range_succ, List.foldl_append]
        simp only [List.foldl_cons, List.foldl_nil]
        set nl := ((List.range m).foldl (fun (nl : List Int) (i : Nat) =>
          if w.call ((i : Int) + 1) > 0 then nl.set (w.call ((i : Int) + 1) - 1).toNat ((i : Int) + 1)
          else nl.set (-w.call ((i : Int) + 1) - 1).toNat (-((i : Int) + 1))) (List.replicate w.rank 0)) with hnl
        have ih1 : nl.length = w.rank := ih1
        have ih2 : ∀ k < w.rank, (g ((k : Int) + 1)).natAbs ≤ m → nl.getD k 0 = g ((k : Int) + 1) := ih2
        have hj0 := hw.ne_zero (i := (m : Int) + 1) (by omega)
        have hjb := hw.bound ((m : Int) + 1) (by omega)
        have hgj := hgw ((m : Int) + 1)
        set j := w.call ((m : Int) + 1) with hj
        refine ⟨by split <;> simp [ih1], fun k hk hkm => ?_⟩
        have hset : ∀ (a : Nat) (v : Int), a < w.rank → (nl.set a v).getD k 0 = if a = k then v else nl.getD k 0 := by
          intro a v ha
          rw [List.getD_eq_getElem _ _ (by rw [List.length_set]; omega), List.getElem_set,
            List.getD_eq_getElem _ _ (by omega)]
        by_cases hkm' : (g ((k : Int) + 1)).natAbs ≤ m
        · have hne : ¬ j.natAbs = k + 1 := by
            intro hc
            rcases Int.natAbs_eq j with h | h
            · rw [h, hc] at hgj
              push_cast at hgj
              omega
            · rw [h, hc, hgo.neg] at hgj
              push_cast at hgj
              omega
          split
          · rw [hset _ _ (by omega), if_neg (by omega), ih2 k hk hkm']
          · rw [hset _ _ (by omega), if_neg (by omega), ih2 k hk hkm']
        · have hgk : g ((k : Int) + 1) = (m : Int) + 1 ∨ g ((k : Int) + 1) = -((m : Int) + 1) := by omega
          rcases hgk with h | h
          · have hjk : j = (k : Int) + 1 := by rw [hj, ← h, hg]
            rw [if_pos (by omega), hset _ _ (by omega), if_pos (by omega), h]
          · have hjk : j = -((k : Int) + 1) := by
              have := hg ((k : Int) + 1)
              rw [h, hw.neg] at this
              omega
            rw [if_neg (by omega), hset _ _ (by omega), if_pos (by omega), h]
    obtain ⟨h1, h2⟩ := hinv w.rank (le_refl _)
    have h1 : (inverseLine w).length = w.rank := h1
    refine List.ext_getElem (by rw [length_line]; exact h1) (fun k hk1 hk2 => ?_)
    have hk : k < w.rank := by rw [length_line] at hk2; exact hk2
    have h3 : (inverseLine w).getD k 0 = g ((k : Int) + 1) := h2 k hk (hgo.bound _ (by omega))
    rw [List.getD_eq_getElem _ _ hk1] at h3
    rw [h3]
    simp [line]
  obtain ⟨v, h1, h2⟩ := construct_line hgo
  refine ⟨v, ?_, fun i => by rw [h2, hgw]⟩
  rw [inverse?, hline, h1]

theorem inverse?_eq (w : SPerm) : inverse? w = some (inverse w) := by
  obtain ⟨v, h, _⟩ := inverse?_spec w
  rw [inverse, h]; rfl

@[simp] theorem inverse_call (w : SPerm) (i : Int) : (inverse w).call (w.call i) = i := by
  obtain ⟨v, h, hv⟩ := inverse?_spec w
  rw [inverse, h]; exact hv i

@[simp] theorem call_inverse (w : SPerm) (i : Int) : w.call ((inverse w).call i) = i := by
  obtain ⟨j, rfl⟩ := (call_odd w).surj_on i
  rw [inverse_call]

theorem mul_inverse (w : SPerm) : mul w (inverse w) = identity := ext_call (fun i => by simp [call_identity])
theorem inverse_mul (w : SPerm) : mul (inverse w) w = identity := ext_call (fun i => by simp [call_identity])

theorem inverse_inverse (w : SPerm) : inverse (inverse w) = w := by
  apply ext_call
  intro i
  apply (call_odd (inverse w)).inj
  simp

theorem inverse_mul_rev (u v : SPerm) : inverse (mul u v) = mul (inverse v) (inverse u) := by
  apply ext_call
  intro i
  apply (call_odd (mul u v)).inj
  rw [call_inverse]
  simp

/-! generators -/

/-- The function of `s_i`. -/
def sFun (i : Nat) (a : Int) : Int :=
  if i = 0 then (if a = 1 then -1 else if a = -1 then 1 else a)
  else if a = i then i + 1 else if a = i + 1 then i else if a = -i then -(i + 1) else if a = -(i + 1) then -i else a

theorem sFun_odd (i : Nat) : Odd (sFun i) (i + 1) := by
  refine ⟨fun a => ?_, fun a b => ?_, fun a => ?_, fun a => ?_⟩ <;> unfold sFun <;> (repeat' split) <;> omega

theorem sLine_eq (i : Nat) : sLine i = line (sFun i) (if i = 0 then 1 else i + 1) := by
  unfold sLine
  split
  · subst i; rfl
  · rename_i h
    refine List.ext_getElem (by rw [length_line, List.length_append]; simp; omega) (fun k h1 h2 => ?_)
    rw [getElem_line]
    simp only [length_line] at h2
    by_cases hk : k < i - 1
    · rw [List.getElem_append_left (by simpa using hk)]
      simp only [List.getElem_map, List.getElem_range]
      unfold sFun
      rw [if_neg h]
      (repeat' split) <;> omega
    · rw [List.getElem_append_right (by simpa using hk)]
      simp only [List.length_map, List.length_range]
      rcases (show k = i - 1 ∨ k = i by omega) with rfl | rfl
      · simp only [Nat.sub_self, List.getElem_cons_zero]
        unfold sFun
        rw [if_neg h]
        (repeat' split) <;> omega
      · have : k - (k - 1) = 1 := by omega
        simp only [this, List.getElem_cons_succ, List.getElem_cons_zero]
        unfold sFun
        rw [if_neg h]
        (repeat' split) <;> omega

theorem sFun_odd' (i : Nat) : Odd (sFun i) (if i = 0 then 1 else i + 1) := by
  split
  · subst i; exact sFun_odd 0
  · exact sFun_odd i

theorem s?_spec (i : Nat) : ∃ w, s? i = some w ∧ ∀ a, w.call a = sFun i a := by
  rw [s?, sLine_eq]; exact construct_line (sFun_odd' i)

theorem s?_eq (i : Nat) : s? i = some (s i) := by
  obtain ⟨w, h, _⟩ := s?_spec i
  rw [s, h]; rfl

@[simp] theorem call_s (i : Nat) (a : Int) : (s i).call a = sFun i a := by
  obtain ⟨w, h, hw⟩ := s?_spec i
  rw [s, h]; exact hw a

@[simp] theorem sFun_sFun (i : Nat) (a : Int) : sFun i (sFun i a) = a := by
  unfold sFun
  (repeat' split) <;> omega

theorem s_mul_s (i : Nat) : mul (s i) (s i) = identity := ext_call (fun a => by simp [call_identity])

theorem mul_s_s (w : SPerm) (i : Nat) : mul (mul w (s i)) (s i) = w := by
  rw [mul_assoc', s_mul_s, mul_one']

theorem s_mul_s_mul (w : SPerm) (i : Nat) : mul (s i) (mul (s i) w) = w := by
  rw [← mul_assoc', s_mul_s, one_mul']

theorem inverse_s (i : Nat) : inverse (s i) = s i := by
  apply ext_call
  intro a
  apply (call_odd (s i)).inj
  rw [call_inverse, call_s, call_s, sFun_sFun]

end Verif.Perm
