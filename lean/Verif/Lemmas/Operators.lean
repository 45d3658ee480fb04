import Verif.Model.Operators
import Verif.Lemmas.PartitionsMore
import Verif.Lemmas.PartitionsCorner
import Verif.Lemmas.Dualops
import Verif.Lemmas.Vector
import Mathlib.Tactic.Tauto
import Mathlib.Tactic.Abel
import Mathlib.Data.List.GetD

/-! The operators of operators.py that add boxes. -/

attribute [-simp] List.getD_eq_getElem?_getD

namespace Verif.Operators

open Verif.Part Partition Dualops

/-! ### corners and parts -/

section Parts

variable {mu nu : List Nat} {i : Nat}

theorem inner_iff (hm : IsStrict mu) : (∃ r, findShiftedInnerCorner mu i = some r) ↔ i + 1 ∈ mu ∧ i ∉ mu := by
  simp only [findShiftedInnerCorner_spec hm, Corners, Set.mem_ofPred_eq, mem_shiftedDiagram]
  have hst := (strict_iff.1 hm).2
  constructor
  · rintro ⟨r, ⟨h1, h2, h3⟩, h4, h5⟩
    have e : mu.getD (r - 1) 0 = i + 1 := by omega
    refine ⟨(mem_iff hm.2).2 ⟨by omega, r - 1, e⟩, fun hi => ?_⟩
    obtain ⟨h0, k, hk⟩ := (mem_iff hm.2).1 hi
    have h6 : mu.getD r 0 < i := by
      rw [Nat.add_sub_cancel] at h4
      omega
    rcases lt_trichotomy k (r - 1) with h | h | h
    · have := strict_lt hm h (by omega)
      omega
    · rw [h] at hk
      omega
    · rcases Nat.lt_or_ge r k with h' | h'
      · have := strict_lt hm h' (by omega)
        omega
      · rw [show k = r by omega] at hk
        omega
  · rintro ⟨h1, h2⟩
    obtain ⟨_, k, hk⟩ := (mem_iff hm.2).1 h1
    have h3 := hst k (by omega)
    refine ⟨k + 1, ⟨by omega, by omega, by rw [Nat.add_sub_cancel]; omega⟩, fun hc => ?_, fun hc => ?_⟩
    · rw [Nat.add_sub_cancel] at hc
      exact h2 ((mem_iff hm.2).2 ⟨by omega, k + 1, by omega⟩)
    · rw [Nat.add_sub_cancel] at hc
      omega

theorem add_getD {row : Nat} (h1 : 1 ≤ row) (h2 : row ≤ mu.length + 1) : ∃ l, Partition.add mu row = some l ∧
    (∀ k, l.getD k 0 = if k + 1 = row then mu.getD k 0 + 1 else mu.getD k 0) ∧ ((∀ a ∈ mu, 0 < a) → ∀ a ∈ l, 0 < a) := by
  rw [Partition.add]
  by_cases h3 : row ≤ mu.length
  · rw [if_pos h3]
    refine ⟨_, rfl, fun k => ?_, fun hp a ha => ?_⟩
    · rw [Partition.getD_set _ _ _ _ (by omega)]
      by_cases hk : k + 1 = row
      · rw [if_pos (by omega), if_pos hk, show row - 1 = k by omega]
      · rw [if_neg (by omega), if_neg hk]
    · rcases List.mem_or_eq_of_mem_set ha with h | h
      · exact hp a h
      · omega
  · rw [if_neg h3, if_pos (by omega)]
    refine ⟨_, rfl, fun k => ?_, fun hp a ha => ?_⟩
    · by_cases hk : k + 1 = row
      · rw [if_pos hk, List.getD_append_right _ _ _ _ (by omega), List.getD_eq_default mu _ (by omega),
          show k - mu.length = 0 by omega]
        rfl
      · rw [if_neg hk]
        rcases Nat.lt_or_ge k mu.length with h | h
        · rw [List.getD_append _ _ _ _ h]
        · rw [List.getD_eq_default _ _ (by rw [List.length_append, List.length_singleton]; omega),
            List.getD_eq_default _ _ h]
    · rcases List.mem_append.1 ha with h | h
      · exact hp a h
      · rw [List.mem_singleton.1 h]
        omega

/-- Adding a box on diagonal `i`: the part `i` becomes `i + 1`. -/
structure Adds (i : Nat) (mu nu : List Nat) : Prop where
  strict : IsStrict nu
  part : i = 0 ∨ i ∈ mu
  free : i + 1 ∉ mu
  parts : PartMove i i mu nu

theorem outer_some (hm : IsStrict mu) {row : Nat} (h : findShiftedOuterCorner mu i = some row) :
    ∃ nu, Partition.add mu row = some nu ∧ Adds i mu nu := by
  obtain ⟨h1, nu, hn, hs⟩ := (findShiftedOuterCorner_spec hm i row).1 h
  have hbox : (row, row + i) ∈ ShiftedDiagram nu := by
    rw [hs]
    exact Or.inr rfl
  have hb := mem_shiftedDiagram.1 hbox
  have hadd : AddsRow i i mu nu := by
    refine ⟨row, hb.1, fun c c1 c2 => by rwa [show c = i by omega], ?_⟩
    rw [hs]
    congr 1
    ext x
    simp only [Set.mem_singleton_iff, Set.mem_ofPred_eq]
    constructor
    · rintro rfl
      exact ⟨i, le_rfl, le_rfl, rfl⟩
    · rintro ⟨c, c1, c2, rfl⟩
      rw [show c = i by omega]
  have hmove := (rowMove_iff le_rfl).2 hadd
  obtain ⟨c1, c2⟩ := hmove.parts hm hn
  have hget : ∀ k, nu.getD k 0 = if k + 1 = row then mu.getD k 0 + 1 else mu.getD k 0 := by
    have hrow : ∀ k c, (k + 1 ≤ c ∧ c < k + 1 + nu.getD k 0) ↔ (k + 1 ≤ c ∧ c < k + 1 + mu.getD k 0) ∨
        (k + 1 = row ∧ c = row + i) := by
      intro k c
      have := congrArg (fun D => (k + 1, c) ∈ D) hs
      simp only [Set.mem_union, Set.mem_singleton_iff, Prod.mk.injEq] at this
      have e := this.to_iff
      rw [mem_shiftedDiagram, mem_shiftedDiagram, Nat.add_sub_cancel] at e
      constructor
      · intro h
        rcases e.1 ⟨by omega, h⟩ with h | h
        · exact Or.inl h.2
        · exact Or.inr h
      · intro h
        refine (e.2 ?_).2
        rcases h with h | h
        · exact Or.inl ⟨by omega, h⟩
        · exact Or.inr h
    intro k
    by_cases hk : k + 1 = row
    · rw [if_pos hk]
      rw [mem_shiftedDiagram, ← hk, Nat.add_sub_cancel] at h1
      have e1 := hrow k (k + 1 + i)
      have e2 := hrow k (k + 1 + mu.getD k 0)
      have e3 := hrow k (k + 1 + mu.getD k 0 + 1)
      have e4 := hrow k (k + 1 + i - 1)
      omega
    · rw [if_neg hk]
      have e1 := hrow k (k + 1 + mu.getD k 0)
      have e2 := hrow k (k + 1 + nu.getD k 0)
      omega
  have hlen : row ≤ mu.length + 1 := by
    by_contra hc
    have h6 := strict_lt hn (i := row - 2) (j := row - 1) (by omega) (by omega)
    have h7 := hget (row - 2)
    rw [if_neg (by omega), List.getD_eq_default mu _ (by omega)] at h7
    omega
  obtain ⟨l, e1, e2, e3⟩ := add_getD hb.1 hlen
  obtain rfl : l = nu := row_ext (e3 hm.2) hn.2 (fun k => by rw [e2, hget])
  refine ⟨l, e1, hn, c1.1, c1.2 _ (by omega) le_rfl, c2⟩

theorem outer_none (hm : IsStrict mu) (h : findShiftedOuterCorner mu i = none) : ¬ Adds i mu nu := by
  intro ha
  have hh : horizontalOp i i mu = some nu := (horizontalOp_iff hm le_rfl).2 ⟨ha.strict, ⟨ha.part, fun t t1 t2 => by
    rw [show t = i + 1 by omega]
    exact ha.free⟩, ha.parts⟩
  obtain ⟨_, h2⟩ := horizontalOp_some hm le_rfl hh
  obtain ⟨row, _, h4, h5⟩ := (rowMove_iff le_rfl).1 h2
  have := (findShiftedOuterCorner_spec hm i row).2 ⟨h4 i le_rfl le_rfl, nu, ha.strict, by
    rw [h5]
    congr 1
    ext x
    simp only [Set.mem_singleton_iff, Set.mem_ofPred_eq]
    constructor
    · rintro ⟨c, c1, c2, rfl⟩
      rw [show c = i by omega]
    · rintro rfl
      exact ⟨i, le_rfl, le_rfl, rfl⟩⟩
  rw [h] at this
  exact absurd this (by simp)

/-- Removing the corner on diagonal `i`: the part `i + 1` becomes `i`. -/
def lower (i : Nat) (nu : List Nat) : List Nat := (nu.map (fun t => if t = i + 1 then i else t)).filter (fun t => t ≠ 0)

theorem mem_lower (h : i + 1 ∈ nu) {t : Nat} :
    t ∈ lower i nu ↔ 0 < t ∧ (t = i ∨ (t ∈ nu ∧ t ≠ i + 1)) := by
  rw [lower, List.mem_filter, List.mem_map, decide_eq_true_eq]
  constructor
  · rintro ⟨⟨s, h1, h2⟩, h3⟩
    refine ⟨by omega, ?_⟩
    split at h2
    · exact Or.inl h2.symm
    · rename_i hs
      rw [← h2]
      exact Or.inr ⟨h1, hs⟩
  · rintro ⟨h0, rfl | ⟨h1, h2⟩⟩
    · exact ⟨⟨t + 1, h, if_pos rfl⟩, by omega⟩
    · exact ⟨⟨t, h1, if_neg h2⟩, by omega⟩

theorem lower_strict (hn : IsStrict nu) (h2 : i ∉ nu) : IsStrict (lower i nu) := by
  constructor
  · rw [lower]
    refine List.Pairwise.filter _ ?_
    rw [List.pairwise_map]
    refine List.Pairwise.imp_of_mem ?_ hn.1
    intro a b ha hb hab
    have h3 : a ≠ i := fun h => h2 (h ▸ ha)
    have h4 : b ≠ i := fun h => h2 (h ▸ hb)
    split <;> split <;> omega
  · intro a ha
    rw [lower, List.mem_filter, decide_eq_true_eq] at ha
    omega

/-- `mu` becomes `nu` by adding a box on diagonal `i` iff `nu` has a corner there and `mu` is `nu` without it. -/
theorem adds_iff (hm : IsStrict mu) (hn : IsStrict nu) : Adds i mu nu ↔ (i + 1 ∈ nu ∧ i ∉ nu) ∧ mu = lower i nu := by
  constructor
  · intro h
    have h1 : i + 1 ∈ nu := (h.parts _).2 (Or.inl rfl)
    have h2 : i ∉ nu := fun hc => by
      rcases (h.parts _).1 hc with h | h
      · omega
      · exact h.2 rfl
    refine ⟨⟨h1, h2⟩, strict_ext hm (lower_strict hn h2) (fun t => ?_)⟩
    rw [mem_lower h1]
    have e := h.parts t
    have e0 : t ∈ mu → 0 < t := hm.2 t
    have e1 := h.part
    have e2 := h.free
    by_cases t1 : t = i
    · subst t1
      constructor
      · intro ht
        exact ⟨e0 ht, Or.inl rfl⟩
      · intro ht
        exact e1.resolve_left (by omega)
    · by_cases t2 : t = i + 1
      · subst t2
        constructor
        · intro ht
          exact absurd ht e2
        · rintro ⟨_, ht | ht⟩
          · omega
          · exact absurd rfl ht.2
      · tauto
  · rintro ⟨⟨h1, h2⟩, rfl⟩
    refine ⟨hn, ?_, ?_, fun t => ?_⟩
    · rw [mem_lower h1]
      by_cases h0 : i = 0
      · exact Or.inl h0
      · exact Or.inr ⟨by omega, Or.inl rfl⟩
    · rw [mem_lower h1]
      rintro ⟨_, h | h⟩
      · omega
      · exact h.2 rfl
    · rw [mem_lower h1]
      have e0 : t ∈ nu → 0 < t := hn.2 t
      by_cases t1 : t = i + 1
      · subst t1
        simp [h1]
      · by_cases t2 : t = i
        · subst t2
          simp [h2]
        · tauto

end Parts

/-! ### sums over the items of a vector -/

section Sums

variable {R : Type*} [CommRing R] [DecidableEq R]

/-- The coefficient of `nu` in a result; the int `0` has no coefficients. -/
def coef (r : Res R) (nu : List Nat) : R :=
  match r with
  | none => 0
  | some v => v.get nu

/-- All keys are strict partitions. -/
def StrictKeys (v : Vec (List Nat) R) : Prop := ∀ mu ∈ v.dict.keys, IsStrict mu

/-- All keys are strict partitions. -/
def StrictRes (r : Res R) : Prop := ∀ v, r = some v → StrictKeys v

theorem coef_nonstrict {r : Res R} (h : StrictRes r) {nu : List Nat} (hn : ¬ IsStrict nu) : coef r nu = 0 := by
  cases r with
  | none => rfl
  | some v => exact Vec.get_of_notMem (fun hc => hn (h v rfl nu hc))

theorem get_single (mu : List Nat) (c : R) (nu : List Nat) : (single mu c).get nu = if mu = nu then c else 0 := by
  rw [single, Vec.get_mk', Dict.getD_set]
  rfl

theorem noZero_single (mu : List Nat) (c : R) : Vec.NoZero (single mu c) := Vec.noZero_mk' _ _

theorem strict_of_get {v : Vec (List Nat) R} (hv : Vec.NoZero v) (h : ∀ mu, v.get mu ≠ 0 → IsStrict mu) : StrictKeys v :=
  fun mu hmu => h mu ((Vec.mem_keys_iff hv mu).1 hmu)

theorem coef_plus (ans : Res R) (v : Vec (List Nat) R) (nu : List Nat) : (plus ans v).get nu = coef ans nu + v.get nu := by
  cases ans with
  | none => rw [plus, coef, zero_add]
  | some u => rw [plus, Vec.get_add, coef]

/-- Sums over the items. -/
theorem sum_items_ite (v : Vec (List Nat) R) (k : List Nat) :
    (v.dict.items.map (fun p => if p.1 = k then p.2 else 0)).sum = v.get k := by
  rw [← Vec.den_apply, Vec.den, Vec.ofTerms_apply]
  generalize v.dict.items = l
  induction l with
  | nil => rfl
  | cons a l ih =>
    rw [List.map_cons, List.sum_cons, ih, List.filter_cons]
    by_cases h : a.1 = k <;> simp [h]

omit [DecidableEq R] in
/-- A fold that adds to the coefficients. -/
theorem foldlM_sum {step : Res R → List Nat × R → Option (Res R)} {g : List Nat × R → List Nat → R}
    (l : List (List Nat × R)) (hstep : ∀ ans, ∀ p ∈ l, ∃ r, step ans p = some r ∧ ∀ nu, coef r nu = coef ans nu + g p nu) :
    ∀ ans, ∃ r, l.foldlM step ans = some r ∧ ∀ nu, coef r nu = coef ans nu + (l.map (fun p => g p nu)).sum := by
  induction l with
  | nil =>
    intro ans
    exact ⟨ans, rfl, fun nu => by simp⟩
  | cons p l ih =>
    intro ans
    obtain ⟨r, h1, h2⟩ := hstep ans p (by simp)
    obtain ⟨r', h3, h4⟩ := ih (fun ans q hq => hstep ans q (by simp [hq])) r
    refine ⟨r', ?_, fun nu => ?_⟩
    · rw [List.foldlM_cons, h1]
      exact h3
    · rw [h4, h2, List.map_cons, List.sum_cons, add_assoc]

/-- A fold that keeps vectors without zeros. -/
def GoodRes (r : Res R) : Prop := ∀ v, r = some v → Vec.NoZero v

omit [DecidableEq R] in
theorem foldlM_inv {α β : Type*} {step : β → α → Option β} {P : β → Prop}
    (hstep : ∀ ans p r, P ans → step ans p = some r → P r) (l : List α) :
    ∀ ans r, P ans → l.foldlM step ans = some r → P r := by
  induction l with
  | nil =>
    intro ans r h1 h2
    rw [List.foldlM_nil] at h2
    rw [← Option.some.inj h2]
    exact h1
  | cons p l ih =>
    intro ans r h1 h2
    rw [List.foldlM_cons] at h2
    cases h3 : step ans p with
    | none =>
      rw [h3] at h2
      exact absurd h2 (by simp)
    | some s =>
      rw [h3] at h2
      exact ih s r (hstep ans p s h1 h3) h2

theorem good_plus {ans : Res R} (h : GoodRes ans) {v : Vec (List Nat) R} (hv : Vec.NoZero v) : Vec.NoZero (plus ans v) := by
  cases ans with
  | none => exact hv
  | some u => exact Vec.noZero_add (h u rfl)

/-! ### operator_shifted_add -/

/-- What `operator_shifted_add(index)` does to the coefficients. -/
def addCoef (beta : R) (i : Nat) (f : List Nat → R) (nu : List Nat) : R :=
  if i + 1 ∈ nu ∧ i ∉ nu then beta * f nu + f (lower i nu) else 0

open scoped Classical in
/-- The contribution of an item. -/
noncomputable def addTerm (beta : R) (i : Nat) (p : List Nat × R) (nu : List Nat) : R :=
  if IsStrict nu ∧ i + 1 ∈ nu ∧ i ∉ nu then
    beta * (if p.1 = nu then p.2 else 0) + (if p.1 = lower i nu then p.2 else 0) else 0

theorem step_spec (beta : R) (index : Int) (ans : Res R) {p : List Nat × R} (hp : IsStrict p.1) :
    ∃ r, shiftedAddStep beta index ans p = some r ∧
      ∀ nu, coef r nu = coef ans nu + addTerm beta index.natAbs p nu := by
  classical
  rw [shiftedAddStep]
  obtain ⟨i, hi⟩ : ∃ i, index.natAbs = i := ⟨_, rfl⟩
  rw [hi]
  cases h1 : findShiftedInnerCorner p.1 i with
  | some r0 =>
    refine ⟨_, rfl, fun nu => ?_⟩
    have hc := (inner_iff hp).1 ⟨r0, h1⟩
    change (plus ans _).get nu = _
    rw [coef_plus, get_single, addTerm]
    congr 1
    by_cases hn : IsStrict nu ∧ i + 1 ∈ nu ∧ i ∉ nu
    · rw [if_pos hn, if_neg (c := p.1 = lower i nu), add_zero]
      · split <;> simp
      · intro he
        have := ((adds_iff hp hn.1).2 ⟨hn.2, he⟩).free
        exact this hc.1
    · rw [if_neg hn, if_neg]
      rintro rfl
      exact hn ⟨hp, hc⟩
  | none =>
    have hnc : ¬ (i + 1 ∈ p.1 ∧ i ∉ p.1) := by
      rw [← inner_iff hp]
      simp [h1]
    have hne : ∀ nu, (IsStrict nu ∧ i + 1 ∈ nu ∧ i ∉ nu) → p.1 ≠ nu := by
      rintro nu h rfl
      exact hnc h.2
    cases h2 : findShiftedOuterCorner p.1 i with
    | none =>
      refine ⟨_, rfl, fun nu => ?_⟩
      rw [addTerm]
      by_cases hn : IsStrict nu ∧ i + 1 ∈ nu ∧ i ∉ nu
      · rw [if_pos hn, if_neg (hne nu hn), if_neg (fun he => outer_none hp h2 ((adds_iff hp hn.1).2 ⟨hn.2, he⟩))]
        simp
      · rw [if_neg hn, add_zero]
    | some row =>
      obtain ⟨mu, e1, e2⟩ := outer_some hp h2
      dsimp only
      rw [e1]
      refine ⟨_, rfl, fun nu => ?_⟩
      change (plus ans _).get nu = _
      rw [coef_plus, get_single, addTerm]
      congr 1
      by_cases hn : IsStrict nu ∧ i + 1 ∈ nu ∧ i ∉ nu
      · rw [if_pos hn, if_neg (hne nu hn), mul_zero, zero_add]
        by_cases he : mu = nu
        · subst he
          rw [if_pos rfl, if_pos ((adds_iff hp hn.1).1 e2).2]
        · rw [if_neg he, if_neg]
          intro hl
          have h3 := (adds_iff hp hn.1).2 ⟨hn.2, hl⟩
          exact he (strict_ext e2.strict hn.1 (fun t => by rw [e2.parts t, h3.parts t]))
      · rw [if_neg hn, if_neg]
        rintro rfl
        exact hn ⟨e2.strict, ((adds_iff hp e2.strict).1 e2).1⟩

theorem sum_addTerm (beta : R) (i : Nat) (v : Vec (List Nat) R) {nu : List Nat} (hn : IsStrict nu) :
    (v.dict.items.map (fun p => addTerm beta i p nu)).sum = addCoef beta i v.get nu := by
  classical
  simp only [addTerm, addCoef, hn, true_and]
  by_cases h : i + 1 ∈ nu ∧ i ∉ nu
  · simp only [if_pos h]
    rw [List.sum_map_add, List.sum_map_mul_left, sum_items_ite, sum_items_ite]
  · simp only [if_neg h]
    simp

theorem good_step (beta : R) (index : Int) (ans : Res R) (p : List Nat × R) (r : Res R) (h : GoodRes ans)
    (hr : shiftedAddStep beta index ans p = some r) : GoodRes r := by
  rw [shiftedAddStep] at hr
  split at hr
  · rw [← Option.some.inj hr]
    intro v hv
    rw [← Option.some.inj hv]
    exact good_plus h (noZero_single _ _)
  · split at hr
    · rw [← Option.some.inj hr]
      exact h
    · split at hr
      · exact absurd hr (by simp)
      · rw [← Option.some.inj hr]
        intro v hv
        rw [← Option.some.inj hv]
        exact good_plus h (noZero_single _ _)

theorem shiftedAddFn_spec (beta : R) (index : Int) {v : Vec (List Nat) R} (hv : StrictKeys v) :
    ∃ r, shiftedAddFn beta index v = some r ∧ GoodRes r ∧ StrictRes r ∧
      ∀ nu, IsStrict nu → coef r nu = addCoef beta index.natAbs v.get nu := by
  obtain ⟨r, h1, h2⟩ := foldlM_sum (step := shiftedAddStep beta index) (g := addTerm beta index.natAbs) v.dict.items
    (fun ans p hp => step_spec beta index ans (hv _ (Dict.mem_keys_of_items hp))) none
  have hg : GoodRes r := foldlM_inv (good_step beta index) _ none r (fun v hv => absurd hv (by simp)) h1
  refine ⟨r, h1, hg, fun u hu => strict_of_get (hg u hu) (fun mu hmu => ?_), fun nu hn => ?_⟩
  · subst hu
    by_contra hc
    apply hmu
    have := h2 mu
    rw [coef, coef, zero_add] at this
    rw [this]
    refine List.sum_eq_zero (fun x hx => ?_)
    obtain ⟨p, _, rfl⟩ := List.mem_map.1 hx
    rw [addTerm, if_neg (fun h => hc h.1)]
  · rw [h2, coef, zero_add, sum_addTerm beta _ v hn]

end Sums

end Verif.Operators
