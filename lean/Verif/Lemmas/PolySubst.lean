import Verif.Lemmas.Poly
import Mathlib.Algebra.BigOperators.Finsupp.Basic

/-! Helper lemmas about substitution, coefficient extraction, truncation in the polynomial model. -/

namespace Verif

open Dict
open AddMonoidAlgebra (single)

namespace Laurent

theorem subst_zero (i : ℤ) (e : Laurent) : subst i e 0 = 0 := by simp [subst]

theorem subst_add (i : ℤ) (e z w : Laurent) : subst i e (z + w) = subst i e z + subst i e w := by
  rw [subst, AddMonoidAlgebra.coeff_add, Finsupp.sum_add_index' (by simp) (by intros; rw [add_smul])]
  rfl

theorem subst_single (i : ℤ) (e : Laurent) (v : ℤ →₀ ℤ) (c : ℤ) :
    subst i e (single v c) = c • substMono i e v := by
  rw [subst, AddMonoidAlgebra.coeff_single, Finsupp.sum_single_index (by simp)]

theorem substMono_add (i : ℤ) (e : Laurent) {v w : ℤ →₀ ℤ} (hv : 0 ≤ v i) (hw : 0 ≤ w i) :
    substMono i e (v + w) = substMono i e v * substMono i e w := by
  rw [substMono, substMono, substMono, Finsupp.erase_add, Finsupp.add_apply, Int.toNat_add hv hw, pow_add]
  have : (single (Finsupp.erase i v + Finsupp.erase i w) 1 : Laurent) =
    single (Finsupp.erase i v) 1 * single (Finsupp.erase i w) 1 := by
      rw [AddMonoidAlgebra.single_mul_single, one_mul]
  rw [this]; ring

end Laurent

namespace Poly

theorem den_eq_sum_subst (p : Poly) (i : ℤ) (e : Laurent) :
    Laurent.subst i e p.den = (p.keys.map (fun k => coeff p k • Laurent.substMono i e k.expo)).sum := by
  rw [den_eq_keys]
  induction p.keys with
  | nil => simp [Laurent.subst_zero]
  | cons a l ih => rw [List.map_cons, List.sum_cons, Laurent.subst_add, ih, Laurent.subst_single]; simp

theorem foldlM_substFactor (i : ℤ) (e : Poly) (l : List (ℤ × ℤ)) (init : Poly) :
    (∀ p ∈ l, p.1 = i → 0 ≤ p.2) → ∃ r, l.foldlM (substFactor i e) init = some r ∧
      r.den = init.den * (l.map (fun p => if p.1 = i then e.den ^ p.2.toNat else Laurent.xpow p.1 p.2)).prod := by
  induction l generalizing init with
  | nil => intro _; exact ⟨init, rfl, by simp⟩
  | cons a l ih =>
    intro h
    have ha := h a (by simp)
    have hl : ∀ p ∈ l, p.1 = i → 0 ≤ p.2 := fun p hp => h p (by simp [hp])
    by_cases hi : a.1 = i
    · obtain ⟨r, hr, hd⟩ := ih (mul init (powNat e a.2.toNat)) hl
      refine ⟨r, ?_, ?_⟩
      · rw [List.foldlM_cons]; simpa [substFactor, hi, ha hi] using hr
      · rw [hd, List.map_cons, List.prod_cons, if_pos hi, den_mul, den_powNat, mul_assoc]
    · obtain ⟨r, hr, hd⟩ := ih (mul init (monomial a.1 a.2)) hl
      refine ⟨r, ?_, ?_⟩
      · rw [List.foldlM_cons]; simpa [substFactor, Ne.symm hi] using hr
      · rw [hd, List.map_cons, List.prod_cons, if_neg hi, den_mul, den_monomial, mul_assoc]

theorem foldlM_substFactor_none (i : ℤ) (e : Poly) (l : List (ℤ × ℤ)) (init : Poly)
    (h : ∃ p ∈ l, p.1 = i ∧ p.2 < 0) : l.foldlM (substFactor i e) init = none := by
  induction l generalizing init with
  | nil => simp at h
  | cons a l ih =>
    rw [List.foldlM_cons]
    by_cases ha : a.1 = i ∧ a.2 < 0
    · have : ¬ 0 ≤ a.2 := by omega
      simp [substFactor, ha.1, this]
    · have hl : ∃ p ∈ l, p.1 = i ∧ p.2 < 0 := by
        obtain ⟨p, hp, hh⟩ := h
        rcases List.mem_cons.1 hp with rfl | hp
        · exact absurd hh ha
        · exact ⟨p, hp, hh⟩
      cases hs : substFactor i e init a with
      | none => rfl
      | some b => exact ih b hl

theorem prod_substMono (i : ℤ) (e : Laurent) (l : List (ℤ × ℤ)) (hn : (l.map Prod.fst).Nodup) :
    (l.map (fun p => if p.1 = i then e ^ p.2.toNat else Laurent.xpow p.1 p.2)).prod =
      Laurent.substMono i e (l.map (fun p => Finsupp.single p.1 p.2)).sum := by
  induction l with
  | nil => simp [Laurent.substMono, AddMonoidAlgebra.one_def]
  | cons a l ih =>
    simp only [List.map_cons, List.nodup_cons] at hn
    rw [List.map_cons, List.prod_cons, ih hn.2, List.map_cons, List.sum_cons]
    by_cases h : a.1 = i
    · have h0 : (l.map (fun p => (Finsupp.single p.1 p.2 : ℤ →₀ ℤ))).sum i = 0 := by
        have hn1 := hn.1
        rw [h] at hn1
        clear ih hn
        induction l with
        | nil => simp
        | cons b l ih2 =>
          simp only [List.map_cons, List.mem_cons, not_or] at hn1
          rw [List.map_cons, List.sum_cons, Finsupp.add_apply, ih2 hn1.2, Finsupp.single_apply,
            if_neg (fun h => hn1.1 h.symm), add_zero]
      rw [if_pos h, Laurent.substMono, Laurent.substMono, Finsupp.erase_add, Finsupp.add_apply, h0, h]
      simp
      ring
    · rw [if_neg h, Laurent.substMono, Laurent.substMono, Finsupp.erase_add, Finsupp.add_apply,
        Finsupp.single_eq_of_ne (Ne.symm h), zero_add, Finsupp.erase_single_ne (Ne.symm h), Laurent.xpow, ← mul_assoc,
        AddMonoidAlgebra.single_mul_single, one_mul]

theorem substTerm_some (i : ℤ) (e : Poly) (ind : Mono) (c : ℤ) (h : 0 ≤ ind.get i) :
    ∃ r, substTerm i e ind c = some r ∧ r.den = c • Laurent.substMono i e.den ind.expo := by
  obtain ⟨r, hr, hd⟩ := foldlM_substFactor i e ind.items (mulInt one c) (by
    rintro ⟨j, k⟩ hp rfl
    rw [Mono.mem_items] at hp
    have h1 : ind.get j = k := hp.1
    change 0 ≤ k
    have h2 : 0 ≤ ind.get j := h
    omega)
  refine ⟨r, hr, ?_⟩
  rw [hd, prod_substMono i e.den _ ind.keys_nodup, den_mulInt, den_one, smul_mul_assoc, one_mul]
  rfl

theorem substTerm_none (i : ℤ) (e : Poly) (ind : Mono) (c : ℤ) (h : ind.get i < 0) :
    substTerm i e ind c = none := by
  apply foldlM_substFactor_none
  exact ⟨(i, ind.get i), Mono.mem_items.2 ⟨rfl, by omega⟩, rfl, h⟩

theorem substitute_some (p : Poly) (i : ℤ) (e : Poly) (h : ∀ m ∈ p.keys, 0 ≤ m.get i) :
    ∃ r, substitute p i e = some r ∧ r.den = Laurent.subst i e.den p.den := by
  rw [den_eq_sum_subst, substitute]
  have key : ∀ (l : List Mono) (init : Poly), (∀ m ∈ l, 0 ≤ m.get i) →
      ∃ r, l.foldlM (fun ans ind => (substTerm i e ind (coeff p ind)).map (fun t => add ans t)) init = some r ∧
        r.den = init.den + (l.map (fun k => coeff p k • Laurent.substMono i e.den k.expo)).sum := by
    intro l
    induction l with
    | nil => intro init _; exact ⟨init, rfl, by simp⟩
    | cons a l ih =>
      intro init h
      obtain ⟨t, ht, htd⟩ := substTerm_some i e a (coeff p a) (h a (by simp))
      obtain ⟨r, hr, hd⟩ := ih (add init t) (fun m hm => h m (by simp [hm]))
      refine ⟨r, ?_, ?_⟩
      · rw [List.foldlM_cons, ht]; exact hr
      · rw [hd, den_add, htd, List.map_cons, List.sum_cons, add_assoc]
  obtain ⟨r, hr, hd⟩ := key p.keys Dict.empty h
  exact ⟨r, hr, by rw [hd, den_empty, zero_add]⟩

theorem substitute_none (p : Poly) (i : ℤ) (e : Poly) (h : ∃ m ∈ p.keys, m.get i < 0) :
    substitute p i e = none := by
  rw [substitute]
  generalize Dict.empty = init
  obtain ⟨m, hm, hneg⟩ := h
  generalize p.keys = ks at hm ⊢
  induction ks generalizing init with
  | nil => simp at hm
  | cons a l ih =>
    rw [List.foldlM_cons]
    rcases List.mem_cons.1 hm with rfl | hm
    · rw [substTerm_none i e _ _ hneg]; rfl
    · cases substTerm i e a (coeff p a) with
      | none => rfl
      | some t => exact ih _ hm

theorem keys_mul {p q : Poly} {m : Mono} (h : m ∈ (mul p q).keys) :
    ∃ a ∈ p.keys, ∃ b ∈ q.keys, m = a.mul b := by
  have hm : coeff (mul p q) m ≠ 0 := by
    obtain ⟨v, hv⟩ := Dict.mem_keys.1 h
    rw [coeff, Dict.getD_of_get? hv]
    exact noZero_mul p q m v hv
  rw [← den_coeff, den_mul, den_eq_keys p, den_eq_keys q, ← List.sum_map_mul_right] at hm
  by_contra hc
  push Not at hc
  apply hm
  have : ∀ l : List Laurent, (∀ z ∈ l, z.coeff m.expo = 0) → l.sum.coeff m.expo = 0 := by
    intro l
    induction l with
    | nil => simp
    | cons a l ih =>
      intro h
      rw [List.sum_cons, AddMonoidAlgebra.coeff_add, Finsupp.add_apply, h a (by simp),
        ih (fun z hz => h z (by simp [hz])), add_zero]
  apply this
  intro z hz
  obtain ⟨a, ha, rfl⟩ := List.mem_map.1 hz
  rw [← List.sum_map_mul_left]
  apply this
  intro z hz
  obtain ⟨b, hb, rfl⟩ := List.mem_map.1 hz
  rw [AddMonoidAlgebra.single_mul_single, AddMonoidAlgebra.coeff_single, Finsupp.single_apply, if_neg]
  rw [← Mono.expo_mul, Mono.expo_inj]
  exact fun h => hc a ha b hb h.symm

theorem keys_add {p q : Poly} {m : Mono} (h : m ∈ (add p q).keys) : m ∈ p.keys ∨ m ∈ q.keys := by
  obtain ⟨v, hv⟩ := Dict.mem_keys.1 h
  rw [get?_add] at hv
  split at hv
  · right; assumption
  · left; exact Dict.mem_keys.2 ⟨v, hv⟩

/-! ### coefficient extraction -/

theorem coeff_coefficient (p : Poly) (i k : ℤ) (m : Mono) :
    coeff (coefficient p i k) m = if m.get i = 0 then coeff p (m.mul (Mono.var i k)) else 0 := by
  have key : ∀ (l : List Mono) (acc : Poly), l.Nodup →
      coeff (l.foldl (fun acc term =>
        if (i ∈ term.keys ∧ term.get i = k) ∨ (k = 0 ∧ i ∉ term.keys) then
          let newTerm := if k ≠ 0 then term.erase i else term
          add acc (Dict.empty.set newTerm (coeff p term))
        else acc) acc) m = coeff acc m +
          if m.get i = 0 ∧ m.mul (Mono.var i k) ∈ l then coeff p (m.mul (Mono.var i k)) else 0 := by
    intro l
    induction l with
    | nil => simp
    | cons a l ih =>
      intro acc hn
      rw [List.nodup_cons] at hn
      rw [List.foldl_cons, ih _ hn.2]
      have hc : ((i ∈ a.keys ∧ a.get i = k) ∨ (k = 0 ∧ i ∉ a.keys)) ↔ a.get i = k := by
        simp only [Mono.mem_keys]
        by_cases h0 : a.get i = 0
        · simp [h0, eq_comm]
        · simp [h0]
      simp only [hc]
      have hb : (if k ≠ 0 then a.erase i else a).get i = 0 ∨ a.get i ≠ k := by
        by_cases h0 : k = 0
        · subst h0; by_cases h1 : a.get i = 0 <;> simp [h1]
        · simp [h0]
      have hnew : a.get i = k → ((if k ≠ 0 then a.erase i else a) = m ↔
          m.get i = 0 ∧ m.mul (Mono.var i k) = a) := by
        intro ha
        constructor
        · rintro rfl
          refine ⟨hb.resolve_right (by simp [ha]), ?_⟩
          apply Mono.ext_get
          intro t
          by_cases h0 : k = 0
          · subst h0; simp
          · by_cases ht : t = i
            · subst ht; simp [h0, ha]
            · simp [h0, ht]
        · rintro ⟨h1, rfl⟩
          apply Mono.ext_get
          intro t
          by_cases h0 : k = 0
          · subst h0; simp
          · by_cases ht : t = i
            · subst ht; simp [h0, h1]
            · simp [h0, ht]
      by_cases ha : a.get i = k
      · rw [if_pos ha, coeff_add, coeff_single']
        simp only [hnew ha, List.mem_cons]
        by_cases h1 : m.get i = 0 ∧ m.mul (Mono.var i k) = a
        · have h2 : m.mul (Mono.var i k) ∉ l := by rw [h1.2]; exact hn.1
          simp [h1.1, h1.2, hn.1]
        · by_cases h3 : m.get i = 0
          · have : m.mul (Mono.var i k) ≠ a := fun h => h1 ⟨h3, h⟩
            simp [h3, this]
          · simp [h3]
      · rw [if_neg ha]
        congr 1
        simp only [List.mem_cons]
        have : m.get i = 0 → m.mul (Mono.var i k) ≠ a := by
          rintro h rfl
          simp [h] at ha
        by_cases h3 : m.get i = 0
        · simp [this h3]
        · simp [h3]
  have hk := key p.keys Dict.empty p.nodup
  rw [coeff_empty, zero_add] at hk
  refine Eq.trans hk ?_
  by_cases h : m.get i = 0
  · by_cases h2 : m.mul (Mono.var i k) ∈ p.keys
    · simp [h, h2]
    · simp only [h, h2, and_false, if_false, if_true]
      exact (Dict.getD_of_notMem h2).symm
  · simp [h]

theorem noZero_coefficient (p : Poly) (i k : ℤ) : NoZero (coefficient p i k) := by
  apply noZero_foldl _ _ _ _ noZero_empty
  intro new a hn
  split
  · exact noZero_add hn
  · exact hn

/-! ### total degree -/

theorem totalDegree_none (p : Poly) : totalDegree p = none ↔ p.keys = [] := by
  rw [totalDegree]
  have h : ∀ (l : List Mono) (a : ℤ), l.foldl (fun ans ind => match ans with
    | none => some (Mono.degree ind)
    | some a => some (max a ind.degree)) (some a) ≠ none := by
    intro l
    induction l with
    | nil => simp
    | cons b l ih => intro a; exact ih _
  cases hk : p.keys with
  | nil => simp
  | cons b l => exact iff_of_false (h l b.degree) (by simp)

theorem totalDegree_some (p : Poly) (d : ℤ) (h : totalDegree p = some d) :
    (∃ m ∈ p.keys, m.degree = d) ∧ ∀ m ∈ p.keys, m.degree ≤ d := by
  have key : ∀ (l : List Mono) (a d : ℤ), l.foldl (fun ans ind => match ans with
    | none => some (Mono.degree ind)
    | some a => some (max a ind.degree)) (some a) = some d →
      (d = a ∨ ∃ m ∈ l, m.degree = d) ∧ a ≤ d ∧ ∀ m ∈ l, m.degree ≤ d := by
    intro l
    induction l with
    | nil => intro a d h; simp at h; simp [h]
    | cons b l ih =>
      intro a d h
      obtain ⟨h1, h2, h3⟩ := ih _ _ h
      refine ⟨?_, by omega, ?_⟩
      · rcases h1 with h1 | ⟨m, hm, hd⟩
        · rcases max_choice a b.degree with h4 | h4
          · left; omega
          · right; exact ⟨b, by simp, by omega⟩
        · right; exact ⟨m, by simp [hm], hd⟩
      · intro m hm
        rcases List.mem_cons.1 hm with rfl | hm
        · omega
        · exact h3 m hm
  rw [totalDegree] at h
  cases hk : p.keys with
  | nil => rw [hk] at h; simp at h
  | cons b l =>
    rw [hk] at h
    obtain ⟨h1, h2, h3⟩ := key l b.degree d h
    refine ⟨?_, ?_⟩
    · rcases h1 with h1 | ⟨m, hm, hd⟩
      · exact ⟨b, by simp, h1.symm⟩
      · exact ⟨m, by simp [hm], hd⟩
    · intro m hm
      rcases List.mem_cons.1 hm with rfl | hm
      · omega
      · exact h3 m hm

end Poly
end Verif
