import Verif.Spec.Laurent
import Verif.Lemmas.Dict
import Mathlib.Algebra.BigOperators.Group.List.Basic
import Mathlib.Tactic.Ring
import Mathlib.Tactic.Abel

/-! Helper lemmas about the polynomial model. -/

namespace Verif

open Dict

namespace Mono

theorem keys_nodup (m : Mono) : m.keys.Nodup := by
  unfold keys
  rw [List.Nodup, List.pairwise_map]
  exact m.sorted.imp (fun h => ne_of_lt h)

theorem mem_keys {m : Mono} {t : ℤ} : t ∈ m.keys ↔ m.get t ≠ 0 := by
  unfold get
  constructor
  · intro h
    obtain ⟨p, hp, rfl⟩ := List.mem_map.1 h
    rw [lookup_of_mem (v := p.2) m.keys_nodup hp]
    exact m.nonzero p hp
  · intro h
    by_contra hc
    exact h (by rw [lookup_eq_none.2 hc]; rfl)

theorem mem_items {m : Mono} {t e : ℤ} : (t, e) ∈ m.items ↔ m.get t = e ∧ e ≠ 0 := by
  constructor
  · intro h
    exact ⟨by unfold get; rw [lookup_of_mem m.keys_nodup h]; rfl, m.nonzero _ h⟩
  · rintro ⟨h, he⟩
    unfold get at h
    cases hl : lookup t m.items with
    | none => rw [hl] at h; simp at h; omega
    | some v =>
      rw [hl] at h
      simp at h; subst h
      exact lookup_mem hl

theorem ext_get {m n : Mono} (h : ∀ t, m.get t = n.get t) : m = n := by
  have hk : m.items = n.items := by
    apply List.Perm.eq_of_pairwise' (r := fun a b => a.1 < b.1) m.sorted n.sorted
    apply (List.perm_ext_iff_of_nodup ?_ ?_).2
    · rintro ⟨t, e⟩
      rw [mem_items, mem_items, h]
    · exact List.Nodup.of_map _ m.keys_nodup
    · exact List.Nodup.of_map _ n.keys_nodup
  cases m; cases n; simp at hk; subst hk; rfl

theorem get_ofFn (ts : List ℤ) (f : ℤ → ℤ) (t : ℤ) :
    (ofFn ts f).get t = if t ∈ ts then f t else 0 := by
  by_cases h : t ∈ ts ∧ f t ≠ 0
  · rw [if_pos h.1]
    have : (t, f t) ∈ (ofFn ts f).items := by
      simp only [ofFn, List.mem_filter, List.mem_map, List.mem_insertionSort, List.mem_dedup]
      exact ⟨⟨t, h.1, rfl⟩, by simpa using h.2⟩
    exact (mem_items.1 this).1
  · have : (if t ∈ ts then f t else 0) = 0 := by
      split
      · rename_i ht
        by_contra hc; exact h ⟨ht, hc⟩
      · rfl
    rw [this]
    by_contra hc
    have h2 := mem_keys.2 hc
    simp only [keys, ofFn, List.mem_map, List.mem_filter, List.mem_insertionSort, List.mem_dedup] at h2
    obtain ⟨a, ⟨⟨b, hb, rfl⟩, ha⟩, rfl⟩ := h2
    exact h ⟨hb, by simpa using ha⟩

@[simp] theorem get_one (t : ℤ) : one.get t = 0 := rfl

@[simp] theorem get_mul (i j : Mono) (t : ℤ) : (i.mul j).get t = i.get t + j.get t := by
  rw [mul, get_ofFn]
  split
  · rfl
  · rename_i h
    simp only [List.mem_append, mem_keys] at h
    push Not at h
    omega

@[simp] theorem get_scale (m : Mono) (e t : ℤ) : (m.scale e).get t = m.get t * e := by
  rw [scale, get_ofFn]
  split
  · rfl
  · rename_i h
    simp only [mem_keys] at h
    push Not at h
    rw [h, zero_mul]

@[simp] theorem get_var (i e t : ℤ) : (var i e).get t = if t = i then e else 0 := by
  rw [var, get_ofFn]; simp

@[simp] theorem get_erase (m : Mono) (i t : ℤ) : (m.erase i).get t = if t = i then 0 else m.get t := by
  by_cases h : t = i
  · rw [if_pos h]
    by_contra hc
    have := mem_keys.2 hc
    simp [keys, erase] at this
    exact this.2 h
  · rw [if_neg h]
    by_cases h0 : m.get t = 0
    · rw [h0]
      by_contra hc
      have := mem_keys.2 hc
      simp only [keys, erase, List.mem_map, List.mem_filter] at this
      obtain ⟨a, ha, rfl⟩ := this
      exact (mem_keys.1 (List.mem_map.2 ⟨a, ha.1, rfl⟩)) h0
    · have : (t, m.get t) ∈ (m.erase i).items := by
        simp only [erase, List.mem_filter]
        exact ⟨mem_items.2 ⟨rfl, h0⟩, by simpa using h⟩
      exact (mem_items.1 this).1

theorem expo_apply (m : Mono) (t : ℤ) : m.expo t = m.get t := by
  have key : ∀ l : List (ℤ × ℤ), (l.map Prod.fst).Nodup →
      (l.map (fun p => Finsupp.single p.1 p.2)).sum t = (lookup t l).getD 0 := by
    intro l
    induction l with
    | nil => intro; simp [lookup]
    | cons a l ih =>
      intro hn
      simp only [List.map_cons, List.nodup_cons] at hn
      simp only [List.map_cons, List.sum_cons, Finsupp.add_apply, ih hn.2]
      by_cases h : a.1 = t
      · subst h
        have : lookup a.1 l = none := lookup_eq_none.2 hn.1
        simp [lookup, this]
      · simp [lookup, h]
  exact key _ m.keys_nodup

theorem expo_inj {m n : Mono} : m.expo = n.expo ↔ m = n := by
  constructor
  · intro h
    exact ext_get (fun t => by rw [← expo_apply, ← expo_apply, h])
  · rintro rfl; rfl

theorem expo_surj (v : ℤ →₀ ℤ) : ∃ m : Mono, m.expo = v := by
  refine ⟨ofFn v.support.toList v, ?_⟩
  ext t
  rw [expo_apply, get_ofFn]
  split
  · rfl
  · rename_i h; rw [Finset.mem_toList] at h; simpa using (Finsupp.notMem_support_iff.1 h).symm

@[simp] theorem expo_mul (i j : Mono) : (i.mul j).expo = i.expo + j.expo := by
  ext t; simp [expo_apply]

@[simp] theorem expo_one : one.expo = 0 := by
  ext t; simp [expo_apply]

@[simp] theorem expo_var (i e : ℤ) : (var i e).expo = Finsupp.single i e := by
  ext t; simp [expo_apply, Finsupp.single_apply, eq_comm]

@[simp] theorem expo_scale (m : Mono) (e : ℤ) : (m.scale e).expo = e • m.expo := by
  ext t; simp [expo_apply, mul_comm]

@[simp] theorem expo_erase (m : Mono) (i : ℤ) : (m.erase i).expo = m.expo.erase i := by
  ext t
  rw [expo_apply, get_erase, Finsupp.erase_apply, expo_apply]

theorem degree_eq (m : Mono) : m.degree = m.expo.sum (fun _ e => e) := by
  have h1 : ∀ (l : List (ℤ × ℤ)) (a : ℤ), l.foldl (fun d p => d + p.2) a = a + (l.map Prod.snd).sum := by
    intro l
    induction l with
    | nil => simp
    | cons b l ih => intro a; simp [ih, add_assoc]
  have h2 : ∀ l : List (ℤ × ℤ),
      ((l.map (fun p => Finsupp.single p.1 p.2)).sum : ℤ →₀ ℤ).sum (fun _ e => e) = (l.map Prod.snd).sum := by
    intro l
    induction l with
    | nil => simp
    | cons b l ih =>
      simp only [List.map_cons, List.sum_cons]
      rw [Finsupp.sum_add_index' (by simp) (by simp), ih, Finsupp.sum_single_index rfl]
  rw [degree, h1, zero_add, expo, h2]

theorem degree_mul (m n : Mono) : (m.mul n).degree = m.degree + n.degree := by
  rw [degree_eq, degree_eq, degree_eq, expo_mul, Finsupp.sum_add_index' (by simp) (by simp)]

end Mono

namespace Poly

open AddMonoidAlgebra (single)

theorem den_coeff (p : Poly) (m : Mono) : p.den.coeff m.expo = coeff p m := by
  have key : ∀ l : List (Mono × ℤ), (l.map Prod.fst).Nodup →
      (l.map (fun t => (single t.1.expo t.2 : Laurent))).sum.coeff m.expo = (lookup m l).getD 0 := by
    intro l
    induction l with
    | nil => intro; simp [lookup]
    | cons a l ih =>
      intro hn
      simp only [List.map_cons, List.nodup_cons] at hn
      simp only [List.map_cons, List.sum_cons, AddMonoidAlgebra.coeff_add, Finsupp.add_apply, ih hn.2,
        AddMonoidAlgebra.coeff_single, Finsupp.single_apply, Mono.expo_inj]
      by_cases h : a.1 = m
      · subst h
        have : lookup a.1 l = none := lookup_eq_none.2 hn.1
        simp [lookup, this]
      · simp [lookup, h]
  exact key _ p.nodup

theorem den_eq_iff {p q : Poly} : p.den = q.den ↔ ∀ m, coeff p m = coeff q m := by
  constructor
  · intro h m; rw [← den_coeff, ← den_coeff, h]
  · intro h
    apply AddMonoidAlgebra.ext
    apply Finsupp.ext
    intro v
    obtain ⟨m, rfl⟩ := Mono.expo_surj v
    rw [den_coeff, den_coeff, h]

theorem eq_den_iff {p : Poly} {z : Laurent} : p.den = z ↔ ∀ m : Mono, coeff p m = z.coeff m.expo := by
  constructor
  · rintro rfl m; rw [den_coeff]
  · intro h
    apply AddMonoidAlgebra.ext
    apply Finsupp.ext
    intro v
    obtain ⟨m, rfl⟩ := Mono.expo_surj v
    rw [den_coeff, h]

theorem den_eq_keys (p : Poly) : p.den = (p.keys.map (fun k => single k.expo (coeff p k))).sum := by
  rw [den, Dict.items_eq_map p 0, List.map_map]
  rfl

@[simp] theorem den_empty : den Dict.empty = 0 := rfl

theorem coeff_set (p : Poly) (k m : Mono) (c : ℤ) :
    coeff (p.set k c) m = if k = m then c else coeff p m := getD_set ..

theorem coeff_del (p : Poly) (k m : Mono) : coeff (p.del k) m = if k = m then 0 else coeff p m := getD_del ..

@[simp] theorem coeff_empty (m : Mono) : coeff Dict.empty m = 0 := rfl

@[simp] theorem coeff_single' (k m : Mono) (c : ℤ) : coeff (Dict.empty.set k c) m = if k = m then c else 0 := by
  rw [coeff_set, coeff_empty]

@[simp] theorem den_single (k : Mono) (c : ℤ) : den (Dict.empty.set k c) = single k.expo c := by
  simp [den, Dict.set, Dict.insertItem, Dict.empty]

theorem NoZero.of_iff {p : Poly} : NoZero p ↔ ∀ m, p.get? m ≠ some 0 := by
  constructor
  · intro h m hm; exact h m 0 hm rfl
  · rintro h m c hc rfl; exact h m hc

theorem noZero_empty : NoZero Dict.empty := by intro m c h; simp at h

/-! ### addition -/

theorem get?_addStep (p q new : Poly) (i m : Mono) :
    (addStep p q new i).get? m =
      if i = m then (if coeff p m + coeff q m = 0 then none else some (coeff p m + coeff q m)) else new.get? m := by
  simp only [addStep, coeff_set, if_true]
  by_cases h : i = m
  · subst h
    by_cases h0 : coeff p i + coeff q i = 0 <;> simp [h0]
  · simp only [h, if_false]
    split <;> simp [h]

theorem get?_add_aux (p q : Poly) (m : Mono) (ks : List Mono) (new : Poly) :
    (ks.foldl (addStep p q) new).get? m =
      if m ∈ ks then (if coeff p m + coeff q m = 0 then none else some (coeff p m + coeff q m))
      else new.get? m := by
  induction ks generalizing new with
  | nil => simp
  | cons a ks ih =>
    rw [List.foldl_cons, ih, get?_addStep]
    by_cases h1 : m ∈ ks
    · simp [h1]
    · by_cases h2 : a = m
      · simp [h2]
      · simp [h1, h2, Ne.symm h2]

theorem get?_add (p q : Poly) (m : Mono) :
    (add p q).get? m =
      if m ∈ q.keys then (if coeff p m + coeff q m = 0 then none else some (coeff p m + coeff q m))
      else p.get? m := get?_add_aux ..

@[simp] theorem coeff_add (p q : Poly) (m : Mono) : coeff (add p q) m = coeff p m + coeff q m := by
  unfold coeff Dict.getD
  rw [get?_add]
  by_cases h : m ∈ q.keys
  · rw [if_pos h]
    change (if coeff p m + coeff q m = 0 then none else some (coeff p m + coeff q m)).getD 0 =
      coeff p m + coeff q m
    split
    · rename_i h0; simp [h0]
    · rfl
  · rw [if_neg h, Dict.get?_eq_none.2 h]; simp

@[simp] theorem den_add (p q : Poly) : (add p q).den = p.den + q.den := by
  rw [eq_den_iff]
  intro m
  simp [den_coeff]

theorem noZero_add {p q : Poly} (hp : NoZero p) : NoZero (add p q) := by
  intro m c
  rw [get?_add]
  split
  · split
    · simp
    · rename_i h; intro hc; simp at hc; rwa [← hc]
  · exact hp m c

/-! ### multiplication -/

theorem coeff_mulStep (p f new : Poly) (ij : Mono × Mono) (m : Mono) :
    coeff (mulStep p f new ij) m =
      coeff new m + if ij.1.mul ij.2 = m then coeff p ij.1 * coeff f ij.2 else 0 := by
  have h1 : ∀ k c, (if new.contains k then new.set k (coeff new k + c) else new.set k c) =
      new.set k (coeff new k + c) := by
    intro k c
    split
    · rfl
    · rename_i h
      rw [Dict.contains_iff] at h
      rw [coeff, Dict.getD_of_notMem h, zero_add]
  simp only [mulStep, h1]
  by_cases h : ij.1.mul ij.2 = m
  · subst h
    split
    · rename_i h0
      rw [coeff_del, if_pos rfl, if_pos rfl]
      simpa [coeff_set] using h0.symm
    · simp [coeff_set]
  · split <;> simp [coeff_del, coeff_set, h]

theorem noZero_mulStep {p f new : Poly} (ij : Mono × Mono) (h : NoZero new) : NoZero (mulStep p f new ij) := by
  rw [NoZero.of_iff] at *
  intro m
  have h1 : ∀ (d : Poly) k, (∀ m, m ≠ k → d.get? m ≠ some 0) →
      (if coeff d k = 0 then d.del k else d).get? m ≠ some 0 := by
    intro d k hd
    split
    · by_cases hm : k = m
      · simp [hm]
      · simpa [hm] using hd m (Ne.symm hm)
    · rename_i h0
      by_cases hm : m = k
      · subst hm
        intro hc
        exact h0 (by rw [coeff, Dict.getD_of_get? hc])
      · exact hd m hm
  apply h1
  intro m hm
  split <;> simpa [Ne.symm hm] using h m

theorem den_mulStep (p f new : Poly) (ij : Mono × Mono) :
    (mulStep p f new ij).den = new.den + single ij.1.expo (coeff p ij.1) * single ij.2.expo (coeff f ij.2) := by
  rw [eq_den_iff]
  intro m
  rw [coeff_mulStep, AddMonoidAlgebra.single_mul_single, AddMonoidAlgebra.coeff_add, Finsupp.add_apply, den_coeff,
    AddMonoidAlgebra.coeff_single, Finsupp.single_apply, ← Mono.expo_mul]
  simp only [Mono.expo_inj]

theorem foldl_den {α : Type*} (step : Poly → α → Poly) (g : α → Laurent)
    (h : ∀ new a, (step new a).den = new.den + g a) (l : List α) (new : Poly) :
    (l.foldl step new).den = new.den + (l.map g).sum := by
  induction l generalizing new with
  | nil => simp
  | cons a l ih => rw [List.foldl_cons, ih, h, List.map_cons, List.sum_cons, add_assoc]

@[simp] theorem den_mul (p f : Poly) : (mul p f).den = p.den * f.den := by
  rw [mul, foldl_den (g := fun i => (f.keys.map
    (fun j => (single i.expo (coeff p i) * single j.expo (coeff f j) : Laurent))).sum)]
  · rw [den_empty, zero_add, den_eq_keys p, den_eq_keys f]
    rw [← List.sum_map_mul_right]
    congr 1
    apply List.map_congr_left
    intro i _
    rw [List.sum_map_mul_left]
  · intro new i
    rw [foldl_den (g := fun j => (single i.expo (coeff p i) * single j.expo (coeff f j) : Laurent))]
    intro new j
    exact den_mulStep ..

theorem noZero_foldl {α : Type*} (step : Poly → α → Poly)
    (h : ∀ new a, NoZero new → NoZero (step new a)) (l : List α) (new : Poly) (hn : NoZero new) :
    NoZero (l.foldl step new) := by
  induction l generalizing new with
  | nil => exact hn
  | cons a l ih => exact ih _ (h _ _ hn)

theorem noZero_mul (p f : Poly) : NoZero (mul p f) := by
  apply noZero_foldl _ _ _ _ noZero_empty
  intro new i hn
  apply noZero_foldl _ _ _ _ hn
  intro new j hn
  exact noZero_mulStep _ hn

@[simp] theorem den_const (c : ℤ) : (const c).den = single 0 c := by
  rw [const, den_single, Mono.expo_one]

@[simp] theorem den_mulInt (p : Poly) (c : ℤ) : (mulInt p c).den = c • p.den := by
  rw [mulInt, den_mul, den_const]
  have : (single 0 c : Laurent) = c • 1 := by
    rw [AddMonoidAlgebra.one_def, AddMonoidAlgebra.smul_single]; simp
  rw [this, mul_smul_comm, mul_one]

@[simp] theorem coeff_mulInt (p : Poly) (c : ℤ) (m : Mono) : coeff (mulInt p c) m = coeff p m * c := by
  rw [← den_coeff, den_mulInt, AddMonoidAlgebra.coeff_smul, Finsupp.smul_apply, den_coeff, smul_eq_mul, mul_comm]

theorem den_monomial (i e : ℤ) : (monomial i e).den = Laurent.xpow i e := by
  rw [monomial, Laurent.xpow]
  split
  · rename_i h; subst h; rw [den_single, Mono.expo_one, Finsupp.single_zero]
  · rw [den_single, Mono.expo_var]

@[simp] theorem den_one : one.den = 1 := by
  rw [one, den_monomial, Laurent.xpow, Finsupp.single_zero]; rfl

@[simp] theorem den_zero : zero.den = 0 := by
  rw [zero, den_mulInt, zero_smul]

@[simp] theorem den_monomial_zero (i : ℤ) : (monomial i 0).den = 1 := by
  rw [den_monomial, Laurent.xpow, Finsupp.single_zero]; rfl

@[simp] theorem den_addInt (p : Poly) (c : ℤ) : (addInt p c).den = p.den + (c : Laurent) := by
  rw [addInt, den_add, den_mulInt, den_monomial_zero, zsmul_one]

@[simp] theorem den_neg (p : Poly) : (neg p).den = -p.den := by
  rw [neg, den_mulInt, neg_smul, one_smul]

@[simp] theorem den_sub (p q : Poly) : (sub p q).den = p.den - q.den := by
  rw [sub, den_add, den_neg, sub_eq_add_neg]

@[simp] theorem den_subInt (p : Poly) (c : ℤ) : (subInt p c).den = p.den - (c : Laurent) := by
  rw [subInt, den_addInt, sub_eq_add_neg, Int.cast_neg]

@[simp] theorem den_rsubInt (p : Poly) (c : ℤ) : (rsubInt p c).den = (c : Laurent) - p.den := by
  rw [rsubInt, den_neg, den_subInt, neg_sub]

@[simp] theorem coeff_neg (p : Poly) (m : Mono) : coeff (neg p) m = -coeff p m := by
  rw [neg, coeff_mulInt]; ring

@[simp] theorem coeff_sub (p q : Poly) (m : Mono) : coeff (sub p q) m = coeff p m - coeff q m := by
  rw [sub, coeff_add, coeff_neg]; ring

theorem coeff_one_eq (m : Mono) (i : ℤ) : coeff (monomial i 0) m = if m = Mono.one then 1 else 0 := by
  rw [monomial, if_pos rfl, coeff_single']; simp [eq_comm]

theorem coeff_addInt (p : Poly) (c : ℤ) (m : Mono) :
    coeff (addInt p c) m = coeff p m + if m = Mono.one then c else 0 := by
  rw [addInt, coeff_add, coeff_mulInt, coeff_one_eq]; split <;> simp

/-! ### zero tests -/

theorem nnz_eq (p : Poly) : nnz p = (p.keys.filter (fun i => decide (coeff p i ≠ 0))).length := by
  have : ∀ (l : List Mono) n, l.foldl (fun n i => if coeff p i ≠ 0 then n + 1 else n) n =
      n + (l.filter (fun i => decide (coeff p i ≠ 0))).length := by
    intro l
    induction l with
    | nil => simp
    | cons a l ih =>
      intro n
      rw [List.foldl_cons, ih, List.filter_cons]
      by_cases h : coeff p a = 0 <;> simp [h]; omega
  rw [nnz, this, zero_add]

theorem nnz_eq_zero (p : Poly) : nnz p = 0 ↔ ∀ m, coeff p m = 0 := by
  rw [nnz_eq, List.length_eq_zero_iff, List.filter_eq_nil_iff]
  constructor
  · intro h m
    by_cases hm : m ∈ p.keys
    · simpa using h m hm
    · exact Dict.getD_of_notMem hm
  · intro h m _
    simp [h]

theorem isZero_iff (p : Poly) : isZero p = true ↔ p.den = 0 := by
  rw [isZero, beq_iff_eq, nnz_eq_zero, ← den_empty, den_eq_iff]
  simp

theorem eq_iff (p q : Poly) : eq p q = true ↔ p.den = q.den := by
  rw [eq, beq_iff_eq, nnz_eq_zero, den_eq_iff]
  simp only [coeff_sub, sub_eq_zero]

theorem eqInt_iff (p : Poly) (c : ℤ) : eqInt p c = true ↔ p.den = (c : Laurent) := by
  have := isZero_iff (subInt p c)
  rw [isZero] at this
  rw [eqInt, this, den_subInt, sub_eq_zero]

@[simp] theorem den_powNat (p : Poly) (n : ℕ) : (powNat p n).den = p.den ^ n := by
  induction n with
  | zero => rw [powNat, den_monomial_zero, pow_zero]
  | succ n ih => rw [powNat, den_mul, ih, pow_succ']

end Poly
end Verif
