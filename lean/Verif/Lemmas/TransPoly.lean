import Verif.Model.Transposed
import Verif.Lemmas.SlowPoly
import Verif.Lemmas.DualFamily
import Verif.Props.Poly

/-! The transposed dual functions as sums over tableaux: the powers of `x + 1` are expanded by choosing subsets. -/

attribute [-simp] List.getD_eq_getElem?_getD

namespace Verif.Symm

open Tableaux Verif.Part Partition

variable {τ : Type*}

/-- An element of `S` with a subset of `{0, ..., d - 1}` for each variable. -/
def choices (S : Finset τ) (n : Nat) (d : τ → Nat → Nat) : Finset (Σ _ : τ, (Fin n → Finset Nat)) :=
  S.sigma (fun T => Fintype.piFinset (fun i : Fin n => (Finset.range (d T i)).powerset))

/-- The exponents, with the sizes of the subsets added. -/
def chWt (n : Nat) (e : τ → Nat → Nat) (x : Σ _ : τ, (Fin n → Finset Nat)) (i : Nat) : Nat :=
  e x.1 i + if h : i < n then (x.2 ⟨i, h⟩).card else 0

theorem chWt_fin (n : Nat) (e : τ → Nat → Nat) (x : Σ _ : τ, (Fin n → Finset Nat)) (i : Fin n) :
    chWt n e x i = e x.1 i + (x.2 i).card := by
  rw [chWt, dif_pos i.2]

theorem mem_choices {S : Finset τ} {n : Nat} {d : τ → Nat → Nat} {x : Σ _ : τ, (Fin n → Finset Nat)}
    (h : x ∈ choices S n d) : x.1 ∈ S ∧ ∀ i : Fin n, (x.2 i).card ≤ d x.1 i := by
  rw [choices, Finset.mem_sigma] at h
  refine ⟨h.1, fun i => ?_⟩
  have := Fintype.mem_piFinset.1 h.2 i
  rw [Finset.mem_powerset] at this
  simpa using Finset.card_le_card this

theorem sum_choices {A : Type*} [CommRing A] (S : Finset τ) (n : Nat) (e d : τ → Nat → Nat) (x : Nat → A) (z : A) :
    ∑ c ∈ choices S n d, z ^ (∑ i ∈ Finset.range n, (e c.1 i + d c.1 i) - ∑ i ∈ Finset.range n, chWt n e c i) *
        ∏ i ∈ Finset.range n, x i ^ chWt n e c i =
      ∑ T ∈ S, ∏ i ∈ Finset.range n, (x i ^ e T i * (x i + z) ^ d T i) := by
  have hL : ∀ c ∈ choices S n d,
      z ^ (∑ i ∈ Finset.range n, (e c.1 i + d c.1 i) - ∑ i ∈ Finset.range n, chWt n e c i) *
        ∏ i ∈ Finset.range n, x i ^ chWt n e c i =
      ∏ i : Fin n, (x i ^ e c.1 i * (x i ^ (c.2 i).card * z ^ (d c.1 i - (c.2 i).card))) := by
    intro c hc
    have h := (mem_choices hc).2
    rw [Finset.sum_range, Finset.sum_range, Finset.prod_range]
    have h1 : ∑ i : Fin n, (e c.1 i + d c.1 i) - ∑ i : Fin n, chWt n e c i = ∑ i : Fin n, (d c.1 i - (c.2 i).card) := by
      have : ∑ i : Fin n, (e c.1 i + d c.1 i) = ∑ i : Fin n, (d c.1 i - (c.2 i).card) + ∑ i : Fin n, chWt n e c i := by
        rw [← Finset.sum_add_distrib]
        refine Finset.sum_congr rfl (fun i _ => ?_)
        have := h i
        rw [chWt_fin]
        omega
      omega
    rw [h1, ← Finset.prod_pow_eq_pow_sum, ← Finset.prod_mul_distrib]
    refine Finset.prod_congr rfl (fun i _ => ?_)
    rw [chWt_fin, pow_add]
    ring
  rw [Finset.sum_congr rfl hL, choices, Finset.sum_sigma]
  refine Finset.sum_congr rfl (fun T _ => ?_)
  dsimp only
  rw [Finset.prod_range]
  have h2 : ∀ i : Fin n, x i ^ e T i * (x i + z) ^ d T i =
      ∑ t ∈ (Finset.range (d T i)).powerset, x i ^ e T i * (x i ^ t.card * z ^ (d T i - t.card)) := by
    intro i
    rw [← Finset.mul_sum]
    have := Finset.sum_pow_mul_eq_add_pow (x i) z (Finset.range (d T i))
    rw [Finset.card_range] at this
    rw [this]
  rw [Finset.prod_congr rfl (fun i _ => h2 i), Finset.prod_univ_sum]

theorem WG_choices {A : Type*} [CommRing A] (S : Finset τ) (n : Nat) (e d : τ → Nat → Nat) (x : Nat → A) :
    WG (choices S n d) n (chWt n e) x = ∑ T ∈ S, ∏ i ∈ Finset.range n, (x i ^ e T i * (x i + 1) ^ d T i) := by
  rw [← sum_choices, WG]
  refine Finset.sum_congr rfl (fun c _ => ?_)
  rw [one_pow, one_mul]

/-! ### the polynomial `p` -/

theorem transFactor_spec (i : Nat) (e d : Nat) : ∃ f, transFactor i ((e : Int), (d : Int)) = some f ∧
    f.den = Laurent.xpow i 1 ^ e * (Laurent.xpow i 1 + 1) ^ d := by
  obtain ⟨p, h1, h2⟩ := C04_pow_nonneg (Poly.x i) e
  obtain ⟨q, h3, h4⟩ := C04_pow_nonneg (Poly.addInt (Poly.x i) 1) d
  refine ⟨Poly.mul p q, ?_, ?_⟩
  · rw [transFactor]
    dsimp only
    rw [h1, Option.bind_some, h3]
    rfl
  · rw [Poly.den_mul, h2, h4, Poly.den_addInt, Poly.x, Poly.den_monomial]
    simp

theorem transTerm_spec (n : Nat) {ex : Tab → Nat → Int × Int} {T : Tab} {e d : Nat → Nat}
    (h : ∀ i < n, ex T (i + 1) = ((e i : Int), (d i : Int))) : ∃ m, transTerm n ex T = some m ∧
      m.den = ∏ i ∈ Finset.range n, (Laurent.xpow ((i + 1 : Nat) : Int) 1 ^ e i * (Laurent.xpow ((i + 1 : Nat) : Int) 1 + 1) ^ d i) := by
  induction n with
  | zero => exact ⟨Poly.const 1, rfl, by rw [Poly.den_const, Finset.prod_range_zero, AddMonoidAlgebra.one_def]⟩
  | succ n ih =>
    obtain ⟨m, h1, h2⟩ := ih (fun i hi => h i (by omega))
    obtain ⟨f, h3, h4⟩ := transFactor_spec (n + 1) (e n) (d n)
    refine ⟨Poly.mul m f, ?_, by rw [Poly.den_mul, h2, h4, Finset.prod_range_succ]⟩
    rw [transTerm, List.range_succ, List.foldlM_append]
    rw [transTerm] at h1
    rw [h1]
    simp only [Option.bind_eq_bind, Option.bind_some, List.foldlM_cons, List.foldlM_nil]
    rw [h n (by omega), h3]
    rfl

theorem transPoly_fold (n : Nat) {ex : Tab → Nat → Int × Int} (tabs : List Tab) {e d : Tab → Nat → Nat}
    (h : ∀ T ∈ tabs, ∀ i < n, ex T (i + 1) = ((e T i : Int), (d T i : Int))) (p0 : Poly) (hp0 : Poly.NoZero p0) :
    ∃ p, tabs.foldlM (fun p T => (transTerm n ex T).map (fun m => Poly.add p m)) p0 = some p ∧ Poly.NoZero p ∧
      p.den = p0.den + (tabs.map (fun T => ∏ i ∈ Finset.range n,
        (Laurent.xpow ((i + 1 : Nat) : Int) 1 ^ e T i * (Laurent.xpow ((i + 1 : Nat) : Int) 1 + 1) ^ d T i))).sum := by
  induction tabs generalizing p0 with
  | nil => exact ⟨p0, rfl, hp0, by simp⟩
  | cons T tabs ih =>
    obtain ⟨m, h1, h2⟩ := transTerm_spec n (h T (by simp))
    obtain ⟨p, h3, h4, h5⟩ := ih (fun T hT => h T (by simp [hT])) (Poly.add p0 m) (Poly.noZero_add hp0)
    refine ⟨p, ?_, h4, ?_⟩
    · rw [List.foldlM_cons, h1]
      exact h3
    · rw [h5, Poly.den_add, h2, List.map_cons, List.sum_cons, add_assoc]

/-- The exponent vector of the monomial. -/
noncomputable def vecOf (n : Nat) (u : Nat → Nat) : ℤ →₀ ℤ :=
  ∑ i ∈ Finset.range n, Finsupp.single ((i + 1 : Nat) : ℤ) (u i : ℤ)

theorem vecOf_apply (n : Nat) (u : Nat → Nat) (i : Nat) (hi : i < n) : vecOf n u ((i + 1 : Nat) : ℤ) = u i := by
  rw [vecOf, Finsupp.finset_sum_apply, Finset.sum_eq_single i]
  · rw [Finsupp.single_eq_same]
  · intro j _ hj
    rw [Finsupp.single_apply, if_neg]
    omega
  · intro h
    exact absurd (Finset.mem_range.2 hi) h

theorem vecOf_outside (n : Nat) (u : Nat → Nat) (t : ℤ) (ht : ∀ i < n, t ≠ ((i + 1 : Nat) : ℤ)) : vecOf n u t = 0 := by
  rw [vecOf, Finsupp.finset_sum_apply]
  refine Finset.sum_eq_zero (fun i hi => ?_)
  rw [Finsupp.single_apply, if_neg (fun h => ht i (Finset.mem_range.1 hi) h.symm)]

theorem prod_xpow (n : Nat) (u : Nat → Nat) : ∏ i ∈ Finset.range n, Laurent.xpow ((i + 1 : Nat) : Int) 1 ^ u i =
    AddMonoidAlgebra.single (vecOf n u) 1 := by
  induction n with
  | zero => rw [Finset.prod_range_zero, AddMonoidAlgebra.one_def]; rfl
  | succ n ih =>
    rw [Finset.prod_range_succ, ih, Laurent.xpow, AddMonoidAlgebra.single_pow, AddMonoidAlgebra.single_mul_single, vecOf, vecOf,
      Finset.sum_range_succ]
    congr 1
    · rw [Finsupp.smul_single, nsmul_eq_mul, mul_one]
    · simp

open scoped Classical in
theorem transPoly_spec (n : Nat) {ex : Tab → Nat → Int × Int} {tabs : List Tab} {S : Finset Tab} (ht : ListsSet tabs S)
    {e d : Tab → Nat → Nat} (h : ∀ T ∈ S, ∀ i < n, ex T (i + 1) = ((e T i : Int), (d T i : Int))) :
    ∃ p, transPoly n ex tabs = some p ∧ Poly.NoZero p ∧
      ∀ m : Mono, p.coeff m = (((choices S n d).filter (fun c => vecOf n (chWt n e c) = m.expo)).card : Nat) := by
  obtain ⟨p, h1, h2, h3⟩ := transPoly_fold n tabs (fun T hT => h T ((ht.2 T).1 hT)) Poly.zero (Poly.noZero_mul _ _)
  refine ⟨p, h1, h2, fun m => ?_⟩
  have hS : S = tabs.toFinset := by ext T; rw [List.mem_toFinset, ht.2]
  rw [Poly.den_zero, zero_add, ← List.sum_toFinset _ ht.1, ← hS, ← WG_choices S n e d (fun i => Laurent.xpow ((i + 1 : Nat) : Int) 1)] at h3
  rw [← Poly.den_coeff, h3, WG, AddMonoidAlgebra.coeff_sum, Finsupp.finset_sum_apply, Finset.card_filter, Nat.cast_sum]
  refine Finset.sum_congr rfl (fun c _ => ?_)
  rw [prod_xpow, AddMonoidAlgebra.coeff_single, Finsupp.single_apply]
  push_cast
  rfl

/-! ### the dictionary -/

theorem setAt_fold {n : Nat} (l : List (Int × Int)) (hl : ∀ t ∈ l, 1 ≤ t.1 ∧ t.1 ≤ n) (hnd : (l.map Prod.fst).Nodup)
    (tup : List Int) (ht : tup.length = n) : ∃ tup', l.foldlM setAt tup = some tup' ∧ tup'.length = n ∧
      ∀ i < n, (∀ e, (((i + 1 : Nat) : Int), e) ∈ l → tup'.getD i 0 = e) ∧
        ((∀ e, (((i + 1 : Nat) : Int), e) ∉ l) → tup'.getD i 0 = tup.getD i 0) := by
  induction l generalizing tup with
  | nil => exact ⟨tup, rfl, ht, fun i _ => ⟨fun e h => by simp at h, fun _ => rfl⟩⟩
  | cons a l ih =>
    obtain ⟨t, v⟩ := a
    rw [List.map_cons, List.nodup_cons] at hnd
    obtain ⟨h1, h2⟩ := hl (t, v) (by simp)
    simp only at h1 h2
    obtain ⟨tup', e1, e2, e3⟩ := ih (fun t ht => hl t (by simp [ht])) hnd.2 (tup.set (t - 1).toNat v) (by simpa using ht)
    refine ⟨tup', ?_, e2, fun i hi => ⟨fun e he => ?_, fun he => ?_⟩⟩
    · rw [List.foldlM_cons, setAt, if_pos ⟨h1, by rw [ht]; exact h2⟩]
      exact e1
    · rw [List.mem_cons, Prod.mk.injEq] at he
      rcases he with ⟨rfl, rfl⟩ | he
      · rw [(e3 i hi).2 (fun e' he' => hnd.1 (List.mem_map.2 ⟨_, he', rfl⟩))]
        have : (((i + 1 : Nat) : Int) - 1).toNat = i := by omega
        rw [this, List.getD_eq_getElem _ _ (by simpa [ht] using hi)]
        simp
      · exact (e3 i hi).1 e he
    · rw [(e3 i hi).2 (fun e h => he e (List.mem_cons_of_mem _ h))]
      have hne : t ≠ ((i + 1 : Nat) : Int) := by
        rintro rfl
        exact he v (by simp)
      rw [List.getD_eq_getElem _ _ (by simpa [ht] using hi), List.getD_eq_getElem _ _ (by omega), List.getElem_set_ne]
      omega

theorem expoTuple_vec {n : Nat} {u : Nat → Nat} {m : Mono} (h : m.expo = vecOf n u) :
    expoTuple n m = some (((List.range n).map u).map (fun a : Nat => (a : Int))) := by
  have hget : ∀ t, m.get t = vecOf n u t := fun t => by rw [← Mono.expo_apply, h]
  have hl : ∀ t ∈ m.items, 1 ≤ t.1 ∧ t.1 ≤ n := by
    rintro ⟨t, v⟩ ht
    rw [Mono.mem_items] at ht
    by_contra hc
    refine ht.2 ?_
    rw [← ht.1, hget, vecOf_outside]
    rintro i hi rfl
    simp only at hc
    omega
  obtain ⟨tup, h1, h2, h3⟩ := setAt_fold m.items hl (Mono.keys_nodup m) (List.replicate n 0) (by simp)
  rw [expoTuple, h1, Option.some_inj]
  refine List.ext_getElem (by simp [h2]) (fun i hi _ => ?_)
  rw [h2] at hi
  simp only [List.getElem_map, List.getElem_range]
  rw [← vecOf_apply n u i hi, ← hget, ← List.getD_eq_getElem _ 0]
  by_cases h0 : m.get ((i + 1 : Nat) : Int) = 0
  · rw [(h3 i hi).2 (fun e he => ?_), h0]
    · rw [List.getD_eq_getElem _ _ (by simpa using hi)]
      simp
    · rw [Mono.mem_items] at he
      exact he.2 (he.1 ▸ h0)
  · exact (h3 i hi).1 _ (Mono.mem_items.2 ⟨rfl, h0⟩)

theorem vecOf_congr {n : Nat} {u u' : Nat → Nat} (h : ∀ i < n, u i = u' i) : vecOf n u = vecOf n u' := by
  rw [vecOf, vecOf]
  exact Finset.sum_congr rfl (fun i hi => by rw [h i (Finset.mem_range.1 hi)])

theorem vecOf_inj {n : Nat} {u u' : Nat → Nat} (h : vecOf n u = vecOf n u') : ∀ i < n, u i = u' i := by
  intro i hi
  have := vecOf_apply n u i hi
  rw [h, vecOf_apply n u' i hi] at this
  exact_mod_cast this.symm

theorem dict_fold {K V K' : Type} [DecidableEq K'] (F : K → Option K') (g : K → V) (x0 : V) (l : List K) (hnd : l.Nodup)
    (hF : ∀ k ∈ l, ∃ a, F k = some a) (hinj : ∀ k ∈ l, ∀ k' ∈ l, F k = F k' → k = k') (d : Dict K' V) :
    ∃ d', l.foldlM (fun d k => (F k).map (fun a => d.set a (g k))) d = some d' ∧
      (∀ k ∈ l, ∀ a, F k = some a → d'.getD a x0 = g k) ∧
      (∀ a, (∀ k ∈ l, F k ≠ some a) → d'.getD a x0 = d.getD a x0) ∧
      ∀ a ∈ d'.keys, a ∈ d.keys ∨ ∃ k ∈ l, F k = some a := by
  induction l generalizing d with
  | nil => exact ⟨d, rfl, by simp, fun _ _ => rfl, fun a ha => Or.inl ha⟩
  | cons k l ih =>
    rw [List.nodup_cons] at hnd
    obtain ⟨a, ha⟩ := hF k (by simp)
    obtain ⟨d', e1, e2, e3, e4⟩ := ih hnd.2 (fun k hk => hF k (by simp [hk]))
      (fun k hk k' hk' => hinj k (by simp [hk]) k' (by simp [hk'])) (d.set a (g k))
    have hne : ∀ k' ∈ l, F k' ≠ some a := by
      intro k' hk' hc
      rw [hinj k (by simp) k' (by simp [hk']) (ha.trans hc.symm)] at hnd
      exact hnd.1 hk'
    refine ⟨d', ?_, ?_, ?_, ?_⟩
    · rw [List.foldlM_cons, ha]
      exact e1
    · intro k' hk' a' ha'
      rw [List.mem_cons] at hk'
      rcases hk' with rfl | hk'
      · rw [ha, Option.some_inj] at ha'
        subst ha'
        rw [e3 a hne, Dict.getD_set, if_pos rfl]
      · exact e2 k' hk' a' ha'
    · intro a' h
      rw [e3 a' (fun k hk => h k (by simp [hk])), Dict.getD_set, if_neg]
      rintro rfl
      exact h k (by simp) ha
    · intro a' h
      rcases e4 a' h with h | ⟨k', hk', h⟩
      · rcases keys_set h with rfl | h
        · exact Or.inr ⟨k, by simp, ha⟩
        · exact Or.inl h
      · exact Or.inr ⟨k', by simp [hk'], h⟩

open scoped Classical in
theorem transDict_spec (n : Nat) {S : Finset Tab} {e d : Tab → Nat → Nat} {p : Poly} (hp : Poly.NoZero p)
    (hc : ∀ m : Mono, p.coeff m = (((choices S n d).filter (fun c => vecOf n (chWt n e c) = m.expo)).card : Nat)) :
    ∃ dd, transDict n p = some dd ∧ (∀ a ∈ dd.keys, ∃ u : List Nat, u.length = n ∧ a = u.map (fun a : Nat => (a : Int))) ∧
      ∀ u : List Nat, u.length = n → dd.getD (u.map (fun a : Nat => (a : Int))) 0 =
        wCount (choices S n d) n (chWt n e) (fun i => u.getD i 0) := by
  have hkey : ∀ m ∈ p.keys, ∃ u : Nat → Nat, m.expo = vecOf n u := by
    intro m hm
    obtain ⟨v, hv⟩ := Dict.mem_keys.1 hm
    have h1 : p.coeff m ≠ 0 := by
      rw [Poly.coeff, Dict.getD_of_get? hv]
      exact hp m v hv
    rw [hc] at h1
    have h2 : ((choices S n d).filter (fun c => vecOf n (chWt n e c) = m.expo)).card ≠ 0 := by
      intro h; rw [h] at h1; exact h1 rfl
    obtain ⟨c, hcm⟩ := Finset.card_ne_zero.1 h2
    exact ⟨_, (Finset.mem_filter.1 hcm).2.symm⟩
  have hinj : ∀ m m' : Mono, (∃ u : Nat → Nat, m.expo = vecOf n u) → (∃ u : Nat → Nat, m'.expo = vecOf n u) →
      expoTuple n m = expoTuple n m' → m = m' := by
    rintro m m' ⟨u, hu⟩ ⟨u', hu'⟩ h
    rw [expoTuple_vec hu, expoTuple_vec hu', Option.some_inj] at h
    have h1 : (List.range n).map u = (List.range n).map u' :=
      List.map_injective_iff.2 (fun a b hab => by exact_mod_cast hab) h
    rw [← Mono.expo_inj, hu, hu']
    refine vecOf_congr (fun i hi => ?_)
    have h2 : ((List.range n).map u).getD i 0 = ((List.range n).map u').getD i 0 := by rw [h1]
    rw [List.getD_eq_getElem _ _ (by simpa using hi), List.getD_eq_getElem _ _ (by simpa using hi)] at h2
    simpa using h2
  obtain ⟨dd, e1, e2, e3, e4⟩ := dict_fold (expoTuple n) p.coeff 0 p.keys p.nodup
    (fun m hm => by obtain ⟨u, hu⟩ := hkey m hm; exact ⟨_, expoTuple_vec hu⟩)
    (fun m hm m' hm' => hinj m m' (hkey m hm) (hkey m' hm')) Dict.empty
  refine ⟨dd, e1, fun a ha => ?_, fun u hu => ?_⟩
  · rcases e4 a ha with h | ⟨m, hm, h⟩
    · simp [Dict.keys, Dict.empty] at h
    · obtain ⟨u, hu⟩ := hkey m hm
      rw [expoTuple_vec hu, Option.some_inj] at h
      exact ⟨(List.range n).map u, by simp, h.symm⟩
  · obtain ⟨m, hm⟩ := Mono.expo_surj (vecOf n (fun i => u.getD i 0))
    have hu' : (List.range n).map (fun i => u.getD i 0) = u := by
      refine List.ext_getElem (by simp [hu]) (fun i h1 h2 => ?_)
      simp only [List.getElem_map, List.getElem_range]
      rw [List.getD_eq_getElem _ _ h2]
    have hme := expoTuple_vec hm
    rw [hu'] at hme
    have hco : p.coeff m = wCount (choices S n d) n (chWt n e) (fun i => u.getD i 0) := by
      rw [hc, wCount]
      congr 2
      ext c
      rw [Finset.mem_filter, Finset.mem_filter, hm]
      exact and_congr_right (fun _ => ⟨vecOf_inj, vecOf_congr⟩)
    rw [← hco]
    by_cases hk : m ∈ p.keys
    · exact e2 m hk _ hme
    · rw [e3 _ (fun m' hm' hc' => hk (by rw [hinj m m' ⟨_, hm⟩ (hkey m' hm') (hme.trans hc'.symm)]; exact hm')), Dict.getD_empty, Poly.coeff,
        Dict.getD_of_notMem hk]

/-! ### the result -/

theorem trans_fold (n : Nat) {α : Type*} {S : Finset α} {w : α → Nat → Nat} (a : PolyVal) (dd : Dict (List Int) Int)
    (hk : ∀ a ∈ dd.keys, ∃ u : List Nat, u.length = n ∧ a = u.map (fun a : Nat => (a : Int)))
    (hw : ∀ u : List Nat, u.length = n → dd.getD (u.map (fun a : Nat => (a : Int))) 0 = wCount S n w (fun i => u.getD i 0)) :
    ∃ e', ((dd.items.filter (fun ac => isPartition ac.1)).map (fun ac => (ac.1.map Int.toNat, ac.2))).foldlM
      (fun (e : Dict (List Nat) PolyVal) (ac : List Nat × Int) =>
        (mkMono n ac.1).map (fun key => e.set key ((ac.2 : PolyVal) * a ^ ac.1.sum))) Dict.empty = some e' ∧
      (∀ k ∈ e'.keys, IsPartition k ∧ k.length ≤ n) ∧
      ∀ k, IsPartition k → k.length ≤ n → e'.getD k 0 = (wCount S n w (fun i => k.getD i 0) : PolyVal) * a ^ k.sum := by
  have hcast : ∀ u : List Nat, (u.map (fun a : Nat => (a : Int))).map Int.toNat = u := by
    intro u
    rw [List.map_map]
    refine (List.map_congr_left (fun a _ => ?_)).trans (List.map_id u)
    simp
  have hitem : ∀ t ∈ dd.items.filter (fun ac => isPartition ac.1), ∃ u : List Nat, u.length = n ∧ u.Pairwise (· ≥ ·) ∧
      t.1 = u.map (fun a : Nat => (a : Int)) := by
    intro t ht
    rw [List.mem_filter] at ht
    obtain ⟨u, h1, h2⟩ := hk t.1 (Dict.mem_keys_of_items ht.1)
    exact ⟨u, h1, by rw [h2, isPartition_cast] at ht; exact ht.2, h2⟩
  obtain ⟨l, hl⟩ : ∃ l, (dd.items.filter (fun ac => isPartition ac.1)).map (fun ac => (ac.1.map Int.toNat, ac.2)) = l := ⟨_, rfl⟩
  have hmem : ∀ t ∈ l, (t.1.map (fun a : Nat => (a : Int)), t.2) ∈ dd.items ∧ t.1.length = n ∧ t.1.Pairwise (· ≥ ·) := by
    intro t ht
    rw [← hl, List.mem_map] at ht
    obtain ⟨s, hs, rfl⟩ := ht
    obtain ⟨u, h1, h2, h3⟩ := hitem s hs
    dsimp only
    rw [h3, hcast]
    refine ⟨?_, h1, h2⟩
    rw [← h3]
    exact (List.mem_filter.1 hs).1
  have hnd : (l.map Prod.fst).Nodup := by
    rw [← hl, List.map_map]
    have h1 : (dd.items.filter (fun ac => isPartition ac.1)).Nodup := by
      have : (dd.items.map Prod.fst).Nodup := dd.nodup
      exact this.of_map.filter _
    refine h1.map_on (fun s hs t ht h => ?_)
    obtain ⟨u, _, _, h3⟩ := hitem s hs
    obtain ⟨u', _, _, h3'⟩ := hitem t ht
    simp only [Function.comp_apply] at h
    rw [h3, h3', hcast, hcast] at h
    have h4 : s.1 = t.1 := by rw [h3, h3', h]
    have h5 := Dict.getD_of_mem (x := 0) (List.mem_filter.1 hs).1
    have h6 := Dict.getD_of_mem (x := 0) (List.mem_filter.1 ht).1
    rw [h4] at h5
    exact Prod.ext h4 (h5.symm.trans h6)
  obtain ⟨e', e1, e2, e3⟩ := slow_fold (n := n) (fun ac => (ac.2 : PolyVal) * a ^ ac.1.sum) l hnd
    (fun t ht => (hmem t ht).2) Dict.empty (by simp [Dict.keys, Dict.empty])
  refine ⟨e', by rw [hl]; exact e1, e2, fun k hk1 hk2 => ?_⟩
  rw [e3 k hk1 hk2, Dict.getD_empty]
  have hlen : (k ++ List.replicate (n - k.length) 0).length = n := by simp; omega
  have hg := hw (k ++ List.replicate (n - k.length) 0) hlen
  rw [wCount_congr (fun i hi => (pad_iff hlen hk2).1 rfl i hi)] at hg
  cases hf : l.find? (fun t => decide (t.1 = k ++ List.replicate (n - k.length) 0)) with
  | some t =>
    have h2 := List.find?_some hf
    rw [decide_eq_true_eq] at h2
    have h1 := (hmem t (List.mem_of_find?_eq_some hf)).1
    rw [← h2] at hg
    have h3 := Dict.getD_of_mem (x := 0) h1
    simp only at h3 ⊢
    rw [h3] at hg
    rw [hg, h2, List.sum_append, List.sum_replicate]
    simp
  | none =>
    rw [List.find?_eq_none] at hf
    have h0 : dd.getD ((k ++ List.replicate (n - k.length) 0).map (fun a : Nat => (a : Int))) 0 = 0 := by
      refine Dict.getD_of_notMem (fun hc => ?_)
      rw [Dict.keys, List.mem_map] at hc
      obtain ⟨t, ht, hte⟩ := hc
      refine hf (t.1.map Int.toNat, t.2) ?_ ?_
      · rw [← hl, List.mem_map]
        refine ⟨t, List.mem_filter.2 ⟨ht, ?_⟩, rfl⟩
        rw [hte, isPartition_cast, List.pairwise_append]
        refine ⟨hk1.1, by simp, fun a _ b hb => ?_⟩
        rw [List.mem_replicate] at hb
        omega
      · rw [decide_eq_true_eq, hte, hcast]
    rw [h0] at hg
    rw [← hg]
    simp

open scoped Classical in
theorem transVectorize_spec (v : Int → Poly) {n : Nat} {ex : Tab → Nat → Int × Int} {tabs : List Tab} {S : Finset Tab}
    (ht : ListsSet tabs S) {e d : Tab → Nat → Nat} (h : ∀ T ∈ S, ∀ i < n, ex T (i + 1) = ((e T i : Int), (d T i : Int)))
    (hS : SwapInvariant (choices S n d) n (chWt n e)) {mu nu : List Nat} {beta b c : Poly}
    (hb : Poly.pow beta (-1) = some b) (hb1 : b.den * beta.den = 1)
    (hc : Poly.pow (Poly.neg beta) ((mu.sum : Int) - nu.sum) = some c)
    (hN : ∀ T ∈ S, ∑ i ∈ Finset.range n, (e T i + d T i) + nu.sum = mu.sum) :
    ∃ f, (transPoly n ex tabs).bind (transVectorize n mu nu beta) = some f ∧ IsSym n f ∧ Vec.NoZero f ∧
      (∀ k, f.get k = if IsPartition k ∧ k.length ≤ n then
        (wCount (choices S n d) n (chWt n e) (fun i => k.getD i 0) : PolyVal) * (-PolyVal.mk beta) ^ (mu.sum - nu.sum - k.sum)
        else 0) ∧
      (polynomial v n f).den = ∑ T ∈ S, ∏ i ∈ Finset.range n,
        (xden v (i + 1) ^ e T i * (xden v (i + 1) - beta.den) ^ d T i) := by
  obtain ⟨p, p1, p2, p3⟩ := transPoly_spec n ht h
  obtain ⟨dd, d1, d2, d3⟩ := transDict_spec n p2 p3
  obtain ⟨e', e1, e2, e3⟩ := trans_fold n (PolyVal.mk (Poly.neg b)) dd d2 d3
  -- the power of `-beta`
  have hcd : ∀ T ∈ S, c.den = (-beta.den) ^ (mu.sum - nu.sum) := by
    intro T hT
    have := hN T hT
    obtain ⟨c', hc1, hc2⟩ := C04_pow_nonneg (Poly.neg beta) (mu.sum - nu.sum)
    rw [show (((mu.sum - nu.sum : Nat)) : Int) = (mu.sum : Int) - nu.sum by omega, hc, Option.some_inj] at hc1
    rw [hc1, hc2, Poly.den_neg]
  have hbe : (-b.den) * (-beta.den) = 1 := by rw [neg_mul_neg, hb1]
  have hpw : ∀ s m : Nat, s ≤ m → (-b.den) ^ s * (-beta.den) ^ m = (-beta.den) ^ (m - s) := by
    intro s m hsm
    obtain ⟨t, rfl⟩ : ∃ t, m = s + t := ⟨m - s, by omega⟩
    rw [pow_add, ← mul_assoc, ← mul_pow, hbe, one_pow, one_mul, Nat.add_sub_cancel_left]
  have hle : ∀ x ∈ choices S n d, ∑ i ∈ Finset.range n, chWt n e x i ≤ mu.sum - nu.sum := by
    intro x hx
    obtain ⟨h1, h2⟩ := mem_choices hx
    have h3 := hN x.1 h1
    have : ∑ i ∈ Finset.range n, chWt n e x i ≤ ∑ i ∈ Finset.range n, (e x.1 i + d x.1 i) := by
      rw [Finset.sum_range, Finset.sum_range]
      refine Finset.sum_le_sum (fun i _ => ?_)
      rw [chWt_fin]
      have := h2 i
      omega
    omega
  have hget : ∀ k, (Vec.smul (mkSym n e') (PolyVal.mk c)).get k = if IsPartition k ∧ k.length ≤ n then
      (wCount (choices S n d) n (chWt n e) (fun i => k.getD i 0) : PolyVal) * (-PolyVal.mk beta) ^ (mu.sum - nu.sum - k.sum)
      else 0 := by
    intro k
    rw [Vec.get_smul]
    have h0 : (mkSym n e').get k = e'.getD k 0 := Vec.get_mk' _ _ _
    rw [h0]
    by_cases hk : IsPartition k ∧ k.length ≤ n
    swap
    · rw [if_neg hk, Dict.getD_of_notMem (fun hc => hk (e2 k hc))]
      simp
    rw [if_pos hk, e3 k hk.1 hk.2]
    by_cases hz : wCount (choices S n d) n (chWt n e) (fun i => k.getD i 0) = 0
    · rw [hz]; simp
    have hz' : ((choices S n d).filter (fun T => ∀ i < n, chWt n e T i = k.getD i 0)).card ≠ 0 := by
      intro h; apply hz; rw [wCount]; exact_mod_cast h
    obtain ⟨x, hx⟩ := Finset.card_ne_zero.1 hz'
    rw [Finset.mem_filter] at hx
    have hsum : k.sum = ∑ i ∈ Finset.range n, chWt n e x i := by
      have e1 := sum_wtL n (chWt n e) x
      have e2 : wtL n (chWt n e) x = k ++ List.replicate (n - k.length) 0 :=
        (pad_iff (by simp) hk.2).2 (fun i hi => by rw [getD_wtL _ _ _ hi, hx.2 i hi])
      rw [← e1, e2, List.sum_append, List.sum_replicate]
      simp
    have hks := hle x hx.1
    rw [← hsum] at hks
    apply PolyVal.den_injective
    simp only [PolyVal.den_mul, PolyVal.den_pow, PolyVal.den_mk, PolyVal.den_neg, Poly.den_neg]
    rw [hcd x.1 (mem_choices hx.1).1, mul_assoc, hpw _ _ hks]
  have hsym : IsSym n (Vec.smul (mkSym n e') (PolyVal.mk c)) := isSym_smul (isSym_mkSym e2) _
  refine ⟨Vec.smul (mkSym n e') (PolyVal.mk c), ?_, hsym, Vec.noZero_mk' _ _, hget, ?_⟩
  · rw [p1, Option.bind_some, transVectorize, d1, hb]
    simp only
    rw [e1]
    simp only
    rw [hc]
  · rw [den_polynomial v n (fun k hk => (hsym.keys k hk).1)]
    rw [phi_weights v hS _ (fun k => (-PolyVal.mk beta) ^ (mu.sum - nu.sum - k))
      (fun k hk => by rw [Vec.den_apply, hget, if_pos hk]) (fun k hk => by rw [Vec.den_apply, hget, if_neg hk])]
    have := sum_choices S n e d (fun i => xden v (i + 1)) (-beta.den)
    simp only [← sub_eq_add_neg] at this
    rw [← this]
    refine Finset.sum_congr rfl (fun x hx => ?_)
    have h3 := hN x.1 (mem_choices hx).1
    rw [xm_wtL, sum_wtL, show ∑ i ∈ Finset.range n, (e x.1 i + d x.1 i) = mu.sum - nu.sum by omega]
    simp only [PolyVal.den_pow, PolyVal.den_mk, PolyVal.den_neg]

end Verif.Symm
