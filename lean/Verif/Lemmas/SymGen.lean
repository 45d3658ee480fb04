import Verif.Lemmas.SymPoly
import Verif.Lemmas.SymTab

/-! The symmetric polynomials made by `_vectorize` are generating functions of tableaux. -/

namespace Verif.Symm

open Verif.Part Partition Tableaux
open AddMonoidAlgebra (single)

attribute [-simp] List.getD_eq_getElem?_getD

/-- The factor `signs ** sum(partition) if signs else 1`. -/
def signFactor (signs : Option PolyVal) (k : Nat) : PolyVal :=
  match signs with
  | some s => if s = 0 then 1 else s ^ k
  | none => 1

/-- Whether a monomial of degree `k` is kept. -/
def within (bound : Option Int) (k : Nat) : Prop := ∀ b, bound = some b → (k : Int) ≤ b

instance (bound : Option Int) (k : Nat) : Decidable (within bound k) :=
  match bound with
  | none => isTrue (fun b hb => by simp at hb)
  | some b => if h : (k : Int) ≤ b then isTrue (fun b' hb => by cases hb; exact h)
      else isFalse (fun hc => h (hc b rfl))

theorem getD_filter {K V : Type*} [DecidableEq K] (d : Dict K V) (c : K → V → Bool) (k : K) (x : V) :
    (d.filter c).getD k x = if c k (d.getD k x) then d.getD k x else x := by
  unfold Dict.getD
  rw [Dict.get?_filter]
  cases d.get? k with
  | none => simp
  | some v => simp only [Option.filter, Option.getD_some]; split <;> simp_all

theorem vectorize_spec {n : Nat} {d : Dict (List Nat) Int} (signs : Option PolyVal) (bound : Option Int)
    (hlen : ∀ q ∈ d.keys, q.length ≤ n) (hpart : ∀ q, ¬ IsPartition q → d.getD q 0 = 0) :
    ∃ f, vectorize n d signs bound = some f ∧ IsSym n f ∧ Vec.NoZero f ∧ (∀ k, f.get k =
      if within bound k.sum then (d.getD k 0 : PolyVal) * signFactor signs k.sum else 0) := by
  have hfold : ∀ (l : List (List Nat × Int)), (∀ t ∈ l, t.1.length ≤ n) →
      (∀ t ∈ l, ¬ IsPartition t.1 → t.2 = 0) →
      ∀ e : Dict (List Nat) PolyVal, (∀ k ∈ e.keys, IsPartition k ∧ k.length ≤ n) →
      ∃ e', l.foldlM (vectorizeStep n signs) e = some e' ∧ (∀ k ∈ e'.keys, IsPartition k ∧ k.length ≤ n) ∧
        ∀ k, e'.getD k 0 = e.getD k 0 +
          (l.map (fun t => if t.1 = k then (t.2 : PolyVal) * signFactor signs k.sum else 0)).sum := by
    intro l
    induction l with
    | nil => intro _ _ e he; exact ⟨e, rfl, he, by simp⟩
    | cons t l ih =>
      intro h1 h2 e he
      have hstep : vectorizeStep n signs e t = some (e.set (sortTrim t.1) (e.getD (sortTrim t.1) 0 +
          (t.2 : PolyVal) * signFactor signs t.1.sum)) := by
        simp only [vectorizeStep, mkMono, h1 t (by simp), if_true]
        cases signs <;> rfl
      obtain ⟨e', h3, h4, h5⟩ := ih (fun t ht => h1 t (by simp [ht])) (fun t ht => h2 t (by simp [ht]))
        (e.set (sortTrim t.1) (e.getD (sortTrim t.1) 0 + (t.2 : PolyVal) * signFactor signs t.1.sum)) (by
          intro k hk
          rcases keys_set hk with rfl | hk
          · refine ⟨sortTrim_isPartition _, ?_⟩
            rw [← (sortTrim_perm t.1).length_eq]
            exact (List.length_filter_le _ _).trans (h1 t (by simp))
          · exact he k hk)
      refine ⟨e', ?_, h4, ?_⟩
      · rw [List.foldlM_cons, hstep]; exact h3
      · intro k
        rw [h5, Dict.getD_set, List.map_cons, List.sum_cons]
        by_cases hp : IsPartition t.1
        · rw [sortTrim_self hp]
          by_cases hk : t.1 = k
          · subst hk; simp [add_assoc]
          · simp [hk]
        · have h0 := h2 t (by simp) hp
          rw [h0]
          by_cases hk : sortTrim t.1 = k
          · subst hk; simp
          · simp [hk]
  obtain ⟨e, h1, h2, h3⟩ := hfold d.items (fun t ht => hlen _ (Dict.mem_keys_of_items ht))
    (fun t ht hp => by have := hpart t.1 hp; rwa [Dict.getD_of_mem ht] at this) Dict.empty
    (by simp [Dict.keys, Dict.empty])
  have hval : ∀ k, e.getD k 0 = (d.getD k 0 : PolyVal) * signFactor signs k.sum := by
    intro k
    rw [h3, Dict.getD_empty, zero_add]
    have hsum : ∀ l : List (List Nat × Int), (l.map Prod.fst).Nodup →
        (l.map (fun t => if t.1 = k then (t.2 : PolyVal) * signFactor signs k.sum else 0)).sum =
          (((Dict.lookup k l).getD 0 : Int) : PolyVal) * signFactor signs k.sum := by
      intro l
      induction l with
      | nil => intro _; simp [Dict.lookup]
      | cons t l ih =>
        intro hnd
        rw [List.map_cons, List.nodup_cons] at hnd
        obtain ⟨k', v⟩ := t
        rw [List.map_cons, List.sum_cons, ih hnd.2, Dict.lookup]
        by_cases hk : k' = k
        · subst hk
          rw [Dict.lookup_eq_none.2 hnd.1]
          simp
        · simp [hk]
    exact hsum d.items d.nodup
  refine ⟨_, by simp only [vectorize, h1]; rfl, ?_, Vec.noZero_mk' _ _, ?_⟩
  · apply isSym_mkSym
    cases bound with
    | none => exact h2
    | some b =>
      intro k hk
      apply h2
      simp only [Dict.keys, Dict.filter, List.mem_map, List.mem_filter] at hk ⊢
      obtain ⟨p, ⟨hp, _⟩, rfl⟩ := hk
      exact ⟨p, hp, rfl⟩
  · intro k
    refine (Vec.get_mk' _ _ _).trans ?_
    cases bound with
    | none => rw [if_pos (by intro b hb; simp at hb)]; exact hval k
    | some b =>
      simp only
      rw [getD_filter, hval]
      by_cases hb : ((k.sum : Nat) : Int) ≤ b
      · rw [if_pos (by simpa using hb), if_pos (by intro b' hb'; cases hb'; exact hb)]
      · rw [if_neg (by simpa using hb), if_neg (fun hc => hb (hc b rfl))]

/-! ### grouping by content -/

/-- The content of a tableau as a list of length `n`. -/
def wt (n : Nat) (T : Tab) : List Nat := (List.range n).map (fun i : Nat => T.entries.count ((i : Int) + 1))

@[simp] theorem length_wt (n : Nat) (T : Tab) : (wt n T).length = n := by simp [wt]

theorem getD_wt (n : Nat) (T : Tab) {i : Nat} (h : i < n) : (wt n T).getD i 0 = T.entries.count ((i : Int) + 1) := by
  rw [List.getD_eq_getElem _ _ (by simpa using h)]; simp [wt]

theorem xm_eq_prod {A : Type*} [CommRing A] (x : Nat → A) (u : List Nat) (s : Nat) :
    xm x s u = ∏ i ∈ Finset.range u.length, x (s + i) ^ u.getD i 0 := by
  induction u generalizing s with
  | nil => simp [xm]
  | cons a u ih =>
    rw [xm, ih, List.length_cons, Finset.prod_range_succ']
    simp only [List.getD_cons_zero, List.getD_cons_succ, add_zero]
    rw [mul_comm]
    congr 1
    exact Finset.prod_congr rfl (fun i _ => by rw [show s + (i + 1) = s + 1 + i by omega])

theorem xm_wt {A : Type*} [CommRing A] (x : Nat → A) (n : Nat) (T : Tab) :
    xm x 1 (wt n T) = ∏ i ∈ Finset.range n, x (i + 1) ^ T.entries.count ((i : Int) + 1) := by
  rw [xm_eq_prod, length_wt]
  exact Finset.prod_congr rfl (fun i hi => by rw [getD_wt n T (Finset.mem_range.1 hi), add_comm])

theorem tabCount_wt (sv : Bool) (nu : List Nat) (n : Nat) (mu : List Nat) {u : List Nat} (hu : u.length = n) :
    tabCount sv nu n mu (fun i => u.getD i 0) = (((semistandard sv nu n mu).filter (fun T => wt n T = u)).card : Nat) := by
  rw [tabCount]
  congr 2
  refine Finset.filter_congr (fun T _ => ?_)
  constructor
  · intro h
    refine List.ext_getElem (by simp [hu]) (fun i h1 h2 => ?_)
    have := h i (by omega)
    rw [← getD_wt n T (by omega), List.getD_eq_getElem _ _ h1, List.getD_eq_getElem _ _ h2] at this
    exact this
  · rintro rfl i hi
    rw [getD_wt n T hi]

theorem sum_perm_nz {u k : List Nat} (h : (nz u).Perm k) : k.sum = u.sum := by
  rw [← h.sum_eq]
  clear h
  induction u with
  | nil => rfl
  | cons a u ih =>
    by_cases ha : a = 0
    · subst ha; rw [nz_zero, ih]; simp
    · rw [nz_pos ha]; simp [ih]

/-- Regrouping a sum over tableaux by the sorted content. -/
theorem phi_tableaux (v : Int → Poly) (sv : Bool) (n : Nat) {mu nu : List Nat} (hm : IsPartition mu)
    (hn : IsPartition nu) (F : List Nat →₀ PolyVal) (c : Nat → PolyVal)
    (hF : ∀ k, IsPartition k ∧ k.length ≤ n → F k =
      (tabCount sv nu n mu (fun i => k.getD i 0) : PolyVal) * c k.sum)
    (hF0 : ∀ k, ¬ (IsPartition k ∧ k.length ≤ n) → F k = 0) :
    phi (xden v) n F = ∑ T ∈ semistandard sv nu n mu, (c (wt n T).sum).den * xm (xden v) 1 (wt n T) := by
  classical
  have hsupp : ∀ k ∈ F.support, IsPartition k ∧ k.length ≤ n := by
    intro k hk
    by_contra hc
    exact (Finsupp.mem_support_iff.1 hk) (hF0 k hc)
  have hcount : ∀ k, IsPartition k → k.length ≤ n → ∀ u ∈ destandardize n k,
      tabCount sv nu n mu (fun i => k.getD i 0) = (((semistandard sv nu n mu).filter (fun T => wt n T = u)).card : Nat) := by
    intro k hk hkn u hu
    rw [mem_destandardize n hk] at hu
    rw [← tabCount_wt sv nu n mu hu.1]
    have hpad : k ++ List.replicate (n - k.length) 0 = k ++ List.replicate (u.length - (nz u).length) 0 := by
      rw [hu.2.length_eq, hu.1]
    have h1 : u.Perm (k ++ List.replicate (n - k.length) 0) := by
      rw [hpad]; exact (perm_nz_pad u).trans (hu.2.append_right _)
    have h2 := tabCount_perm (sv := sv) hn hm h1 [] (by simpa using hu.1)
    simp only [List.nil_append] at h2
    rw [h2]
    congr 1
    funext i
    by_cases hi : i < k.length
    · rw [List.getD_append _ _ _ _ hi]
    · rw [List.getD_append_right _ _ _ _ (by omega), List.getD_eq_default _ _ (by omega), List.getD_eq_getElem?_getD,
        List.getElem?_replicate]
      split <;> rfl
  have hR : phi (xden v) n F = ∑ k ∈ F.support, ∑ u ∈ (destandardize n k).toFinset,
      ∑ T ∈ semistandard sv nu n mu, if wt n T = u then (c (wt n T).sum).den * xm (xden v) 1 (wt n T) else 0 := by
    rw [phi, Finsupp.sum]
    refine Finset.sum_congr rfl (fun k hk => ?_)
    obtain ⟨hk1, hk2⟩ := hsupp k hk
    rw [hF k ⟨hk1, hk2⟩, msum_eq _ _ hk1, Finset.sum_mul]
    refine Finset.sum_congr rfl (fun u hu => ?_)
    rw [List.mem_toFinset] at hu
    have hsum : k.sum = u.sum := sum_perm_nz ((mem_destandardize n hk1 u).1 hu).2
    rw [hcount k hk1 hk2 u hu, Finset.card_filter]
    simp only [Int.cast_natCast, PolyVal.den_mul, PolyVal.den_natCast]
    push_cast
    rw [Finset.sum_mul, Finset.mul_sum]
    refine Finset.sum_congr rfl (fun T _ => ?_)
    split
    · rename_i h; rw [h, hsum]; ring
    · simp
  rw [hR]
  have hswap := (Finset.sum_congr rfl (fun k (_ : k ∈ F.support) => Finset.sum_comm (s := (destandardize n k).toFinset)
    (t := semistandard sv nu n mu)
    (f := fun u T => if wt n T = u then (c (wt n T).sum).den * xm (xden v) 1 (wt n T) else 0))).trans Finset.sum_comm
  rw [hswap]
  refine Finset.sum_congr rfl (fun T hT => ?_)
  set g0 := sortTrim (wt n T) with hg0
  have hg0p : IsPartition g0 := sortTrim_isPartition _
  have hmem0 : wt n T ∈ destandardize n g0 := (mem_destandardize n hg0p _).2 ⟨length_wt n T, sortTrim_perm _⟩
  have hlen0 : g0.length ≤ n := by
    rw [← (sortTrim_perm _).length_eq]
    exact (List.length_filter_le _ _).trans (by simp)
  rw [Finset.sum_eq_single g0]
  · rw [Finset.sum_eq_single (wt n T)]
    · simp
    · intro u _ hu; rw [if_neg (fun h => hu h.symm)]
    · intro h; exact absurd (List.mem_toFinset.2 hmem0) h
  · intro g hg hne
    refine Finset.sum_eq_zero (fun u hu => ?_)
    rw [if_neg]
    rintro rfl
    have hgp := (hsupp g hg).1
    rw [List.mem_toFinset, mem_destandardize n hgp] at hu
    exact hne ((sortTrim_eq_iff hgp).2 hu.2).symm
  · intro h
    have h0 : F g0 = 0 := Finsupp.notMem_support_iff.1 h
    rw [hF g0 ⟨hg0p, hlen0⟩, hcount g0 hg0p hlen0 _ hmem0] at h0
    have hpos : (((semistandard sv nu n mu).filter (fun T' => wt n T' = wt n T)).card : Nat) ≠ 0 := by
      rw [Finset.card_ne_zero]
      exact ⟨T, by simp [hT]⟩
    have hsum : g0.sum = (wt n T).sum := sum_perm_nz (sortTrim_perm _)
    have hc0 : (c (wt n T).sum).den = 0 := by
      have h1 := congrArg PolyVal.den h0
      rw [PolyVal.den_mul, PolyVal.den_zero, hsum, Int.cast_natCast, PolyVal.den_natCast] at h1
      rw [← nsmul_eq_mul] at h1
      apply AddMonoidAlgebra.coeff_injective
      ext e
      have h2 := congrArg (fun z : Laurent => z.coeff e) h1
      rw [AddMonoidAlgebra.coeff_smul, Finsupp.smul_apply, nsmul_eq_mul] at h2
      simp only [AddMonoidAlgebra.coeff_zero, Finsupp.zero_apply] at h2 ⊢
      rcases mul_eq_zero.1 h2 with h3 | h3
      · exact absurd (by exact_mod_cast h3) hpos
      · exact h3
    refine Finset.sum_eq_zero (fun u _ => ?_)
    rw [hc0]; simp

end Verif.Symm

namespace Verif.Symm

open Verif.Part Partition Tableaux
open AddMonoidAlgebra (single)

attribute [-simp] List.getD_eq_getElem?_getD

/-! ### coefficients of monomial symmetric polynomials -/

/-- `i ↦ i + 1` as an embedding. -/
def succEmb : Nat ↪ ℤ := ⟨fun i : Nat => (i : ℤ) + 1, fun a b h => by
  have : (a : ℤ) + 1 = b + 1 := h
  omega⟩

theorem succEmb_apply (i : Nat) : succEmb i = (i : ℤ) + 1 := rfl

theorem support_expoV (v : List Nat) :
    (expoV 1 v).support.val.map (expoV 1 v) = ((nz v : List Nat) : Multiset Nat).map (fun a : Nat => (a : ℤ)) := by
  have h1 : (expoV 1 v).support = ((Finset.range v.length).filter (fun i => v.getD i 0 ≠ 0)).map
      succEmb := by
    ext j
    rw [Finsupp.mem_support_iff, Finset.mem_map]
    constructor
    · intro h
      rw [expoV_apply] at h
      split at h
      · rename_i hj
        refine ⟨(j - 1).toNat, ?_, ?_⟩
        · rw [Finset.mem_filter, Finset.mem_range]
          push_cast at hj
          exact ⟨by omega, by exact_mod_cast h⟩
        · rw [succEmb_apply]; push_cast at hj; omega
      · exact absurd rfl h
    · rintro ⟨i, hi, rfl⟩
      rw [Finset.mem_filter] at hi
      rw [succEmb_apply]
      rw [expoV_nat]
      exact_mod_cast hi.2
  rw [h1, Finset.map_val, Multiset.map_map, Finset.filter_val, Finset.range_val]
  have h2 : ∀ i : Nat, ((expoV 1 v) ∘ succEmb) i =
      ((v.getD i 0 : Nat) : ℤ) := fun i => expoV_nat v i
  rw [Multiset.map_congr rfl (fun i _ => h2 i)]
  have h3 : ((nz v : List Nat) : Multiset Nat) =
      ((Multiset.range v.length).filter (fun i => v.getD i 0 ≠ 0)).map (fun i => v.getD i 0) := by
    have : v = (List.range v.length).map (fun i => v.getD i 0) := by
      refine List.ext_getElem (by simp) (fun i h1 h2 => ?_)
      simp [List.getD_eq_getElem _ _ h1]
    conv_lhs => rw [this]
    rw [nz, List.filter_map, ← Multiset.map_coe]
    rfl
  rw [h3, Multiset.map_map]
  rfl

theorem hasExponents_iff (n : Nat) {mu : List Nat} (hm : IsPartition mu) (e : ℤ →₀ ℤ) :
    HasExponents n mu e ↔ ∃ v ∈ destandardize n mu, expoV 1 v = e := by
  constructor
  · rintro ⟨h1, h2⟩
    have hpos : ∀ j, 0 ≤ e j := by
      intro j
      by_cases hj : e j = 0
      · rw [hj]
      · have : e j ∈ e.support.val.map e := Multiset.mem_map.2 ⟨j, Finsupp.mem_support_iff.2 hj, rfl⟩
        rw [h2, Multiset.mem_map] at this
        obtain ⟨a, _, ha⟩ := this
        omega
    have he : expoV 1 ((List.range n).map (fun i : Nat => (e ((i : ℤ) + 1)).toNat)) = e := by
      ext j
      rw [expoV_apply]
      split
      · rename_i hj
        simp only [List.length_map, List.length_range] at hj
        push_cast at hj
        rw [List.getD_eq_getElem _ _ (by simp; omega)]
        simp only [List.getElem_map, List.getElem_range]
        have : (((j - ((1 : Nat) : ℤ)).toNat : Nat) : ℤ) + 1 = j := by push_cast; omega
        rw [this]
        have := hpos j
        omega
      · rename_i hj
        by_contra hc
        have := h1 j (fun h => hc h.symm)
        apply hj
        simp only [List.length_map, List.length_range]
        push_cast
        omega
    refine ⟨_, ?_, he⟩
    rw [mem_destandardize n hm]
    refine ⟨by simp, ?_⟩
    rw [← he, support_expoV] at h2
    exact Multiset.coe_eq_coe.1 (Multiset.map_injective (fun a b h => by exact_mod_cast h) h2)
  · rintro ⟨v, hv, rfl⟩
    rw [mem_destandardize n hm] at hv
    refine ⟨fun j hj => ?_, ?_⟩
    · rw [expoV_apply] at hj
      split at hj
      · rename_i h; rw [hv.1] at h; push_cast at h; omega
      · exact absurd rfl hj
    · rw [support_expoV, Multiset.coe_eq_coe.2 hv.2]

open Classical in
theorem coeff_monoPoly (n : Nat) {mu : List Nat} (hm : IsPartition mu) (e : ℤ →₀ ℤ) :
    (monoPoly Poly.x n mu).den.coeff e = if HasExponents n mu e then 1 else 0 := by
  rw [den_monoPoly Poly.x n hm, msum_eq _ _ hm, AddMonoidAlgebra.coeff_sum, Finsupp.finsetSum_apply]
  have h1 : ∀ v ∈ (destandardize n mu).toFinset,
      (xm (fun i : Nat => (Poly.x (i : Int)).den) 1 v).coeff e = if expoV 1 v = e then 1 else 0 := by
    intro v _
    have : xm (fun i : Nat => (Poly.x (i : Int)).den) 1 v = single (expoV 1 v) 1 := xm_x 1 v
    rw [this, AddMonoidAlgebra.coeff_single, Finsupp.single_apply]
  rw [Finset.sum_congr rfl h1, hasExponents_iff n hm]
  split
  · rename_i h
    obtain ⟨v, hv, rfl⟩ := h
    rw [Finset.sum_eq_single v]
    · simp
    · intro w hw hne
      rw [if_neg]
      intro h
      apply hne
      rw [List.mem_toFinset, mem_destandardize n hm] at hw
      rw [mem_destandardize n hm] at hv
      exact expoV_inj (by omega) (fun i _ => by rw [h])
    · intro h; exact absurd (List.mem_toFinset.2 hv) h
  · rename_i h
    refine Finset.sum_eq_zero (fun v hv => ?_)
    rw [if_neg (fun hc => h ⟨v, List.mem_toFinset.1 hv, hc⟩)]

theorem hasExponents_degree {n : Nat} {mu : List Nat} {e : ℤ →₀ ℤ} (h : HasExponents n mu e) :
    xDegree n e = mu.sum := by
  have h1 : xDegree n e = ∑ j ∈ e.support, e j := by
    rw [xDegree]
    have : ∑ i ∈ Finset.range n, e ((i : ℤ) + 1) =
        ∑ j ∈ (Finset.range n).map succEmb, e j := by
      rw [Finset.sum_map]; rfl
    rw [this]
    symm
    refine Finset.sum_subset (fun j hj => ?_) (fun j _ hj => Finsupp.notMem_support_iff.1 hj)
    have := h.1 j (Finsupp.mem_support_iff.1 hj)
    rw [Finset.mem_map]
    exact ⟨(j - 1).toNat, by rw [Finset.mem_range]; omega, by rw [succEmb_apply]; omega⟩
  rw [h1]
  show (e.support.val.map e).sum = _
  rw [h.2]
  rw [Multiset.map_coe, Multiset.sum_coe]
  clear h h1
  induction mu with
  | nil => rfl
  | cons a mu ih => rw [List.map_cons, List.sum_cons, ih, List.sum_cons, Nat.cast_add]

/-- Only exponents of degree `|mu|` occur in `m_mu`. -/
theorem coeff_msum_degree (n : Nat) {mu : List Nat} (hm : IsPartition mu) {z : Laurent} (hz : FreeOf n z)
    {e : ℤ →₀ ℤ} (h : (msum (xden Poly.x) n mu * z).coeff e ≠ 0) : xDegree n e = mu.sum := by
  rw [msum_eq _ _ hm, Finset.sum_mul, AddMonoidAlgebra.coeff_sum, Finsupp.finsetSum_apply] at h
  obtain ⟨v, hv, hne⟩ := Finset.exists_ne_zero_of_sum_ne_zero h
  rw [xm_x, AddMonoidAlgebra.coeff_single_mul_apply, one_mul] at hne
  have h1 := hasExponents_degree ((hasExponents_iff n hm (expoV 1 v)).2 ⟨v, List.mem_toFinset.1 hv, rfl⟩)
  rw [← h1]
  refine Finset.sum_congr rfl (fun i hi => ?_)
  have := hz _ hne i (Finset.mem_range.1 hi)
  rw [Finsupp.add_apply, Finsupp.neg_apply] at this
  omega

/-! ### content of a tableau -/

theorem sum_count (n : Nat) (l : List Int) (h : ∀ x ∈ l, 1 ≤ x ∧ x ≤ (n : Int)) :
    ((List.range n).map (fun i : Nat => l.count ((i : Int) + 1))).sum = l.length := by
  induction l with
  | nil => simp
  | cons a l ih =>
    have h1 := h a (by simp)
    have h2 : ∀ i : Nat, (a :: l).count ((i : Int) + 1) = l.count ((i : Int) + 1) + if (a - 1).toNat = i then 1 else 0 := by
      intro i
      rw [List.count_cons]
      congr 1
      by_cases hi : a = (i : Int) + 1
      · rw [if_pos (by simpa using hi), if_pos (by omega)]
      · rw [if_neg (by simpa using hi), if_neg (by omega)]
    have h3 : ∀ m : Nat, ((List.range m).map (fun i : Nat => if (a - 1).toNat = i then 1 else 0)).sum =
        if (a - 1).toNat < m then 1 else 0 := by
      intro m
      induction m with
      | zero => simp
      | succ m ihm =>
        rw [List.range_succ, List.map_append, List.sum_append, ihm]
        simp only [List.map_cons, List.map_nil, List.sum_cons, List.sum_nil]
        split <;> split <;> split <;> omega
    rw [List.map_congr_left (fun i _ => h2 i), List.sum_map_add, ih (fun x hx => h x (by simp [hx])), h3,
      if_pos (by omega), List.length_cons]

theorem sum_wt {sv : Bool} {n : Nat} {mu lam : List Nat} {T : Tab} (h : SV sv n mu lam T) :
    (wt n T).sum = T.entries.length := by
  refine sum_count n T.entries (fun x hx => ?_)
  obtain ⟨b, hb⟩ := Tab.mem_entries.1 hx
  exact h.range b x hb

theorem sum_eq_range (u : List Nat) {m : Nat} (h : u.length ≤ m) : u.sum = ∑ i ∈ Finset.range m, u.getD i 0 := by
  induction u generalizing m with
  | nil => simp
  | cons a u ih =>
    obtain ⟨m, rfl⟩ : ∃ k, m = k + 1 := ⟨m - 1, by simp at h; omega⟩
    rw [Finset.sum_range_succ', List.sum_cons, ih (by simpa using h)]
    simp [List.getD_cons_zero, List.getD_cons_succ, add_comm]

/-- `(i, j) ↦ (i + 1, j)` as an embedding. -/
def rowEmb : ((_ : Nat) × Nat) ↪ Nat × Nat := ⟨fun p => (p.1 + 1, p.2), fun a b h => by
  obtain ⟨a1, a2⟩ := a
  obtain ⟨b1, b2⟩ := b
  have h1 : (a1 + 1, a2) = (b1 + 1, b2) := h
  simp only [Prod.mk.injEq, Nat.add_right_cancel_iff] at h1
  obtain ⟨rfl, rfl⟩ := h1
  rfl⟩

theorem rowEmb_apply (p : (_ : Nat) × Nat) : rowEmb p = (p.1 + 1, p.2) := rfl

/-- The number of boxes of a tableau of shape `mu/lam`. -/
theorem boxes_length {sv : Bool} {n : Nat} {mu lam : List Nat} {T : Tab} (h : SV sv n mu lam T)
    (hc : ∀ i, lam.getD i 0 ≤ mu.getD i 0) : (T.items.length : Int) = (mu.sum : Int) - lam.sum := by
  classical
  set m := max mu.length lam.length with hmdef
  have h1 : (T.items.map Prod.fst).toFinset =
      ((Finset.range m).sigma (fun i => Finset.Ioc (lam.getD i 0) (mu.getD i 0))).map rowEmb := by
    ext ⟨i, j⟩
    have hmem : (i, j) ∈ (T.items.map Prod.fst).toFinset ↔ T.ent (i, j) ≠ [] := by
      rw [List.mem_toFinset, List.mem_map]
      constructor
      · rintro ⟨p, hp, hpe⟩ h0
        have h2 : T.get? (i, j) = some p.2 := Tab.get?_eq_some.2 (by rw [← hpe]; exact hp)
        rw [Tab.ent, h2, Option.getD_some] at h0
        rw [h0] at h2
        exact h.ne _ h2
      · intro h0
        cases hg : T.get? (i, j) with
        | none => rw [Tab.ent, hg] at h0; exact absurd rfl h0
        | some s => exact ⟨((i, j), s), Tab.get?_eq_some.1 hg, rfl⟩
    rw [hmem, h.dom, mem_diagram, mem_diagram, Finset.mem_map]
    simp only [Finset.mem_sigma, Finset.mem_range, Finset.mem_Ioc, rowEmb_apply, Prod.mk.injEq]
    constructor
    · rintro ⟨⟨h2, h3, h4⟩, h5⟩
      refine ⟨⟨i - 1, j⟩, ⟨?_, ?_, h4⟩, by simp only; omega, rfl⟩
      · by_contra hlt
        simp only at hlt
        rw [List.getD_eq_default mu 0 (by omega)] at h4
        omega
      · by_contra hlt
        exact h5 ⟨h2, h3, by simp only at hlt; omega⟩
    · rintro ⟨⟨a, b⟩, ⟨h2, h3, h4⟩, rfl, rfl⟩
      simp only [Nat.add_sub_cancel] at *
      exact ⟨⟨by omega, by omega, h4⟩, fun h5 => by omega⟩
  have h2 : T.items.length = (T.items.map Prod.fst).toFinset.card := by
    rw [List.toFinset_card_of_nodup T.keys_nodup, List.length_map]
  rw [h2, h1, Finset.card_map, Finset.card_sigma, sum_eq_range mu (m := m) (by omega),
    sum_eq_range lam (m := m) (by omega)]
  push_cast
  rw [← Finset.sum_sub_distrib]
  refine Finset.sum_congr rfl (fun i _ => ?_)
  rw [Nat.card_Ioc]
  have := hc i
  omega

theorem den_foldl_set (l : List (List Nat × PolyVal)) (hnd : (l.map Prod.fst).Nodup) (d : Dict (List Nat) PolyVal)
    (hd : ∀ k ∈ l.map Prod.fst, k ∉ d.keys) (k : List Nat) :
    (l.foldl (fun d gc => d.set gc.1 gc.2) d).getD k 0 = d.getD k 0 + FreeMod.ofTerms l k := by
  induction l generalizing d with
  | nil => simp [FreeMod.ofTerms]
  | cons a l ih =>
    rw [List.map_cons, List.nodup_cons] at hnd
    rw [List.foldl_cons, ih hnd.2 _ (by
      intro k' hk' h
      rcases keys_set h with rfl | h
      · exact hnd.1 hk'
      · exact hd k' (by simp only [List.map_cons, List.mem_cons]; exact Or.inr hk') h), Dict.getD_set]
    have : FreeMod.ofTerms (a :: l) = Finsupp.single a.1 a.2 + FreeMod.ofTerms l := by simp [FreeMod.ofTerms]
    rw [this, Finsupp.add_apply, Finsupp.single_apply, ← add_assoc]
    congr 1
    by_cases h : a.1 = k
    · subst h
      rw [if_pos rfl, if_pos rfl, Dict.getD_of_notMem (hd a.1 (by simp)), zero_add]
    · rw [if_neg h, if_neg h, add_zero]

theorem monoMul_eq (n : Nat) (a b : List Nat) :
    monoMul n a b = mkSym n ((multiplier n a b).foldl (fun d gc => d.set gc.1 gc.2) Dict.empty) := by
  rw [monoMul, multiplier, List.foldl_map]

theorem multiplier_keys {n : Nat} {a b : List Nat} (ha : IsPartition a) (hb : IsPartition b) :
    (multiplier n a b).map Prod.fst = (multiply n a b).keys := by
  rw [multiplier, List.map_map, Dict.keys]
  refine List.map_congr_left (fun gc hgc => ?_)
  exact sortTrim_self (multiplyAt_keys ha hb _ (Dict.mem_keys_of_items hgc)).1

theorem isSym_monoMul {n : Nat} {a b : List Nat} (ha : IsPartition a) (hb : IsPartition b) :
    IsSym n (monoMul n a b) := by
  rw [monoMul_eq]
  refine isSym_mkSym ?_
  have : ∀ (l : List (List Nat × PolyVal)) (d : Dict (List Nat) PolyVal), ∀ k ∈ (l.foldl (fun d gc => d.set gc.1 gc.2) d).keys,
      k ∈ d.keys ∨ k ∈ l.map Prod.fst := by
    intro l
    induction l with
    | nil => intro d k hk; exact Or.inl hk
    | cons c l ih =>
      intro d k hk
      rcases ih _ k hk with h | h
      · rcases keys_set h with rfl | h
        · right; simp
        · exact Or.inl h
      · right; rw [List.map_cons]; exact List.mem_cons_of_mem _ h
  intro k hk
  rcases this _ _ k hk with h | h
  · simp [Dict.keys, Dict.empty] at h
  · rw [multiplier_keys ha hb] at h
    have := multiplyAt_keys ha hb _ h
    exact ⟨this.1, this.2.trans (by omega)⟩

theorem den_monoMul {n : Nat} {a b : List Nat} (ha : IsPartition a) (hb : IsPartition b) :
    (monoMul n a b).den = FreeMod.ofTerms (multiplier n a b) := by
  ext k
  rw [Vec.den_apply, monoMul_eq, mkSym, Vec.get_mk', den_foldl_set]
  · rw [Dict.getD_empty, zero_add]
  · rw [multiplier_keys ha hb]; exact (multiply n a b).nodup
  · simp [Dict.keys, Dict.empty]

theorem polynomial_monoMul (v : Int → Poly) {n : Nat} {a b : List Nat} (ha : IsPartition a) (hb : IsPartition b) :
    polynomial v n (monoMul n a b) = PolyVal.mk (monoPoly v n a) * PolyVal.mk (monoPoly v n b) := by
  apply PolyVal.den_injective
  rw [PolyVal.den_mul, PolyVal.den_mk, PolyVal.den_mk, den_monoPoly v n ha, den_monoPoly v n hb,
    den_polynomial v n (fun k hk => ((isSym_monoMul ha hb).keys k hk).1), den_monoMul ha hb, multiplier_spec v n ha hb]
  rfl

/-! ### the two generating functions -/

/-- What is shared by `schur` and `stable_grothendieck`. -/
theorem vectorize_tableaux (v : Int → Poly) (sv : Bool) (n : Nat) {mu nu : List Nat} (hm : IsPartition mu)
    (hn : IsPartition nu) (signs : Option PolyVal) (bound : Option Int) :
    ∃ f, vectorize n (countSemistandard sv nu n mu) signs bound = some f ∧ IsSym n f ∧ Vec.NoZero f ∧
      (∀ k, f.get k = if within bound k.sum then
        ((countSemistandard sv nu n mu).getD k 0 : PolyVal) * signFactor signs k.sum else 0) ∧
      (polynomial v n f).den = ∑ T ∈ (semistandard sv nu n mu).filter (fun T => within bound T.entries.length),
        (signFactor signs T.entries.length).den * xm (xden v) 1 (wt n T) := by
  obtain ⟨f, h1, h2, h3, h4⟩ := vectorize_spec (n := n) (d := countSemistandard sv nu n mu) signs bound
    (count_keys sv nu n mu) (fun q hq => (count_spec hn n hm q).2 (fun h => hq h.1))
  refine ⟨f, h1, h2, h3, h4, ?_⟩
  rw [den_polynomial v n (fun k hk => (h2.keys k hk).1)]
  rw [phi_tableaux v sv n hm hn f.den (fun k => if within bound k then signFactor signs k else 0)]
  · rw [Finset.sum_filter]
    refine Finset.sum_congr rfl (fun T hT => ?_)
    have hSV := ((mem_semistandard hn n hm T).1 hT).2
    rw [sum_wt hSV]
    split
    · rfl
    · simp
  · intro k hk
    rw [Vec.den_apply, h4, (count_spec hn n hm k).1 hk]
    split
    · rfl
    · simp
  · intro k hk
    rw [Vec.den_apply, h4, (count_spec hn n hm k).2 hk]
    simp

theorem pow_beta (k : Int) : ∃ r, Poly.pow Poly.beta k = some r ∧ r.den = Laurent.xpow 0 k := by
  rw [Poly.pow]
  by_cases h0 : k = 0
  · subst h0
    refine ⟨_, if_pos rfl, ?_⟩
    simp [Laurent.xpow, AddMonoidAlgebra.one_def]
  · rw [if_neg h0]
    by_cases hneg : k < 0
    · rw [if_pos hneg]
      have hi : Poly.beta.items = [(Mono.var 0 1, 1)] := by decide
      rw [hi]
      refine ⟨_, if_neg (by decide), ?_⟩
      rw [Poly.den_single, Mono.expo_scale, Mono.expo_var, Laurent.xpow]
      simp
    · rw [if_neg hneg]
      refine ⟨_, rfl, ?_⟩
      rw [Poly.den_powNat, Poly.beta, Poly.x, Poly.den_monomial, Laurent.xpow, Laurent.xpow, AddMonoidAlgebra.single_pow]
      congr 1
      · rw [Finsupp.smul_single, nsmul_eq_mul, mul_one]; congr 1; omega
      · simp

theorem beta_ne_zero : PolyVal.mk Poly.beta ≠ 0 := by
  intro h
  have h1 : Poly.eq Poly.beta Poly.zero = true := (Poly.eq_iff _ _).2 (PolyVal.mk_eq.1 h)
  revert h1
  decide

theorem signFactor_beta (k : Nat) : (signFactor (some (PolyVal.mk Poly.beta)) k).den = Laurent.xpow 0 k := by
  rw [signFactor, if_neg beta_ne_zero, PolyVal.den_pow, PolyVal.den_mk, Poly.beta, Poly.x, Poly.den_monomial,
    Laurent.xpow, Laurent.xpow, AddMonoidAlgebra.single_pow]
  congr 1
  · simp
  · simp

theorem stableGrothendieck_spec (v : Int → Poly) (n : Nat) {mu nu : List Nat} (hm : IsPartition mu)
    (hn : IsPartition nu) (bound : Option Int) :
    ∃ f, stableGrothendieck n mu nu bound = some f ∧ IsSym n f ∧ Vec.NoZero f ∧
      (∃ b : PolyVal, b.den = Laurent.xpow 0 ((nu.sum : Int) - mu.sum) ∧ ∀ k, f.get k = if within bound k.sum then
        (((countSemistandard true nu n mu).getD k 0 : PolyVal) * signFactor (some (PolyVal.mk Poly.beta)) k.sum) * b else 0) ∧
      (polynomial v n f).den = ∑ T ∈ (semistandard true nu n mu).filter (fun T => within bound T.entries.length),
        Laurent.xpow 0 ((T.entries.length : Int) - T.items.length) * xm (xden v) 1 (wt n T) := by
  obtain ⟨f, h1, h2, h3, h4, h5⟩ := vectorize_tableaux v true n hm hn (some (PolyVal.mk Poly.beta)) bound
  obtain ⟨b, hb1, hb2⟩ := pow_beta ((nu.sum : Int) - mu.sum)
  refine ⟨Vec.smul f (PolyVal.mk b), by rw [stableGrothendieck, h1, hb1], isSym_smul h2 _, Vec.noZero_mk' _ _,
    ⟨PolyVal.mk b, hb2, fun k => ?_⟩, ?_⟩
  · rw [Vec.get_smul, h4]
    split
    · rfl
    · simp
  · rw [polynomial_smul v h2, PolyVal.den_mul, h5, Finset.sum_mul]
    refine Finset.sum_congr rfl (fun T hT => ?_)
    have hT' := (mem_semistandard hn n hm T).1 (Finset.mem_filter.1 hT).1
    rw [PolyVal.den_mk, hb2, signFactor_beta, boxes_length hT'.2 hT'.1, mul_right_comm]
    congr 1
    rw [Laurent.xpow, Laurent.xpow, Laurent.xpow, AddMonoidAlgebra.single_mul_single, ← Finsupp.single_add]
    congr 2
    omega

end Verif.Symm
