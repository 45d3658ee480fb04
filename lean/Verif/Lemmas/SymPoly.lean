import Verif.Lemmas.SymMul
import Verif.Spec.Symmetric

/-! `SymmetricPolynomial.polynomial()` is linear, multiplicative and injective. -/

namespace Verif.Symm

open Verif.Part Partition
open AddMonoidAlgebra (single)

attribute [-simp] List.getD_eq_getElem?_getD

/-- What a python `SymmetricPolynomial` in `n` variables satisfies: its multiplier is `m`, and its keys are sorted,
trimmed tuples with at most `n` parts. -/
structure IsSym (n : Nat) (f : SymPoly) : Prop where
  mult : f.multiplier = some (multiplier n)
  keys : ∀ mu ∈ f.dict.keys, IsPartition mu ∧ mu.length ≤ n

/-- The linear extension of `mu ↦ m_mu`. -/
noncomputable def phi (x : Nat → Laurent) (n : Nat) (u : List Nat →₀ PolyVal) : Laurent :=
  u.sum (fun mu c => msum x n mu * c.den)

theorem phi_add (x : Nat → Laurent) (n : Nat) (u v : List Nat →₀ PolyVal) : phi x n (u + v) = phi x n u + phi x n v := by
  unfold phi
  exact Finsupp.sum_add_index' (fun _ => by simp) (fun _ _ _ => by rw [PolyVal.den_add, mul_add])

@[simp] theorem phi_zero (x : Nat → Laurent) (n : Nat) : phi x n 0 = 0 := by simp [phi]

theorem phi_single (x : Nat → Laurent) (n : Nat) (mu : List Nat) (c : PolyVal) :
    phi x n (Finsupp.single mu c) = msum x n mu * c.den := by
  rw [phi, Finsupp.sum_single_index]; simp

theorem phi_smul (x : Nat → Laurent) (n : Nat) (c : PolyVal) (u : List Nat →₀ PolyVal) :
    phi x n (c • u) = c.den * phi x n u := by
  induction u using Finsupp.induction_linear with
  | zero => simp
  | add u v hu hv => rw [smul_add, phi_add, phi_add, hu, hv, mul_add]
  | single a b => rw [Finsupp.smul_single, phi_single, phi_single, smul_eq_mul, PolyVal.den_mul]; ring

theorem phi_ofTerms (x : Nat → Laurent) (n : Nat) (l : List (List Nat × PolyVal)) :
    phi x n (FreeMod.ofTerms l) = (l.map (fun t => msum x n t.1 * t.2.den)).sum := by
  induction l with
  | nil => simp [FreeMod.ofTerms]
  | cons a l ih =>
    have : FreeMod.ofTerms (a :: l) = Finsupp.single a.1 a.2 + FreeMod.ofTerms l := by simp [FreeMod.ofTerms]
    rw [this, phi_add, phi_single, ih, List.map_cons, List.sum_cons]

/-- The variables used by `polynomial(variable)`. -/
noncomputable def xden (v : Int → Poly) (i : Nat) : Laurent := (v (i : Int)).den

theorem den_polynomial (v : Int → Poly) (n : Nat) {f : SymPoly} (hk : ∀ mu ∈ f.dict.keys, IsPartition mu) :
    (polynomial v n f).den = phi (xden v) n f.den := by
  rw [Vec.den, phi_ofTerms, polynomial]
  have : ∀ (l : List (List Nat × PolyVal)), (∀ t ∈ l, IsPartition t.1) → ∀ a : PolyVal,
      (l.foldl (fun ans mc => ans + PolyVal.mk (monoPoly v n mc.1) * mc.2) a).den =
        a.den + (l.map (fun t => msum (xden v) n t.1 * t.2.den)).sum := by
    intro l
    induction l with
    | nil => simp
    | cons t l ih =>
      intro h a
      rw [List.foldl_cons, ih (fun t ht => h t (by simp [ht])), PolyVal.den_add, PolyVal.den_mul, PolyVal.den_mk,
        den_monoPoly v n (h t (by simp)), List.map_cons, List.sum_cons, add_assoc]
      rfl
  rw [this _ (fun t ht => hk _ (Dict.mem_keys_of_items ht))]
  simp

theorem multiplier_spec (v : Int → Poly) (n : Nat) {a b : List Nat} (ha : IsPartition a) (hb : IsPartition b) :
    phi (xden v) n (FreeMod.ofTerms (multiplier n a b)) = msum (xden v) n a * msum (xden v) n b := by
  rw [phi_ofTerms, msum_mul _ _ ha hb, multiplier, List.map_map]
  refine congrArg List.sum (List.map_congr_left (fun gc hgc => ?_))
  have := (multiplyAt_keys ha hb _ (Dict.mem_keys_of_items hgc)).1
  simp only [Function.comp_apply]
  rw [sortTrim_self this, PolyVal.den_intCast, mul_comm]

theorem phi_bil (v : Int → Poly) (n : Nat) (u w : List Nat →₀ PolyVal) (hu : ∀ a, u a ≠ 0 → IsPartition a)
    (hw : ∀ a, w a ≠ 0 → IsPartition a) :
    phi (xden v) n (FreeMod.bil (fun a b => FreeMod.ofTerms (multiplier n a b)) u w) =
      phi (xden v) n u * phi (xden v) n w := by
  have hsum : ∀ {ι : Type} (s : Finset ι) (F : ι → (List Nat →₀ PolyVal)),
      phi (xden v) n (∑ i ∈ s, F i) = ∑ i ∈ s, phi (xden v) n (F i) := by
    intro ι s F
    classical
    induction s using Finset.induction_on with
    | empty => simp
    | insert a s ha ih => rw [Finset.sum_insert ha, phi_add, ih, Finset.sum_insert ha]
  rw [FreeMod.bil, Finsupp.sum, hsum]
  rw [phi, phi, Finsupp.sum, Finset.sum_mul]
  refine Finset.sum_congr rfl (fun a ha => ?_)
  rw [Finsupp.sum, hsum, Finsupp.sum, Finset.mul_sum]
  refine Finset.sum_congr rfl (fun b hb => ?_)
  rw [phi_smul, multiplier_spec v n (hu a (Finsupp.mem_support_iff.1 ha)) (hw b (Finsupp.mem_support_iff.1 hb)),
    PolyVal.den_mul]
  ring

theorem den_support {n : Nat} {f : SymPoly} (hf : IsSym n f) : ∀ a, f.den a ≠ 0 → IsPartition a ∧ a.length ≤ n := by
  intro a ha
  rw [Vec.den_apply] at ha
  by_contra hc
  exact ha (Vec.get_of_notMem (fun h => hc (hf.keys a h)))

/-! closure of `IsSym` -/

theorem keys_mk' {d : Dict (List Nat) PolyVal} {m} {k : List Nat} (h : k ∈ (Vec.mk' d m).dict.keys) : k ∈ d.keys := by
  simp only [Vec.mk', Dict.keys, Dict.filter, List.mem_map, List.mem_filter] at h ⊢
  obtain ⟨p, ⟨hp, _⟩, rfl⟩ := h
  exact ⟨p, hp, rfl⟩

theorem keys_set {K V : Type*} [DecidableEq K] {d : Dict K V} {k k' : K} {v : V} (h : k' ∈ (d.set k v).keys) :
    k' = k ∨ k' ∈ d.keys := by
  rw [Dict.mem_keys] at h ⊢
  simp only [Dict.get?_set] at h
  obtain ⟨w, hw⟩ := h
  split at hw
  · rename_i h; exact Or.inl h.symm
  · exact Or.inr ⟨w, hw⟩

theorem isSym_mkSym {n : Nat} {d : Dict (List Nat) PolyVal} (h : ∀ k ∈ d.keys, IsPartition k ∧ k.length ≤ n) :
    IsSym n (mkSym n d) := ⟨rfl, fun k hk => h k (keys_mk' hk)⟩

theorem keys_fromKeys {l : List (List Nat)} {f : List Nat → PolyVal} {k : List Nat}
    (h : k ∈ (Vec.fromKeys l f).keys) : k ∈ l := by
  have : ∀ (l : List (List Nat)) (d : Dict (List Nat) PolyVal),
      k ∈ (l.foldl (fun d k => d.set k (f k)) d).keys → k ∈ d.keys ∨ k ∈ l := by
    intro l
    induction l with
    | nil => intro d h; exact Or.inl h
    | cons a l ih =>
      intro d h
      rw [List.foldl_cons] at h
      rcases ih _ h with h | h
      · rcases keys_set h with rfl | h
        · right; simp
        · exact Or.inl h
      · right; simp [h]
  rcases this l Dict.empty h with h | h
  · simp [Dict.keys, Dict.empty] at h
  · exact h

theorem isSym_smul {n : Nat} {f : SymPoly} (hf : IsSym n f) (c : PolyVal) : IsSym n (Vec.smul f c) :=
  ⟨hf.mult, fun k hk => hf.keys k (keys_fromKeys (keys_mk' hk))⟩

theorem isSym_add {n : Nat} {f g : SymPoly} (hf : IsSym n f) (hg : IsSym n g) : IsSym n (Vec.add f g) := by
  rw [Vec.add]
  split
  · exact hf
  · refine ⟨by show (f.multiplier <|> g.multiplier) = _; rw [hf.mult]; rfl, fun k hk => ?_⟩
    have := keys_fromKeys (keys_mk' hk)
    rw [Vec.unionKeys, List.mem_dedup, List.mem_append] at this
    exact this.elim (hf.keys k) (hg.keys k)

theorem isSym_mul {n : Nat} {f g : SymPoly} (hf : IsSym n f) (hg : IsSym n g) : IsSym n (mul f g) := by
  rw [mul, Vec.mul]
  refine ⟨by show (f.multiplier <|> g.multiplier) = _; rw [hf.mult]; rfl, fun k hk => ?_⟩
  have h := keys_mk' hk
  revert k
  have hinv : ∀ {α : Type} (l : List α) (step : Dict (List Nat) PolyVal → α → Dict (List Nat) PolyVal),
      (∀ w ∈ l, ∀ ans : Dict (List Nat) PolyVal, (∀ g ∈ ans.keys, IsPartition g ∧ g.length ≤ n) →
        ∀ g ∈ (step ans w).keys, IsPartition g ∧ g.length ≤ n) →
      ∀ ans : Dict (List Nat) PolyVal, (∀ g ∈ ans.keys, IsPartition g ∧ g.length ≤ n) →
        ∀ g ∈ (l.foldl step ans).keys, IsPartition g ∧ g.length ≤ n := by
    intro α l step
    induction l with
    | nil => intro _ ans h; exact h
    | cons a l ih =>
      intro hs ans h
      rw [List.foldl_cons]
      exact ih (fun w hw => hs w (by simp [hw])) _ (hs a (by simp) ans h)
  intro k hk h
  clear hk
  revert k
  refine hinv _ _ (fun ax hax ans h => hinv _ _ (fun bx hbx ans h => hinv _ _ (fun t ht ans h => ?_) ans h) ans h) Dict.empty
    (by simp [Dict.keys, Dict.empty])
  intro k hk
  rw [Vec.accum] at hk
  rcases keys_set hk with rfl | hk
  · simp only [hf.mult, Vec.terms, multiplier] at ht
    obtain ⟨gc, hgc, rfl⟩ := List.mem_map.1 ht
    have h1 := multiplyAt_keys (hf.keys _ (Dict.mem_keys_of_items hax)).1
      (hg.keys _ (Dict.mem_keys_of_items hbx)).1 _ (Dict.mem_keys_of_items hgc)
    rw [sortTrim_self h1.1]
    exact ⟨h1.1, h1.2.trans (by omega)⟩
  · exact h k hk

theorem isSym_ofMono {n : Nat} {mu : List Nat} (h : IsPartition mu) (hl : mu.length ≤ n) (c : PolyVal) :
    IsSym n (ofMono n mu c) := by
  refine isSym_mkSym (fun k hk => ?_)
  rcases keys_set hk with rfl | hk
  · exact ⟨h, hl⟩
  · simp [Dict.keys, Dict.empty] at hk

/-! operations -/

theorem polynomial_add (v : Int → Poly) {n : Nat} {f g : SymPoly} (hf : IsSym n f) (hg : IsSym n g) :
    polynomial v n (Vec.add f g) = polynomial v n f + polynomial v n g := by
  apply PolyVal.den_injective
  rw [PolyVal.den_add, den_polynomial v n (fun k hk => (hf.keys k hk).1),
    den_polynomial v n (fun k hk => (hg.keys k hk).1),
    den_polynomial v n (fun k hk => ((isSym_add hf hg).keys k hk).1), ← phi_add]
  congr 1
  ext k
  rw [Finsupp.add_apply, Vec.den_apply, Vec.den_apply, Vec.den_apply, Vec.get_add]

theorem polynomial_smul (v : Int → Poly) {n : Nat} {f : SymPoly} (hf : IsSym n f) (c : PolyVal) :
    polynomial v n (Vec.smul f c) = polynomial v n f * c := by
  apply PolyVal.den_injective
  rw [PolyVal.den_mul, den_polynomial v n (fun k hk => (hf.keys k hk).1),
    den_polynomial v n (fun k hk => ((isSym_smul hf c).keys k hk).1), mul_comm, ← phi_smul]
  congr 1
  ext k
  rw [Finsupp.smul_apply, Vec.den_apply, Vec.den_apply, Vec.get_smul, smul_eq_mul, mul_comm]

theorem polynomial_mul (v : Int → Poly) {n : Nat} {f g : SymPoly} (hf : IsSym n f) (hg : IsSym n g) :
    polynomial v n (mul f g) = polynomial v n f * polynomial v n g := by
  apply PolyVal.den_injective
  rw [PolyVal.den_mul, den_polynomial v n (fun k hk => (hf.keys k hk).1),
    den_polynomial v n (fun k hk => (hg.keys k hk).1),
    den_polynomial v n (fun k hk => ((isSym_mul hf hg).keys k hk).1), mul, Vec.den_mul, hf.mult]
  exact phi_bil v n _ _ (fun a ha => (den_support hf a ha).1) (fun a ha => (den_support hg a ha).1)

theorem den_ofMono (n : Nat) (mu : List Nat) (c : PolyVal) : (ofMono n mu c).den = Finsupp.single mu c := by
  ext k
  rw [Vec.den_apply, ofMono, mkSym, Vec.get_mk', Dict.getD_set, Finsupp.single_apply, Dict.getD_empty]

theorem polynomial_ofMono (v : Int → Poly) {n : Nat} {mu : List Nat} (h : IsPartition mu) (hl : mu.length ≤ n)
    (c : PolyVal) : polynomial v n (ofMono n mu c) = PolyVal.mk (monoPoly v n mu) * c := by
  apply PolyVal.den_injective
  rw [den_polynomial v n (fun k hk => ((isSym_ofMono h hl c).keys k hk).1), den_ofMono, phi_single, PolyVal.den_mul,
    PolyVal.den_mk, den_monoPoly v n h]
  rfl

/-! ### exponent vectors -/

/-- The exponent vector with `v_0` at `s`, `v_1` at `s + 1` and so on. -/
noncomputable def expoV : Nat → List Nat → (ℤ →₀ ℤ)
  | _, [] => 0
  | s, a :: v => Finsupp.single (s : ℤ) (a : ℤ) + expoV (s + 1) v

theorem expoV_apply (v : List Nat) : ∀ (s : Nat) (j : ℤ),
    expoV s v j = if (s : ℤ) ≤ j ∧ j < s + v.length then ((v.getD (j - s).toNat 0 : Nat) : ℤ) else 0 := by
  induction v with
  | nil => intro s j; simp [expoV]
  | cons a v ih =>
    intro s j
    rw [expoV, Finsupp.add_apply, ih, Finsupp.single_apply]
    push_cast
    by_cases h1 : (s : ℤ) = j
    · subst h1
      rw [if_pos rfl, if_neg (by omega), if_pos (by simp)]
      simp [List.getD_cons_zero]
    · rw [if_neg h1, zero_add]
      by_cases h2 : (s : ℤ) + 1 ≤ j ∧ j < s + 1 + v.length
      · rw [if_pos h2, if_pos (by simp only [List.length_cons]; push_cast; omega)]
        have : (j - s).toNat = (j - (s + 1)).toNat + 1 := by omega
        rw [this, List.getD_cons_succ]
      · rw [if_neg h2, if_neg (by simp only [List.length_cons]; push_cast; omega)]

theorem expoV_nat (v : List Nat) (i : Nat) : expoV 1 v ((i : ℤ) + 1) = (v.getD i 0 : Nat) := by
  rw [expoV_apply]
  split
  · congr 2; omega
  · rename_i h
    rw [List.getD_eq_default]
    · rfl
    · push_cast at h; omega

theorem expoV_inj {v w : List Nat} (h : v.length = w.length)
    (he : ∀ i < v.length, expoV 1 v ((i : ℤ) + 1) = expoV 1 w ((i : ℤ) + 1)) : v = w := by
  refine List.ext_getElem h (fun i h1 h2 => ?_)
  have := he i h1
  rw [expoV_nat, expoV_nat, List.getD_eq_getElem _ _ h1, List.getD_eq_getElem _ _ h2] at this
  exact_mod_cast this

theorem den_x (i : Nat) : xden Poly.x i = single (Finsupp.single (i : ℤ) 1) 1 := by
  rw [xden, Poly.x, Poly.monomial]
  simp

theorem xm_x (s : Nat) (v : List Nat) : xm (xden Poly.x) s v = single (expoV s v) 1 := by
  induction v generalizing s with
  | nil => rfl
  | cons a v ih =>
    rw [xm, ih, den_x, AddMonoidAlgebra.single_pow, AddMonoidAlgebra.single_mul_single, expoV]
    simp

theorem coeff_phi (n : Nat) (u : List Nat →₀ PolyVal) (hu : ∀ a, u a ≠ 0 → IsPartition a ∧ a.length ≤ n)
    (hfree : ∀ a, FreeOf n (u a).den) {lam : List Nat} (hl : IsPartition lam) {w : List Nat}
    (hw : w ∈ destandardize n lam) (e0 : ℤ →₀ ℤ) (he0 : ∀ i < n, e0 ((i : ℤ) + 1) = 0) :
    (phi (xden Poly.x) n u).coeff (expoV 1 w + e0) = (u lam).den.coeff e0 := by
  classical
  have hw' := (mem_destandardize n hl w).1 hw
  have hterm : ∀ mu ∈ u.support, (msum (xden Poly.x) n mu * (u mu).den).coeff (expoV 1 w + e0) =
      if mu = lam then (u lam).den.coeff e0 else 0 := by
    intro mu hmu
    obtain ⟨hp, _⟩ := hu mu (Finsupp.mem_support_iff.1 hmu)
    rw [msum_eq _ _ hp, Finset.sum_mul, AddMonoidAlgebra.coeff_sum, Finsupp.finsetSum_apply]
    have hone : ∀ v ∈ (destandardize n mu).toFinset,
        (xm (xden Poly.x) 1 v * (u mu).den).coeff (expoV 1 w + e0) = if v = w then (u mu).den.coeff e0 else 0 := by
      intro v hv
      rw [List.mem_toFinset, mem_destandardize n hp] at hv
      rw [xm_x, AddMonoidAlgebra.coeff_single_mul_apply, one_mul]
      split
      · rename_i h; subst h; congr 1; abel
      · rename_i h
        by_contra hc
        apply h
        refine expoV_inj (by omega) (fun i hi => ?_)
        have := hfree mu _ hc i (by omega)
        rw [Finsupp.add_apply, Finsupp.add_apply, Finsupp.neg_apply, he0 i (by omega)] at this
        omega
    rw [Finset.sum_congr rfl hone, Finset.sum_ite_eq']
    by_cases h : mu = lam
    · subst h; rw [if_pos (List.mem_toFinset.2 hw), if_pos rfl]
    · rw [if_neg h, if_neg]
      rw [List.mem_toFinset, mem_destandardize n hp]
      rintro ⟨_, h2⟩
      exact h (perm_partition_eq hp hl (h2.symm.trans hw'.2))
  rw [phi, Finsupp.sum, AddMonoidAlgebra.coeff_sum, Finsupp.finsetSum_apply, Finset.sum_congr rfl hterm,
    Finset.sum_ite_eq']
  split
  · rfl
  · rename_i h
    rw [Finsupp.notMem_support_iff.1 h]; simp

theorem destandardize_ne_nil {n : Nat} {lam : List Nat} (hl : IsPartition lam) (hn : lam.length ≤ n) :
    lam ++ List.replicate (n - lam.length) 0 ∈ destandardize n lam := by
  rw [mem_destandardize n hl]
  refine ⟨by simp; omega, ?_⟩
  rw [nz_append, nz_replicate, List.append_nil, nz_eq_self hl.2]

theorem phi_injective (n : Nat) (u : List Nat →₀ PolyVal) (hu : ∀ a, u a ≠ 0 → IsPartition a ∧ a.length ≤ n)
    (hfree : ∀ a, FreeOf n (u a).den) (h0 : phi (xden Poly.x) n u = 0) : u = 0 := by
  ext lam
  by_contra hc
  obtain ⟨hl, hn⟩ := hu lam hc
  apply hc
  apply PolyVal.den_injective
  rw [Finsupp.zero_apply, PolyVal.den_zero]
  apply AddMonoidAlgebra.coeff_injective
  ext e0
  by_cases he : ∀ i < n, e0 ((i : ℤ) + 1) = 0
  · have := coeff_phi n u hu hfree hl (destandardize_ne_nil hl hn) e0 he
    rw [← this, h0]
    rfl
  · by_contra hne
    exact he (hfree lam e0 hne)

end Verif.Symm
