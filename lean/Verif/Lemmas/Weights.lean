import Verif.Lemmas.SymGen

/-! Weight generating functions of finite sets: coefficients, symmetry, and the symmetric polynomials that `_vectorize`
makes of them. -/

attribute [-simp] List.getD_eq_getElem?_getD

namespace Verif.Symm

open Verif.Part Partition Tableaux

variable {τ : Type*} {A : Type*} [CommRing A]

/-- The generating function of the elements of `S`; `w T i` is the exponent of the variable `i`. -/
def WG (S : Finset τ) (n : Nat) (w : τ → Nat → Nat) (y : Nat → A) : A :=
  ∑ T ∈ S, ∏ i ∈ Finset.range n, y i ^ w T i

/-- The number of elements of weight `alpha`. -/
def wCount (S : Finset τ) (n : Nat) (w : τ → Nat → Nat) (alpha : Nat → Nat) : Int :=
  ((S.filter (fun T => ∀ i < n, w T i = alpha i)).card : Nat)

theorem wCount_congr {S : Finset τ} {n : Nat} {w : τ → Nat → Nat} {alpha alpha' : Nat → Nat}
    (h : ∀ i < n, alpha i = alpha' i) : wCount S n w alpha = wCount S n w alpha' := by
  unfold wCount
  congr 2
  refine Finset.filter_congr (fun T _ => ?_)
  constructor
  · intro h' i hi; rw [h' i hi, h i hi]
  · intro h' i hi; rw [h' i hi, h i hi]

theorem coeff_WG (S : Finset τ) (n : Nat) (w : τ → Nat → Nat) (alpha : Nat → Nat) :
    MvPolynomial.coeff (expN n alpha) (WG S n w (fun i => (MvPolynomial.X i : MvPolynomial ℕ ℤ))) =
      wCount S n w alpha := by
  classical
  rw [WG, MvPolynomial.coeff_sum, wCount, Finset.card_filter]
  push_cast
  refine Finset.sum_congr rfl (fun T _ => ?_)
  have : ∏ i ∈ Finset.range n, (MvPolynomial.X i : MvPolynomial ℕ ℤ) ^ w T i =
      MvPolynomial.monomial (expN n (w T)) 1 := by
    rw [expN, MvPolynomial.monomial_sum_one]
    exact Finset.prod_congr rfl (fun i _ => by rw [MvPolynomial.X_pow_eq_monomial])
  rw [this, MvPolynomial.coeff_monomial]
  congr 1
  rw [eq_iff_iff, Finsupp.ext_iff]
  simp only [expN_apply]
  constructor
  · intro h i hi
    have := h i
    rwa [if_pos hi, if_pos hi] at this
  · intro h i
    by_cases hi : i < n
    · rw [if_pos hi, if_pos hi, h i hi]
    · rw [if_neg hi, if_neg hi]

/-- Exchanging two neighbouring variables does not change the generating function. -/
def SwapInvariant (S : Finset τ) (n : Nat) (w : τ → Nat → Nat) : Prop :=
  ∀ j, j + 2 ≤ n → ∀ y : Nat → MvPolynomial ℕ ℤ, WG S n w y = WG S n w (y ∘ Equiv.swap j (j + 1))

theorem wCount_swap {S : Finset τ} {n : Nat} {w : τ → Nat → Nat} (hS : SwapInvariant S n w) {j : Nat}
    (hj : j + 2 ≤ n) (alpha : Nat → Nat) : wCount S n w (alpha ∘ Equiv.swap j (j + 1)) = wCount S n w alpha := by
  have hren : WG S n w (fun i => (MvPolynomial.X i : MvPolynomial ℕ ℤ)) =
      MvPolynomial.rename (Equiv.swap j (j + 1)) (WG S n w (fun i => (MvPolynomial.X i : MvPolynomial ℕ ℤ))) := by
    conv_lhs => rw [hS j hj]
    unfold WG
    simp [map_sum, map_prod]
  rw [← coeff_WG, ← coeff_WG]
  conv_lhs => rw [hren]
  rw [← MvPolynomial.coeff_rename_mapDomain (Equiv.swap j (j + 1)) (Equiv.injective _) _ (expN n alpha)]
  congr 1
  ext i
  obtain ⟨k, rfl⟩ := (Equiv.swap j (j + 1)).surjective i
  rw [Finsupp.mapDomain_apply (Equiv.injective _), expN_apply, expN_apply, Function.comp_apply, Equiv.swap_apply_self]
  by_cases hk : k < n
  · have : Equiv.swap j (j + 1) k < n := by
      rw [Equiv.swap_apply_def]; split_ifs <;> omega
    rw [if_pos hk, if_pos this]
  · have : Equiv.swap j (j + 1) k = k := Equiv.swap_apply_of_ne_of_ne (by omega) (by omega)
    rw [this]

/-- The numbers only depend on the weight up to order. -/
theorem wCount_perm {S : Finset τ} {n : Nat} {w : τ → Nat → Nat} (hS : SwapInvariant S n w) {u u' : List Nat}
    (hp : u.Perm u') : ∀ p : List Nat, (p ++ u).length = n →
      wCount S n w (fun i => (p ++ u).getD i 0) = wCount S n w (fun i => (p ++ u').getD i 0) := by
  induction hp with
  | nil => intro p _; rfl
  | cons a _ ih =>
    intro p h
    have := ih (p ++ [a]) (by rw [List.append_assoc]; exact h)
    rw [List.append_assoc, List.append_assoc] at this
    exact this
  | swap a b l =>
    intro p h
    rw [← wCount_swap hS (j := p.length) (by simp at h; omega)]
    congr 1
    funext i
    rw [Function.comp_apply, Equiv.swap_apply_def]
    split_ifs with h1 h2
    · subst h1
      rw [List.getD_append_right _ _ _ _ (by omega), List.getD_append_right _ _ _ _ (by omega)]
      simp [List.getD_cons_zero, List.getD_cons_succ]
    · subst h2
      rw [List.getD_append_right _ _ _ _ (by omega), List.getD_append_right _ _ _ _ (by omega)]
      simp [List.getD_cons_zero, List.getD_cons_succ]
    · by_cases hi : i < p.length
      · rw [List.getD_append _ _ _ _ hi, List.getD_append _ _ _ _ hi]
      · rw [List.getD_append_right _ _ _ _ (by omega), List.getD_append_right _ _ _ _ (by omega)]
        obtain ⟨k, hk⟩ : ∃ k, i - p.length = k + 2 := ⟨i - p.length - 2, by omega⟩
        rw [hk]
        simp [List.getD_cons_succ]
  | trans h1 _ ih1 ih2 =>
    intro p h
    rw [ih1 p h, ih2 p (by rw [← h]; simp [h1.length_eq])]

/-- The weight as a list of length `n`. -/
def wtL (n : Nat) (w : τ → Nat → Nat) (T : τ) : List Nat := (List.range n).map (w T)

@[simp] theorem length_wtL (n : Nat) (w : τ → Nat → Nat) (T : τ) : (wtL n w T).length = n := by simp [wtL]

theorem getD_wtL (n : Nat) (w : τ → Nat → Nat) (T : τ) {i : Nat} (h : i < n) : (wtL n w T).getD i 0 = w T i := by
  rw [List.getD_eq_getElem _ _ (by simpa using h)]; simp [wtL]

theorem sum_wtL (n : Nat) (w : τ → Nat → Nat) (T : τ) : (wtL n w T).sum = ∑ i ∈ Finset.range n, w T i := by
  rw [wtL, Finset.sum_range, ← List.sum_ofFn]
  congr 1
  apply List.ext_getElem
  · simp
  · intro i h1 h2
    simp

theorem xm_wtL (x : Nat → A) (n : Nat) (w : τ → Nat → Nat) (T : τ) :
    xm x 1 (wtL n w T) = ∏ i ∈ Finset.range n, x (i + 1) ^ w T i := by
  rw [xm_eq_prod, length_wtL]
  exact Finset.prod_congr rfl (fun i hi => by rw [getD_wtL n w T (Finset.mem_range.1 hi), add_comm])

theorem wCount_wtL (S : Finset τ) (n : Nat) (w : τ → Nat → Nat) {u : List Nat} (hu : u.length = n) :
    wCount S n w (fun i => u.getD i 0) = ((S.filter (fun T => wtL n w T = u)).card : Nat) := by
  rw [wCount]
  congr 2
  refine Finset.filter_congr (fun T _ => ?_)
  constructor
  · intro h
    refine List.ext_getElem (by simp [hu]) (fun i h1 h2 => ?_)
    have := h i (by omega)
    rw [← getD_wtL n w T (by omega), List.getD_eq_getElem _ _ h1, List.getD_eq_getElem _ _ h2] at this
    exact this
  · rintro rfl i hi
    rw [getD_wtL n w T hi]

/-- Regrouping a sum by the sorted weight. -/
theorem phi_weights (v : Int → Poly) {S : Finset τ} {n : Nat} {w : τ → Nat → Nat} (hS : SwapInvariant S n w)
    (F : List Nat →₀ PolyVal) (c : Nat → PolyVal)
    (hF : ∀ k, IsPartition k ∧ k.length ≤ n → F k = (wCount S n w (fun i => k.getD i 0) : PolyVal) * c k.sum)
    (hF0 : ∀ k, ¬ (IsPartition k ∧ k.length ≤ n) → F k = 0) :
    phi (xden v) n F = ∑ T ∈ S, (c (wtL n w T).sum).den * xm (xden v) 1 (wtL n w T) := by
  classical
  have hsupp : ∀ k ∈ F.support, IsPartition k ∧ k.length ≤ n := by
    intro k hk
    by_contra hc
    exact (Finsupp.mem_support_iff.1 hk) (hF0 k hc)
  have hcount : ∀ k, IsPartition k → k.length ≤ n → ∀ u ∈ destandardize n k,
      wCount S n w (fun i => k.getD i 0) = ((S.filter (fun T => wtL n w T = u)).card : Nat) := by
    intro k hk hkn u hu
    rw [mem_destandardize n hk] at hu
    rw [← wCount_wtL S n w hu.1]
    have hpad : k ++ List.replicate (n - k.length) 0 = k ++ List.replicate (u.length - (nz u).length) 0 := by
      rw [hu.2.length_eq, hu.1]
    have h1 : u.Perm (k ++ List.replicate (n - k.length) 0) := by
      rw [hpad]; exact (perm_nz_pad u).trans (hu.2.append_right _)
    have h2 := wCount_perm hS h1 [] (by simpa using hu.1)
    simp only [List.nil_append] at h2
    rw [h2]
    congr 1
    funext i
    by_cases hi : i < k.length
    · rw [List.getD_append _ _ _ _ hi]
    · rw [List.getD_append_right _ _ _ _ (by omega), List.getD_eq_default _ _ (by omega), List.getD_eq_getElem?_getD,
        List.getElem?_replicate]
      split <;> rfl
  have hR : phi (xden v) n F = ∑ k ∈ F.support, ∑ u ∈ (destandardize n k).toFinset,
      ∑ T ∈ S, if wtL n w T = u then (c (wtL n w T).sum).den * xm (xden v) 1 (wtL n w T) else 0 := by
    rw [phi, Finsupp.sum]
    refine Finset.sum_congr rfl (fun k hk => ?_)
    obtain ⟨hk1, hk2⟩ := hsupp k hk
    rw [hF k ⟨hk1, hk2⟩, msum_eq _ _ hk1, Finset.sum_mul]
    refine Finset.sum_congr rfl (fun u hu => ?_)
    rw [List.mem_toFinset] at hu
    have hsum : k.sum = u.sum := sum_perm_nz ((mem_destandardize n hk1 u).1 hu).2
    rw [hcount k hk1 hk2 u hu, Finset.card_filter]
    simp only [Int.cast_natCast, PolyVal.den_mul, PolyVal.den_natCast]
    push_cast
    rw [Finset.sum_mul, Finset.mul_sum]
    refine Finset.sum_congr rfl (fun T _ => ?_)
    split
    · rename_i h; rw [h, hsum]; ring
    · simp
  rw [hR]
  have hswap := (Finset.sum_congr rfl (fun k (_ : k ∈ F.support) => Finset.sum_comm (s := (destandardize n k).toFinset)
    (t := S)
    (f := fun u T => if wtL n w T = u then (c (wtL n w T).sum).den * xm (xden v) 1 (wtL n w T) else 0))).trans
      Finset.sum_comm
  rw [hswap]
  refine Finset.sum_congr rfl (fun T hT => ?_)
  obtain ⟨g0, hg0⟩ : ∃ g0, g0 = sortTrim (wtL n w T) := ⟨_, rfl⟩
  have hg0p : IsPartition g0 := hg0 ▸ sortTrim_isPartition _
  have hperm : (nz (wtL n w T)).Perm g0 := hg0 ▸ sortTrim_perm _
  have hmem0 : wtL n w T ∈ destandardize n g0 := (mem_destandardize n hg0p _).2 ⟨length_wtL n w T, hperm⟩
  have hlen0 : g0.length ≤ n := by
    rw [← hperm.length_eq]
    exact (List.length_filter_le _ _).trans (by simp)
  rw [Finset.sum_eq_single g0]
  · rw [Finset.sum_eq_single (wtL n w T)]
    · simp
    · intro u _ hu; rw [if_neg (fun h => hu h.symm)]
    · intro h; exact absurd (List.mem_toFinset.2 hmem0) h
  · intro g hg hne
    refine Finset.sum_eq_zero (fun u hu => ?_)
    rw [if_neg]
    rintro rfl
    have hgp := (hsupp g hg).1
    rw [List.mem_toFinset, mem_destandardize n hgp] at hu
    exact hne (hg0 ▸ ((sortTrim_eq_iff hgp).2 hu.2).symm)
  · intro h
    have h0 : F g0 = 0 := Finsupp.notMem_support_iff.1 h
    rw [hF g0 ⟨hg0p, hlen0⟩, hcount g0 hg0p hlen0 _ hmem0] at h0
    have hpos : ((S.filter (fun T' => wtL n w T' = wtL n w T)).card : Nat) ≠ 0 := by
      rw [Finset.card_ne_zero]
      exact ⟨T, by simp [hT]⟩
    have hsum : g0.sum = (wtL n w T).sum := sum_perm_nz hperm
    have hc0 : (c (wtL n w T).sum).den = 0 := by
      have h1 := congrArg PolyVal.den h0
      rw [PolyVal.den_mul, PolyVal.den_zero, hsum, Int.cast_natCast, PolyVal.den_natCast] at h1
      rw [← nsmul_eq_mul] at h1
      apply AddMonoidAlgebra.coeff_injective
      ext e
      have h2 := congrArg (fun z : Laurent => z.coeff e) h1
      rw [AddMonoidAlgebra.coeff_smul, Finsupp.smul_apply, nsmul_eq_mul] at h2
      simp only [AddMonoidAlgebra.coeff_zero, Finsupp.zero_apply] at h2 ⊢
      rcases mul_eq_zero.1 h2 with h3 | h3
      · exact absurd (by exact_mod_cast h3) hpos
      · exact h3
    refine Finset.sum_eq_zero (fun u _ => ?_)
    rw [hc0]; simp

/-- `_vectorize` of a dict of counts. -/
theorem vectorize_weights (v : Int → Poly) {S : Finset τ} {n : Nat} {w : τ → Nat → Nat} (hS : SwapInvariant S n w)
    {d : Dict (List Nat) Int} (hkeys : ∀ q ∈ d.keys, q.length ≤ n)
    (hd : ∀ k, IsPartition k ∧ k.length ≤ n → d.getD k 0 = wCount S n w (fun i => k.getD i 0))
    (hd0 : ∀ k, ¬ (IsPartition k ∧ k.length ≤ n) → d.getD k 0 = 0) (signs : Option PolyVal) (bound : Option Int) :
    ∃ f, vectorize n d signs bound = some f ∧ IsSym n f ∧ Vec.NoZero f ∧
      (∀ k, f.get k = if within bound k.sum then (d.getD k 0 : PolyVal) * signFactor signs k.sum else 0) ∧
      (polynomial v n f).den = ∑ T ∈ S.filter (fun T => within bound (wtL n w T).sum),
        (signFactor signs (wtL n w T).sum).den * xm (xden v) 1 (wtL n w T) := by
  obtain ⟨f, h1, h2, h3, h4⟩ := vectorize_spec (n := n) (d := d) signs bound hkeys (fun q hq => hd0 q (fun h => hq h.1))
  refine ⟨f, h1, h2, h3, h4, ?_⟩
  rw [den_polynomial v n (fun k hk => (h2.keys k hk).1)]
  rw [phi_weights v hS f.den (fun k => if within bound k then signFactor signs k else 0)]
  · rw [Finset.sum_filter]
    refine Finset.sum_congr rfl (fun T hT => ?_)
    split
    · rfl
    · simp
  · intro k hk
    rw [Vec.den_apply, h4, hd k hk]
    split
    · rfl
    · simp
  · intro k hk
    rw [Vec.den_apply, h4, hd0 k hk]
    simp

end Verif.Symm
