import Verif.Lemmas.StableG
import Verif.Spec.StableG
import Mathlib.Algebra.BigOperators.Finprod

/-!
# The generating function of the factorizations
-/

attribute [-simp] List.getD_eq_getElem?_getD

namespace Verif.Perm

open Verif.Symm Verif.Part Verif.PermSpec

theorem within_iff (bound : Option Int) (t : Nat) : Within bound t ↔ (bound.getD (-1) < 0 ∨ (t : Int) ≤ bound.getD (-1)) := by
  unfold Within
  cases bound with
  | none => simp
  | some d =>
    simp only [Option.some.injEq, forall_eq', Option.getD_some]
    omega

section

variable {X Y : Type} (g : X → Nat → X) (wd : Y → List Nat) (W : List Y) (z x0 : X)

theorem cnt_zero {y0 : Y} (h0 : W.filter (fun y => (wd y).length = 0) = [y0]) (x : X) (α : List Nat) :
    YB.cnt g wd W z x (0 :: α) = YB.cnt g wd W z x α := by
  have hm : y0 ∈ W.filter (fun y => (wd y).length = 0) := by rw [h0]; simp
  rw [List.mem_filter, decide_eq_true_eq, List.length_eq_zero_iff] at hm
  rw [YB.cnt, h0, List.map_singleton, List.sum_singleton, hm.2, List.foldl_nil]

theorem cnt_pad {y0 : Y} (h0 : W.filter (fun y => (wd y).length = 0) = [y0])
    (hperm : ∀ α β : List Nat, α.Perm β → YB.cnt g wd W z x0 α = YB.cnt g wd W z x0 β) (α : List Nat) (k : Nat) :
    YB.cnt g wd W z x0 (α ++ List.replicate k 0) = YB.cnt g wd W z x0 α := by
  induction k with
  | zero => rw [List.replicate_zero, List.append_nil]
  | succ k ih =>
    rw [← ih, ← cnt_zero g wd W z h0 x0 (α ++ List.replicate k 0)]
    apply hperm
    rw [List.replicate_succ]
    exact List.perm_middle

theorem lists_finite (n : Nat) : {fs : List Y | fs.length = n ∧ ∀ y ∈ fs, y ∈ W}.Finite := by
  induction n with
  | zero =>
    apply Set.Finite.subset (Set.finite_singleton [])
    rintro fs ⟨h, -⟩
    exact List.eq_nil_of_length_eq_zero h
  | succ n ih =>
    apply Set.Finite.subset (Set.Finite.image2 List.cons (List.finite_toSet W) ih)
    rintro fs ⟨h1, h2⟩
    cases fs with
    | nil => simp at h1
    | cons y fs => exact ⟨y, h2 y (by simp), fs, ⟨by simpa using h1, fun y hy => h2 y (by simp [hy])⟩, rfl⟩

end

open scoped Classical in
/-- From the coefficients to the generating function. -/
theorem phi_factors (n : Nat) {X Y : Type} (g : X → Nat → X) (wd : Y → List Nat) (W : List Y) (hW : W.Nodup) (z x0 : X)
    {y0 : Y} (h0 : W.filter (fun y => (wd y).length = 0) = [y0])
    (hperm : ∀ α β : List Nat, α.Perm β → YB.cnt g wd W z x0 α = YB.cnt g wd W z x0 β)
    {F : SymPoly} (hF : IsSym n F) (ell : Int) (bound : Option Int)
    (hget : ∀ mu, (F.get mu).den = if IsPartition mu ∧ mu.length ≤ n ∧ Within bound mu.sum then
        Laurent.xpow 0 ((mu.sum : Int) - ell) * ((YB.cnt g wd W z x0 mu : ℤ) : Laurent) else 0)
    (S : Finset (List Y)) (hS : ∀ fs, fs ∈ S ↔ fs.length = n ∧ (∀ y ∈ fs, y ∈ W) ∧ (fs.flatMap wd).foldl g x0 = z ∧
      Within bound (fs.flatMap wd).length) :
    (polynomial Poly.x n F).den = ∑ fs ∈ S, Laurent.xpow 0 (((fs.flatMap wd).length : Int) - ell) *
      xm (xden Poly.x) 1 (fs.map (fun y => (wd y).length)) := by
  have hsum : ∀ fs : List Y, (fs.flatMap wd).length = (fs.map (fun y => (wd y).length)).sum := by
    intro fs; rw [List.length_flatMap]
  obtain ⟨G, hG⟩ : ∃ G : List Nat → Laurent, ∀ u, G u = if Within bound u.sum then
    Laurent.xpow 0 ((u.sum : Int) - ell) * ((YB.cnt g wd W z x0 u : ℤ) : Laurent) else 0 := ⟨_, fun _ => rfl⟩
  -- the left side
  have hden : ∀ k, (F.den k).den = (F.get k).den := fun k => by rw [Vec.den_apply]
  have hGk : ∀ k, IsPartition k → k.length ≤ n → ∀ u ∈ destandardize n k, (F.get k).den = G u := by
    intro k hk hkn u hu
    rw [mem_destandardize n hk] at hu
    have h1 : u.Perm (k ++ List.replicate (n - k.length) 0) := by
      have hpad : k ++ List.replicate (n - k.length) 0 = k ++ List.replicate (u.length - (nz u).length) 0 := by
        rw [hu.2.length_eq, hu.1]
      rw [hpad]; exact (perm_nz_pad u).trans (hu.2.append_right _)
    have h2 : YB.cnt g wd W z x0 u = YB.cnt g wd W z x0 k := by
      rw [hperm _ _ h1, cnt_pad g wd W z x0 h0 hperm]
    have h3 : k.sum = u.sum := sum_perm_nz hu.2
    rw [hget, hG, h2, ← h3]
    by_cases hb : Within bound k.sum
    · rw [if_pos ⟨hk, hkn, hb⟩, if_pos hb]
    · rw [if_neg (fun h => hb h.2.2), if_neg hb]
  have hsupp : ∀ k ∈ F.den.support, IsPartition k ∧ k.length ≤ n := by
    intro k hk
    rw [Finsupp.mem_support_iff] at hk
    by_contra hc
    apply hk
    rw [Vec.den_apply]
    apply PolyVal.den_injective
    rw [hget, if_neg (fun h => hc ⟨h.1, h.2.1⟩), PolyVal.den_zero]
  have hL : (polynomial Poly.x n F).den = ∑ u ∈ F.den.support.biUnion (fun k => (destandardize n k).toFinset),
      G u * xm (xden Poly.x) 1 u := by
    rw [den_polynomial Poly.x n (fun mu h => (hF.keys mu h).1), phi, Finsupp.sum, Finset.sum_biUnion]
    · refine Finset.sum_congr rfl (fun k hk => ?_)
      obtain ⟨hk1, hk2⟩ := hsupp k hk
      rw [msum_eq _ _ hk1, Finset.sum_mul]
      refine Finset.sum_congr rfl (fun u hu => ?_)
      rw [hden, hGk k hk1 hk2 u (List.mem_toFinset.1 hu), mul_comm]
    · intro k hk k' hk' hne
      rw [Function.onFun, Finset.disjoint_left]
      intro u hu hu'
      have h1 := (hsupp k hk).1
      have h1' := (hsupp k' hk').1
      rw [List.mem_toFinset, mem_destandardize n h1] at hu
      rw [List.mem_toFinset, mem_destandardize n h1'] at hu'
      exact hne (perm_partition_eq h1 h1' (hu.2.symm.trans hu'.2))
  -- the right side
  have hcard : ∀ u : List Nat, u.length = n → Within bound u.sum →
      (S.filter (fun fs => fs.map (fun y => (wd y).length) = u)).card = YB.cnt g wd W z x0 u := by
    intro u hu hb
    rw [(YB.cnt_eq_ncard g wd hW z x0 u).2, ← Set.ncard_coe_finset]
    congr 1
    ext fs
    simp only [Finset.coe_filter, Set.mem_ofPred_eq, hS]
    constructor
    · rintro ⟨⟨h1, h2, h3, h4⟩, h5⟩; exact ⟨h5, h2, h3⟩
    · rintro ⟨h5, h2, h3⟩
      refine ⟨⟨?_, h2, h3, ?_⟩, h5⟩
      · rw [← hu, ← h5, List.length_map]
      · rw [hsum, h5]; exact hb
  have hR : ∑ fs ∈ S, Laurent.xpow 0 (((fs.flatMap wd).length : Int) - ell) *
      xm (xden Poly.x) 1 (fs.map (fun y => (wd y).length)) =
      ∑ u ∈ S.image (fun fs => fs.map (fun y => (wd y).length)), G u * xm (xden Poly.x) 1 u := by
    rw [← Finset.sum_fiberwise_of_maps_to (s := S) (t := S.image (fun fs => fs.map (fun y => (wd y).length)))
      (g := fun fs => fs.map (fun y => (wd y).length)) (fun fs hfs => Finset.mem_image_of_mem _ hfs)]
    refine Finset.sum_congr rfl (fun u hu => ?_)
    rw [Finset.mem_image] at hu
    obtain ⟨fs, hfs, rfl⟩ := hu
    rw [hS] at hfs
    have hlen : (fs.map (fun y => (wd y).length)).length = n := by rw [List.length_map]; exact hfs.1
    have hb : Within bound (fs.map (fun y => (wd y).length)).sum := by rw [← hsum]; exact hfs.2.2.2
    rw [Finset.sum_congr rfl (g := fun _ => Laurent.xpow 0 (((fs.map (fun y => (wd y).length)).sum : Int) - ell) *
      xm (xden Poly.x) 1 (fs.map (fun y => (wd y).length)))]
    · rw [Finset.sum_const, hcard _ hlen hb, hG, if_pos hb, nsmul_eq_mul]
      push_cast
      ring
    · intro fs' hfs'
      rw [Finset.mem_filter] at hfs'
      rw [hsum, hfs'.2]
  rw [hL, hR]
  -- both sums run over the support of `G`
  have hBlen : ∀ u ∈ F.den.support.biUnion (fun k => (destandardize n k).toFinset), u.length = n := by
    intro u hu
    rw [Finset.mem_biUnion] at hu
    obtain ⟨k, hk, hu⟩ := hu
    rw [List.mem_toFinset, mem_destandardize n (hsupp k hk).1] at hu
    exact hu.1
  have hUlen : ∀ u ∈ S.image (fun fs => fs.map (fun y => (wd y).length)), u.length = n := by
    intro u hu
    rw [Finset.mem_image] at hu
    obtain ⟨fs, hfs, rfl⟩ := hu
    rw [List.length_map]; exact ((hS fs).1 hfs).1
  have hB : ∀ u, u.length = n → u ∉ F.den.support.biUnion (fun k => (destandardize n k).toFinset) → G u = 0 := by
    intro u hu hnot
    have hp : IsPartition (sortTrim u) := sortTrim_isPartition _
    have hlen : (sortTrim u).length ≤ n := by
      rw [← (sortTrim_perm _).length_eq, ← hu]
      exact List.length_filter_le _ _
    have hmem : u ∈ destandardize n (sortTrim u) := (mem_destandardize n hp u).2 ⟨hu, sortTrim_perm _⟩
    rw [← hGk _ hp hlen u hmem, ← hden]
    have : sortTrim u ∉ F.den.support := by
      intro h
      exact hnot (Finset.mem_biUnion.2 ⟨_, h, List.mem_toFinset.2 hmem⟩)
    rw [Finsupp.notMem_support_iff.1 this, PolyVal.den_zero]
  have hU : ∀ u, u.length = n → u ∉ S.image (fun fs => fs.map (fun y => (wd y).length)) → G u = 0 := by
    intro u hu hnot
    rw [hG]
    by_cases hb : Within bound u.sum
    · rw [if_pos hb, ← hcard u hu hb, Finset.card_eq_zero.2]
      · simp
      · rw [Finset.filter_eq_empty_iff]
        intro fs hfs he
        exact hnot (Finset.mem_image.2 ⟨fs, hfs, he⟩)
    · rw [if_neg hb]
  obtain ⟨B, hBe⟩ : ∃ B, F.den.support.biUnion (fun k => (destandardize n k).toFinset) = B := ⟨_, rfl⟩
  obtain ⟨U, hUe⟩ : ∃ U, S.image (fun fs => fs.map (fun y => (wd y).length)) = U := ⟨_, rfl⟩
  rw [hBe] at hB hBlen ⊢
  rw [hUe] at hU hUlen ⊢
  have e1 : ∑ u ∈ B, G u * xm (xden Poly.x) 1 u = ∑ u ∈ B ∪ U, G u * xm (xden Poly.x) 1 u := by
    refine Finset.sum_subset Finset.subset_union_left (fun u hu hnot => ?_)
    rcases Finset.mem_union.1 hu with h | h
    · exact absurd h hnot
    · rw [hB u (hUlen u h) hnot, zero_mul]
  have e2 : ∑ u ∈ U, G u * xm (xden Poly.x) 1 u = ∑ u ∈ B ∪ U, G u * xm (xden Poly.x) 1 u := by
    refine Finset.sum_subset Finset.subset_union_right (fun u hu hnot => ?_)
    rcases Finset.mem_union.1 hu with h | h
    · rw [hU u (hBlen u h) hnot, zero_mul]
    · exact absurd h hnot
  rw [e1, e2]

theorem xm_map {Y : Type} (n : Nat) (len : Y → Nat) {fs : List Y} (h : fs.length = n) (y0 : Y) :
    xm (xden Poly.x) 1 (fs.map len) = ∏ i ∈ Finset.range n, Laurent.xpow ((i : ℤ) + 1) ((len (fs.getD i y0) : Nat) : ℤ) := by
  rw [xm_eq_prod, List.length_map, h]
  refine Finset.prod_congr rfl (fun i hi => ?_)
  rw [Finset.mem_range] at hi
  rw [List.getD_eq_getElem _ _ (by rw [List.length_map]; omega), List.getElem_map, List.getD_eq_getElem _ _ (by omega)]
  rw [den_x, Laurent.xpow, AddMonoidAlgebra.single_pow]
  congr 1
  · rw [Finsupp.smul_single, nsmul_eq_mul, mul_one, show 1 + i = i + 1 by omega]; push_cast; rfl
  · simp

end Verif.Perm
