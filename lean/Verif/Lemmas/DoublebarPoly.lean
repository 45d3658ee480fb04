import Verif.Lemmas.Doublebar
import Verif.Lemmas.MarkedPoly
import Verif.Model.Doublebar

/-! The `doublebar` functions as sums over shapes and tableaux. -/

attribute [-simp] List.getD_eq_getElem?_getD

namespace Verif.Tableaux

open Tab Verif.Part Symm

/-- The rules for set-valued semistandard tableaux. -/
def svRules : Rules where
  sh := false
  sv := true
  val k := (k : Int)
  rowRep _ := True
  colRep _ := False
  diag _ := True

theorem svRules_inj : Function.Injective svRules.val := fun a b h => by
  simp only [svRules] at h
  omega

theorem isTab_svRules {n : Nat} {mu lam : List Nat} (hm : IsPartition mu) (hl : IsPartition lam) {T : Tab} :
    IsTab svRules lam n mu T ↔ (∀ i, lam.getD i 0 ≤ mu.getD i 0) ∧ SV true n mu lam T := by
  have hsub : shapeSet svRules.sh lam ⊆ shapeSet svRules.sh mu ↔ ∀ i, lam.getD i 0 ≤ mu.getD i 0 := shapeSet_subset
  have hshape : ∀ nu, shapeSet svRules.sh nu = Diagram nu := fun nu => rfl
  have hval : ∀ k : Nat, svRules.val k = (k : Int) := fun k => rfl
  constructor
  · intro h
    have hdom : ∀ b, T.ent b ≠ [] ↔ b ∈ Diagram mu ∧ b ∉ Diagram lam := h.dom
    have hrange : ∀ b, ∀ x ∈ T.ent b, 1 ≤ x ∧ x ≤ (n : Int) := by
      intro b x hx
      obtain ⟨k, h1, h2, rfl⟩ := h.range b x hx
      rw [hval]
      omega
    have hrow : ∀ i j x y, x ∈ T.ent (i, j) → y ∈ T.ent (i, j + 1) → x ≤ y := by
      intro i j x y hx hy
      obtain ⟨k, _, _, rfl⟩ := h.range _ x hx
      obtain ⟨l, _, _, rfl⟩ := h.range _ y hy
      have := (h.row i j k l hx hy).1
      rw [hval, hval]
      omega
    have hcol : ∀ i j x y, x ∈ T.ent (i, j) → y ∈ T.ent (i + 1, j) → x < y := by
      intro i j x y hx hy
      obtain ⟨k, _, _, rfl⟩ := h.range _ x hx
      obtain ⟨l, _, _, rfl⟩ := h.range _ y hy
      obtain ⟨h1, h2⟩ := h.col i j k l hx hy
      have : k ≠ l := fun hc => h2 hc
      rw [hval, hval]
      omega
    refine ⟨hsub.1 h.sub, h.canon.ne, hdom, h.canon.sorted, hrange, fun hc => by simp at hc, ?_, ?_⟩
    · intro i j j' hj
      obtain ⟨d, rfl⟩ : ∃ d, j' = j + d + 1 := ⟨j' - j - 1, by omega⟩
      clear hj
      induction d with
      | zero => intro x hx y hy; exact hrow i j x y hx hy
      | succ d ih =>
        intro x hx y hy
        have h1 := (hdom _).1 (List.ne_nil_of_mem hx)
        have h2 := (hdom _).1 (List.ne_nil_of_mem hy)
        have h3 : (i, j + d + 1) ∈ Diagram mu ∧ (i, j + d + 1) ∉ Diagram lam := by
          simp only [Partition.mem_diagram] at *
          omega
        obtain ⟨z, hz⟩ := List.exists_mem_of_ne_nil _ ((hdom _).2 h3)
        exact le_trans (ih x hx z hz) (hrow i (j + d + 1) z y hz hy)
    · intro i i' j hi
      obtain ⟨d, rfl⟩ : ∃ d, i' = i + d + 1 := ⟨i' - i - 1, by omega⟩
      clear hi
      induction d with
      | zero => intro x hx y hy; exact hcol i j x y hx hy
      | succ d ih =>
        intro x hx y hy
        have h1 := (hdom _).1 (List.ne_nil_of_mem hx)
        have h2 := (hdom _).1 (List.ne_nil_of_mem hy)
        have h3 : (i + d + 1, j) ∈ Diagram mu ∧ (i + d + 1, j) ∉ Diagram lam := by
          simp only [Partition.mem_diagram] at *
          have e1 := antitone_nat_of_succ_le (f := fun i => mu.getD i 0) (Partition.pairwise_ge_iff.1 hm.1) (show i + d + 1 - 1 ≤ i + (d + 1) + 1 - 1 by omega)
          have e2 := antitone_nat_of_succ_le (f := fun i => lam.getD i 0) (Partition.pairwise_ge_iff.1 hl.1) (show i - 1 ≤ i + d + 1 - 1 by omega)
          dsimp only at e1 e2
          omega
        obtain ⟨z, hz⟩ := List.exists_mem_of_ne_nil _ ((hdom _).2 h3)
        exact lt_trans (ih x hx z hz) (hcol (i + d + 1) j z y hz hy)
  · rintro ⟨h0, h⟩
    refine ⟨⟨h.ne, h.sorted⟩, hsub.2 h0, h.dom, ?_, fun hc => by simp [svRules] at hc, ?_, ?_, fun _ _ _ => trivial⟩
    · intro b x hx
      have := h.range b x hx
      refine ⟨x.toNat, by omega, by omega, ?_⟩
      rw [hval]
      omega
    · intro i j k l hk hl
      have := h.row i j (j + 1) (by omega) _ hk _ hl
      rw [hval, hval] at this
      exact ⟨by omega, fun _ => trivial⟩
    · intro i j k l hk hl
      have := h.col i (i + 1) j (by omega) _ hk _ hl
      rw [hval, hval] at this
      refine ⟨by omega, fun hc => ?_⟩
      omega

/-! ### cancellation -/

theorem card_boxFin (sh : Bool) (mu : List Nat) : (boxFin sh mu).card = mu.sum := by
  classical
  have h1 : boxFin sh mu = ((Finset.range mu.length).sigma (fun i => Finset.Ioc 0 (mu.getD i 0))).image
      (fun p => (p.1 + 1, off sh (p.1 + 1) + p.2)) := by
    ext ⟨i, j⟩
    rw [mem_boxFin, mem_shapeSet, Finset.mem_image]
    constructor
    · rintro ⟨h1, h2, h3⟩
      refine ⟨⟨i - 1, j - off sh i⟩, ?_, ?_⟩
      · rw [Finset.mem_sigma, Finset.mem_range, Finset.mem_Ioc]
        dsimp only
        refine ⟨?_, by omega, by omega⟩
        by_contra hc
        rw [List.getD_eq_default _ _ (by omega)] at h3
        omega
      · dsimp only
        rw [show i - 1 + 1 = i by omega, show off sh i + (j - off sh i) = j by omega]
    · rintro ⟨⟨k, d⟩, hm, he⟩
      rw [Finset.mem_sigma, Finset.mem_range, Finset.mem_Ioc] at hm
      dsimp only at hm he
      obtain ⟨rfl, rfl⟩ := Prod.mk.inj he
      rw [Nat.add_sub_cancel]
      omega
  rw [h1, Finset.card_image_of_injOn, Finset.card_sigma, ← sum_getD_range mu le_rfl]
  · exact Finset.sum_congr rfl (fun i _ => by simp)
  · rintro ⟨k, d⟩ _ ⟨k', d'⟩ _ he
    obtain ⟨h1, h2⟩ := Prod.mk.inj he
    dsimp only at h1 h2
    obtain rfl : k = k' := by omega
    obtain rfl : d = d' := by omega
    rfl

theorem sum_le_of_subset {sh : Bool} {mu nu : List Nat} (h : shapeSet sh nu ⊆ shapeSet sh mu) : nu.sum ≤ mu.sum := by
  rw [← card_boxFin sh nu, ← card_boxFin sh mu]
  exact Finset.card_le_card (fun b hb => mem_boxFin.2 (h (mem_boxFin.1 hb)))

theorem sum_of_insert {sh : Bool} {nu nu' : List Nat} {a : Nat × Nat} (ha : a ∉ shapeSet sh nu)
    (h : ∀ b, b ∈ shapeSet sh nu' ↔ b ∈ shapeSet sh nu ∨ b = a) : nu'.sum = nu.sum + 1 := by
  classical
  rw [← card_boxFin sh nu, ← card_boxFin sh nu']
  have : boxFin sh nu' = insert a (boxFin sh nu) := by
    ext b
    rw [Finset.mem_insert, mem_boxFin, mem_boxFin, h]
    tauto
  rw [this, Finset.card_insert_of_notMem (fun hc => ha (mem_boxFin.1 hc))]

/-- Shapes between `x` and `mu` that lose only corners on the way to `x`. -/
theorem sum_lessCorners {sh : Bool} {A : Type*} [CommRing A] {mu x : List Nat} (hm : IsShape sh mu) (hx : IsShape sh x)
    (hsub : shapeSet sh x ⊆ shapeSet sh mu) [DecidablePred (fun nu => LessCorners sh nu x)] :
    ∑ nu ∈ (shapesIn sh mu).filter (fun nu => LessCorners sh nu x), (-1 : A) ^ (mu.sum - nu.sum) =
      if x = mu then 1 else 0 := by
  classical
  by_cases hxm : x = mu
  · subst hxm
    rw [if_pos rfl, Finset.sum_eq_single x]
    · simp
    · intro nu hnu hne
      rw [Finset.mem_filter, mem_shapesIn] at hnu
      exact absurd (shapeSet_inj hnu.1.1 hx (Set.Subset.antisymm hnu.1.2 hnu.2.sub)) hne
    · intro hc
      exfalso
      apply hc
      rw [Finset.mem_filter, mem_shapesIn]
      exact ⟨⟨hx, le_rfl⟩, ⟨hx, le_rfl, fun i j h1 h2 => absurd h1 h2⟩⟩
  · rw [if_neg hxm]
    -- a box that may be added to `x`
    obtain ⟨⟨p, q⟩, ha, hmin⟩ := Finset.exists_min_image (boxFin sh mu \ boxFin sh x) (fun b => b.1 + b.2) (by
      rw [Finset.sdiff_nonempty]
      intro h
      exact hxm (shapeSet_inj hx hm (Set.Subset.antisymm hsub (fun b hb => mem_boxFin.1 (h (mem_boxFin.2 hb))))))
    have hmin : ∀ b, b ∈ shapeSet sh mu → b.1 + b.2 < p + q → b ∈ shapeSet sh x := by
      intro b h1 h2
      by_contra hc
      have := hmin b (by rw [Finset.mem_sdiff, mem_boxFin, mem_boxFin]; exact ⟨h1, hc⟩)
      dsimp only at this
      omega
    rw [Finset.mem_sdiff, mem_boxFin, mem_boxFin] at ha
    obtain ⟨ham, hax⟩ := ha
    have hdown : ∀ nu, nu ∈ (shapesIn sh mu).filter (fun nu => LessCorners sh nu x) → (p, q) ∈ shapeSet sh nu →
        ∃ nu', nu' ∈ (shapesIn sh mu).filter (fun nu => LessCorners sh nu x) ∧
          ∀ b, b ∈ shapeSet sh nu' ↔ b ∈ shapeSet sh nu ∧ b ≠ (p, q) := by
      intro nu hnu ha
      rw [Finset.mem_filter, mem_shapesIn] at hnu
      obtain ⟨nu', h1, h2⟩ := exists_less hnu.1.1 {(p, q)} (fun i j h3 h4 => by
        obtain ⟨rfl, rfl⟩ := Prod.mk.inj h3
        exact hnu.2.corner _ _ h4 hax)
      refine ⟨nu', ?_, h2⟩
      rw [Finset.mem_filter, mem_shapesIn]
      have h3 : shapeSet sh nu' ⊆ shapeSet sh nu := fun b hb => ((h2 b).1 hb).1
      refine ⟨⟨h1, h3.trans hnu.1.2⟩, hx, fun b hb => (h2 b).2 ⟨hnu.2.sub hb, ?_⟩, fun i j h4 h5 => ?_⟩
      · rintro rfl
        exact hax hb
      · have := hnu.2.corner i j (h3 h4) h5
        exact ⟨fun h => this.1 (h3 h), fun h => this.2 (h3 h)⟩
    have hup : ∀ nu, nu ∈ (shapesIn sh mu).filter (fun nu => LessCorners sh nu x) → (p, q) ∉ shapeSet sh nu →
        ∃ nu', nu' ∈ (shapesIn sh mu).filter (fun nu => LessCorners sh nu x) ∧
          ∀ b, b ∈ shapeSet sh nu' ↔ b ∈ shapeSet sh nu ∨ b = (p, q) := by
      intro nu hnu ha
      rw [Finset.mem_filter, mem_shapesIn] at hnu
      obtain ⟨nu', h1, h2⟩ := exists_shape hm (shapeSet sh nu ∪ {(p, q)}) (by
          rintro b (hb | rfl)
          · exact hnu.1.2 hb
          · exact ham) (by
          rintro i j hij (h | h)
          · exact Or.inl (shape_left hij h)
          · obtain ⟨rfl, rfl⟩ := Prod.mk.inj h
            exact Or.inl (hnu.2.sub (hmin _ hij (by dsimp only; omega)))) (by
          rintro i j hij (h | h)
          · exact Or.inl (shape_above hnu.1.1 hij h)
          · obtain ⟨rfl, rfl⟩ := Prod.mk.inj h
            exact Or.inl (hnu.2.sub (hmin _ hij (by dsimp only; omega))))
      have h3 : ∀ b, b ∈ shapeSet sh nu' ↔ b ∈ shapeSet sh nu ∨ b = (p, q) := fun b => by rw [h2]; exact Iff.rfl
      refine ⟨nu', ?_, h3⟩
      rw [Finset.mem_filter, mem_shapesIn]
      refine ⟨⟨h1, fun b hb => ?_⟩, hx, fun b hb => (h3 b).2 (Or.inl (hnu.2.sub hb)), fun i j h4 h5 => ?_⟩
      · rcases (h3 b).1 hb with h | rfl
        · exact hnu.1.2 h
        · exact ham
      · rcases (h3 _).1 h4 with h | h
        · have := hnu.2.corner i j h h5
          have h6 := hnu.1.2 h
          refine ⟨fun h7 => ?_, fun h7 => ?_⟩
          · rcases (h3 _).1 h7 with h8 | h8
            · exact this.1 h8
            · obtain ⟨e1, e2⟩ := Prod.mk.inj h8
              exact h5 (hmin _ h6 (by dsimp only; omega))
          · rcases (h3 _).1 h7 with h8 | h8
            · exact this.2 h8
            · obtain ⟨e1, e2⟩ := Prod.mk.inj h8
              exact h5 (hmin _ h6 (by dsimp only; omega))
        · obtain ⟨rfl, rfl⟩ := Prod.mk.inj h
          refine ⟨fun h7 => ?_, fun h7 => ?_⟩
          · rcases (h3 _).1 h7 with h8 | h8
            · exact ha (shape_left ham h8)
            · obtain ⟨e1, e2⟩ := Prod.mk.inj h8
              omega
          · rcases (h3 _).1 h7 with h8 | h8
            · exact ha (shape_above hnu.1.1 ham h8)
            · obtain ⟨e1, e2⟩ := Prod.mk.inj h8
              omega
    have hflip : ∀ nu, nu ∈ (shapesIn sh mu).filter (fun nu => LessCorners sh nu x) →
        ∃ nu', nu' ∈ (shapesIn sh mu).filter (fun nu => LessCorners sh nu x) ∧
          (∀ b, b ≠ (p, q) → (b ∈ shapeSet sh nu' ↔ b ∈ shapeSet sh nu)) ∧
          ((p, q) ∈ shapeSet sh nu' ↔ (p, q) ∉ shapeSet sh nu) := by
      intro nu hnu
      by_cases ha : (p, q) ∈ shapeSet sh nu
      · obtain ⟨nu', h1, h2⟩ := hdown nu hnu ha
        refine ⟨nu', h1, fun b hb => ?_, ?_⟩
        · rw [h2]; tauto
        · rw [h2]; tauto
      · obtain ⟨nu', h1, h2⟩ := hup nu hnu ha
        refine ⟨nu', h1, fun b hb => ?_, ?_⟩
        · rw [h2]; tauto
        · rw [h2]; tauto
    choose! F hF1 hF2 hF3 using hflip
    have hshape : ∀ nu, nu ∈ (shapesIn sh mu).filter (fun nu => LessCorners sh nu x) → IsShape sh nu ∧
        nu.sum ≤ mu.sum := by
      intro nu hnu
      rw [Finset.mem_filter, mem_shapesIn] at hnu
      exact ⟨hnu.1.1, sum_le_of_subset hnu.1.2⟩
    refine Finset.sum_involution (fun nu _ => F nu) ?_ ?_ (fun nu hnu => hF1 nu hnu) ?_
    · intro nu hnu
      have e1 := (hshape nu hnu).2
      have e2 := (hshape _ (hF1 nu hnu)).2
      by_cases ha : (p, q) ∈ shapeSet sh nu
      · have h1 : nu.sum = (F nu).sum + 1 := sum_of_insert (sh := sh) (a := (p, q)) (by rw [hF3 nu hnu]; exact not_not.2 ha) (fun b => by
          by_cases hb : b = (p, q)
          · subst hb; simp [ha]
          · rw [hF2 nu hnu b hb]; simp [hb])
        rw [show mu.sum - (F nu).sum = mu.sum - nu.sum + 1 by omega, pow_succ]
        ring
      · have h1 : (F nu).sum = nu.sum + 1 := sum_of_insert (sh := sh) (a := (p, q)) ha (fun b => by
          by_cases hb : b = (p, q)
          · subst hb; simp [hF3 nu hnu, ha]
          · rw [hF2 nu hnu b hb]; simp [hb])
        rw [show mu.sum - nu.sum = mu.sum - (F nu).sum + 1 by omega, pow_succ]
        ring
    · intro nu hnu _ he
      have := hF3 nu hnu
      rw [he] at this
      tauto
    · intro nu hnu
      refine shapeSet_inj (hshape _ (hF1 _ (hF1 nu hnu))).1 (hshape nu hnu).1 (Set.ext (fun b => ?_))
      by_cases hb : b = (p, q)
      · subst hb
        rw [hF3 _ (hF1 nu hnu), hF3 nu hnu, not_not]
      · rw [hF2 _ (hF1 nu hnu) b hb, hF2 nu hnu b hb]

end Verif.Tableaux

namespace Verif.Symm

open Tab Tableaux Verif.Part Partition

/-- `β^k`. -/
noncomputable def betaPow (k : Int) : PolyVal := PolyVal.mk ((Poly.pow Poly.beta k).getD Poly.one)

theorem pow_betaPow (k : Int) : ∃ r, Poly.pow Poly.beta k = some r ∧ PolyVal.mk r = betaPow k := by
  obtain ⟨r, h1, _⟩ := pow_beta k
  exact ⟨r, h1, by rw [betaPow, h1]; rfl⟩

theorem den_betaPow (k : Int) : (betaPow k).den = Laurent.xpow 0 k := by
  obtain ⟨r, h1, h2⟩ := pow_beta k
  rw [betaPow, h1]
  exact h2

theorem xpow_zero_add (a b : Int) : Laurent.xpow 0 a * Laurent.xpow 0 b = Laurent.xpow 0 (a + b) := by
  rw [Laurent.xpow, Laurent.xpow, Laurent.xpow, AddMonoidAlgebra.single_mul_single, ← Finsupp.single_add, one_mul]

theorem betaPow_nat {a b : Nat} (h : b ≤ a) : betaPow ((a : Int) - b) = PolyVal.mk Poly.beta ^ (a - b) := by
  apply PolyVal.den_injective
  rw [den_betaPow, PolyVal.den_pow, PolyVal.den_mk, den_beta, ← xpow_nat]
  congr 1
  omega

/-- The monomial of a tableau. -/
noncomputable def varMono (v : Int → Poly) (n : Nat) (T : Tab) : Laurent :=
  ∏ i ∈ Finset.range n, xden v (i + 1) ^ (T.entries.count ((i : ℤ) + 1) + T.entries.count (-((i : ℤ) + 1)))

theorem varMono_x (n : Nat) (T : Tab) : varMono Poly.x n T = ∏ i ∈ Finset.range n,
    Laurent.xpow ((i : ℤ) + 1) ((T.entries.count ((i : ℤ) + 1) + T.entries.count (-((i : ℤ) + 1)) : Nat) : ℤ) := by
  refine Finset.prod_congr rfl (fun i _ => ?_)
  rw [den_x, AddMonoidAlgebra.single_pow, Laurent.xpow]
  congr 1
  · simp
  · simp

/-- A family of functions given by the tableaux for some rules; each variable belongs to `per` letters. -/
structure SkewFamily (R : Rules) (per : Nat) (skew : Nat → List Nat → List Nat → Option Int → Option SymPoly) : Prop where
  inj : Function.Injective R.val
  sv : R.sv = true
  pos : 0 < per
  periodic : ∀ n, Periodic R (per * n)
  spec : ∀ (n : Nat) (mu x : List Nat) (bound : Option Int), IsShape R.sh mu → IsShape R.sh x →
    ∃ f, skew n mu x bound = some f ∧ IsSym n f ∧ Vec.NoZero f ∧ ∀ v, (polynomial v n f).den =
      ∑ T ∈ (allTabs R x (per * n) mu).filter (fun T => within bound T.entries.length),
        Laurent.xpow 0 ((T.entries.length : Int) - T.items.length) * varMono v n T
  letters : ∀ (n : Nat) (mu x : List Nat) (T : Tab), IsTab R x (per * n) mu T → ∀ y : Nat → Laurent,
    ∏ k ∈ Finset.range (per * n), (Laurent.xpow 0 1 * y (k / per)) ^ (boxesWith T (R.val (k + 1))).card =
      Laurent.xpow 0 (T.entries.length : Int) *
        ∏ i ∈ Finset.range n, y i ^ (T.entries.count ((i : ℤ) + 1) + T.entries.count (-((i : ℤ) + 1)))

/-- The function as a total one. -/
def skewD (skew : Nat → List Nat → List Nat → Option Int → Option SymPoly) (n : Nat) (mu x : List Nat)
    (bound : Option Int) : SymPoly := (skew n mu x bound).getD (mkSym n Dict.empty)

theorem isSym_empty (n : Nat) : IsSym n (mkSym n Dict.empty) := ⟨rfl, fun mu h => by
  simp [mkSym, Vec.mk', Dict.filter, Dict.keys, Dict.empty] at h⟩

theorem get_empty (n : Nat) (k : List Nat) : (mkSym n Dict.empty).get k = 0 := by
  rw [mkSym, Vec.get_mk']
  rfl

theorem polynomial_empty (v : Int → Poly) (n : Nat) : (polynomial v n (mkSym n Dict.empty)).den = 0 := by
  rw [den_polynomial v n (fun k hk => ((isSym_empty n).keys k hk).1), phi]
  have : (mkSym n Dict.empty).den = 0 := by
    ext k
    rw [Vec.den_apply, get_empty, Finsupp.zero_apply]
  rw [this, Finsupp.sum_zero_index]

variable {R : Rules} {per : Nat} {skew : Nat → List Nat → List Nat → Option Int → Option SymPoly}

theorem doublebar_fold (H : SkewFamily R per skew) (n : Nat) {mu : List Nat} (hm : IsShape R.sh mu) (nu : List Nat)
    (bound : Option Int) (xs : List (List Nat)) (hxs : ∀ x ∈ xs, IsShape R.sh x) (ans : SymPoly) (ha : IsSym n ans)
    (h0 : Vec.NoZero ans) :
    ∃ f, (xs.map some).foldlM (doublebarStep (fun x => skew n mu x bound) nu) ans = some f ∧ IsSym n f ∧ Vec.NoZero f ∧
      (∀ k, f.get k = ans.get k + (xs.map (fun x => (skewD skew n mu x bound).get k *
        betaPow ((nu.sum : Int) - x.sum))).sum) ∧
      ∀ v, (polynomial v n f).den = (polynomial v n ans).den + (xs.map (fun x =>
        (polynomial v n (skewD skew n mu x bound)).den * Laurent.xpow 0 ((nu.sum : Int) - x.sum))).sum := by
  induction xs generalizing ans with
  | nil => exact ⟨ans, rfl, ha, h0, fun k => by simp, fun v => by simp⟩
  | cons x xs ih =>
    obtain ⟨g, g1, g2, g3, _⟩ := H.spec n mu x bound hm (hxs x (by simp))
    obtain ⟨b, hb1, hb2⟩ := pow_betaPow ((nu.sum : Int) - x.sum)
    have hs := isSym_smul g2 (betaPow ((nu.sum : Int) - x.sum))
    obtain ⟨f, f1, f2, f3, f4, f5⟩ := ih (fun x hx => hxs x (by simp [hx]))
      (Vec.add ans (Vec.smul g (betaPow ((nu.sum : Int) - x.sum)))) (isSym_add ha hs) (Vec.noZero_add h0)
    have hD : skewD skew n mu x bound = g := by rw [skewD, g1]; rfl
    refine ⟨f, ?_, f2, f3, fun k => ?_, fun v => ?_⟩
    · rw [List.map_cons, List.foldlM_cons, doublebarStep, g1, hb1]
      dsimp only
      rw [hb2]
      exact f1
    · rw [f4, Vec.get_add, Vec.get_smul, List.map_cons, List.sum_cons, hD, add_assoc]
    · rw [f5, polynomial_add v ha hs, polynomial_smul v g2, PolyVal.den_add, PolyVal.den_mul, den_betaPow, List.map_cons,
        List.sum_cons, hD, add_assoc]

/-- The lists of shapes that the functions sum over. -/
def ListsLess (sh : Bool) (nu : List Nat) (L : List (Option (List Nat))) : Prop :=
  L.Nodup ∧ (∀ r ∈ L, ∃ x, r = some x) ∧ ∀ x, some x ∈ L ↔ LessCorners sh nu x

theorem listsLess_eq {sh : Bool} {nu : List Nat} {L : List (Option (List Nat))} (h : ListsLess sh nu L) :
    ∃ xs : List (List Nat), L = xs.map some ∧ xs.Nodup ∧ xs.toFinset = lessCorners sh nu := by
  classical
  obtain ⟨xs, hxs⟩ : ∃ xs : List (List Nat), L = xs.map some := by
    have h2 := h.2.1
    clear h
    induction L with
    | nil => exact ⟨[], rfl⟩
    | cons r L ih =>
      obtain ⟨x, rfl⟩ := h2 r (by simp)
      obtain ⟨xs, hxs⟩ := ih (fun r hr => h2 r (by simp [hr]))
      exact ⟨x :: xs, by rw [hxs]; rfl⟩
  refine ⟨xs, hxs, ?_, ?_⟩
  · have := h.1
    rw [hxs] at this
    exact List.Nodup.of_map _ this
  · ext x
    rw [List.mem_toFinset, mem_lessCorners, ← h.2.2, hxs]
    simp

open scoped Classical in
/-- The doublebar functions as sums over shapes. -/
theorem doublebar_spec (H : SkewFamily R per skew) (n : Nat) {mu nu : List Nat} (hm : IsShape R.sh mu)
    (hn : IsShape R.sh nu) (bound : Option Int) {L : List (Option (List Nat))} (hL : ListsLess R.sh nu L) :
    ∃ f, (if contains mu nu then L.foldlM (doublebarStep (fun x => skew n mu x bound) nu) (mkSym n Dict.empty)
        else some (mkSym n Dict.empty)) = some f ∧ IsSym n f ∧ Vec.NoZero f ∧
      (∀ k, f.get k = if shapeSet R.sh nu ⊆ shapeSet R.sh mu then ∑ x ∈ lessCorners R.sh nu,
        (skewD skew n mu x bound).get k * betaPow ((nu.sum : Int) - x.sum) else 0) ∧
      ∀ v, (polynomial v n f).den = if shapeSet R.sh nu ⊆ shapeSet R.sh mu then ∑ x ∈ lessCorners R.sh nu,
        ∑ T ∈ (allTabs R x (per * n) mu).filter (fun T => within bound T.entries.length),
          Laurent.xpow 0 ((T.entries.length : Int) + nu.sum - mu.sum) * varMono v n T else 0 := by
  have hc : contains mu nu = true ↔ shapeSet R.sh nu ⊆ shapeSet R.sh mu := by
    rw [contains_iff hn.pos, shapeSet_subset]
  by_cases h : shapeSet R.sh nu ⊆ shapeSet R.sh mu
  · obtain ⟨xs, rfl, hnd, hfin⟩ := listsLess_eq hL
    have hxs : ∀ x ∈ xs, IsShape R.sh x := fun x hx => by
      rw [← List.mem_toFinset, hfin, mem_lessCorners] at hx
      exact hx.shape
    obtain ⟨f, f1, f2, f3, f4, f5⟩ := doublebar_fold H n hm nu bound xs hxs (mkSym n Dict.empty) (isSym_empty n)
      (Vec.noZero_mk' _ _)
    refine ⟨f, by rw [if_pos (hc.2 h)]; exact f1, f2, f3, fun k => ?_, fun v => ?_⟩
    · rw [f4, if_pos h, get_empty, zero_add, ← hfin, List.sum_toFinset _ hnd]
    · rw [f5, if_pos h, polynomial_empty, zero_add, ← hfin, List.sum_toFinset _ hnd]
      congr 1
      refine List.map_congr_left (fun x hx => ?_)
      obtain ⟨g, g1, g2, g3, g4⟩ := H.spec n mu x bound hm (hxs x hx)
      rw [skewD, g1, Option.getD_some, g4, Finset.sum_mul]
      refine Finset.sum_congr rfl (fun T hT => ?_)
      have hT := (mem_allTabs H.inj (hxs x hx) (per * n) hm).1 (Finset.mem_filter.1 hT).1
      have := isTab_length hT
      rw [mul_right_comm, xpow_zero_add]
      congr 2
      omega
  · refine ⟨mkSym n Dict.empty, by rw [if_neg (fun hh => h (hc.1 hh))], isSym_empty n, Vec.noZero_mk' _ _, fun k => ?_,
      fun v => ?_⟩
    · rw [if_neg h, get_empty]
    · rw [if_neg h, polynomial_empty]

/-- The doublebar functions without a bound and `barGen`. -/
theorem doublebar_barGen (H : SkewFamily R per skew) (n : Nat) {mu nu : List Nat} (hm : IsShape R.sh mu)
    {L : Laurent} (v : Int → Poly) [Decidable (shapeSet R.sh nu ⊆ shapeSet R.sh mu)]
    (hL : L = if shapeSet R.sh nu ⊆ shapeSet R.sh mu then ∑ x ∈ lessCorners R.sh nu,
        ∑ T ∈ (allTabs R x (per * n) mu).filter (fun T => within none T.entries.length),
          Laurent.xpow 0 ((T.entries.length : Int) + nu.sum - mu.sum) * varMono v n T else 0) :
    L = Laurent.xpow 0 ((nu.sum : Int) - mu.sum) *
      barGen R (per * n) mu nu (fun k => Laurent.xpow 0 1 * xden v (k / per + 1)) := by
  rw [hL, barGen]
  by_cases h : shapeSet R.sh nu ⊆ shapeSet R.sh mu
  · rw [if_pos h, if_pos h, Finset.mul_sum]
    refine Finset.sum_congr rfl (fun x hx => ?_)
    have hx := mem_lessCorners.1 hx
    rw [Finset.filter_true_of_mem (fun T _ b hb => by simp at hb), skewGen, WG, Finset.mul_sum]
    refine Finset.sum_congr rfl (fun T hT => ?_)
    have hT := (mem_allTabs H.inj hx.shape (per * n) hm).1 hT
    have := H.letters n mu x T hT (fun i => xden v (i + 1))
    simp only [tabWeight, cardOm]
    rw [this, ← mul_assoc, xpow_zero_add, varMono]
    congr 2
    ring
  · rw [if_neg h, if_neg h, mul_zero]

/-- Splitting the variables. -/
theorem doublebar_coproduct (H : SkewFamily R per skew) (n m : Nat) {mu kappa : List Nat} (hm : IsShape R.sh mu)
    (hk : IsShape R.sh kappa) (v : Int → Poly) :
    Laurent.xpow 0 ((kappa.sum : Int) - mu.sum) *
        barGen R (per * (n + m)) mu kappa (fun k => Laurent.xpow 0 1 * xden v (k / per + 1)) =
      ∑ nu ∈ shapesIn R.sh mu,
        (Laurent.xpow 0 ((kappa.sum : Int) - nu.sum) *
          barGen R (per * n) nu kappa (fun k => Laurent.xpow 0 1 * xden v (k / per + 1))) *
        (Laurent.xpow 0 ((nu.sum : Int) - mu.sum) *
          barGen R (per * m) mu nu (fun k => Laurent.xpow 0 1 * xden (fun i => v (i + n)) (k / per + 1))) := by
  rw [show per * (n + m) = per * m + per * n by ring, barGen_add H.inj H.sv (H.periodic n) (per * m) hm hk, Finset.mul_sum]
  refine Finset.sum_congr rfl (fun nu _ => ?_)
  have e : (fun k => Laurent.xpow 0 1 * xden v ((k + per * n) / per + 1)) =
      (fun k => Laurent.xpow 0 1 * xden (fun i => v (i + n)) (k / per + 1)) := by
    funext k
    rw [Nat.add_mul_div_left _ _ H.pos]
    congr 1
    rw [xden, xden]
    congr 2
    push_cast
    ring
  rw [e, show (kappa.sum : Int) - mu.sum = (kappa.sum - nu.sum) + (nu.sum - mu.sum) by ring, ← xpow_zero_add]
  ring

/-- The skew functions from the doublebar functions. -/
theorem doublebar_undo (n : Nat) {lam mu : List Nat} (hm : IsShape R.sh mu) (bound : Option Int) (k : List Nat)
    {g : List Nat → PolyVal} (hg : ∀ nu ∈ shapesIn R.sh mu, g nu = ∑ x ∈ lessCorners R.sh nu,
        (skewD skew n lam x bound).get k * betaPow ((nu.sum : Int) - x.sum)) :
    (skewD skew n lam mu bound).get k = ∑ nu ∈ shapesIn R.sh mu, (-PolyVal.mk Poly.beta) ^ (mu.sum - nu.sum) * g nu := by
  classical
  have h1 : ∀ nu ∈ shapesIn R.sh mu, (-PolyVal.mk Poly.beta) ^ (mu.sum - nu.sum) * g nu =
      ∑ x ∈ shapesIn R.sh mu, if LessCorners R.sh nu x then (-1) ^ (mu.sum - nu.sum) *
        (PolyVal.mk Poly.beta ^ (mu.sum - x.sum) * (skewD skew n lam x bound).get k) else 0 := by
    intro nu hnu
    have hnu' := mem_shapesIn.1 hnu
    rw [hg nu hnu, Finset.mul_sum, ← Finset.sum_filter]
    have hs : (shapesIn R.sh mu).filter (fun x => LessCorners R.sh nu x) = lessCorners R.sh nu := by
      ext x
      rw [Finset.mem_filter, mem_shapesIn, mem_lessCorners]
      exact ⟨fun h => h.2, fun h => ⟨⟨h.shape, h.sub.trans hnu'.2⟩, h⟩⟩
    rw [hs]
    refine Finset.sum_congr rfl (fun x hx => ?_)
    have hx := mem_lessCorners.1 hx
    have e1 := sum_le_of_subset hx.sub
    have e2 := sum_le_of_subset hnu'.2
    rw [betaPow_nat e1, neg_pow, show mu.sum - x.sum = (mu.sum - nu.sum) + (nu.sum - x.sum) by omega, pow_add]
    ring
  rw [Finset.sum_congr rfl h1, Finset.sum_comm, Finset.sum_eq_single mu]
  · rw [← Finset.sum_filter, ← Finset.sum_mul, sum_lessCorners hm hm le_rfl, if_pos rfl]
    simp
  · intro x hx hne
    have hx := mem_shapesIn.1 hx
    rw [← Finset.sum_filter, ← Finset.sum_mul, sum_lessCorners hm hx.1 hx.2, if_neg hne, zero_mul]
  · intro h
    exact absurd (mem_shapesIn.2 ⟨hm, le_rfl⟩) h

end Verif.Symm
