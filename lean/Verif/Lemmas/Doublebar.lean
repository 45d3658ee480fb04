import Verif.Lemmas.MarkedGen
import Mathlib.Data.Finset.Powerset
import Mathlib.Data.Finset.Prod
import Mathlib.Data.Set.Finite.Basic

/-! The sums behind the `doublebar` functions, letter by letter. -/

attribute [-simp] List.getD_eq_getElem?_getD

namespace Verif.Tableaux

open Tab Verif.Part Symm

/-! ### finite sets of shapes and of boxes -/

theorem finite_shapeSet (sh : Bool) (mu : List Nat) : (shapeSet sh mu).Finite := by
  have : shapeSet sh mu ⊆ ((Finset.range (mu.length + 1)) ×ˢ (Finset.range (mu.length + mu.sum + 1)) :
      Finset (Nat × Nat)) := by
    rintro ⟨i, j⟩ h
    rw [mem_shapeSet] at h
    have h1 : i - 1 < mu.length := by
      by_contra hc
      rw [List.getD_eq_default _ _ (by omega)] at h
      omega
    have h2 : mu.getD (i - 1) 0 ≤ mu.sum := by
      rw [List.getD_eq_getElem _ _ h1]
      exact List.le_sum_of_mem (List.getElem_mem _)
    have h3 : off sh i ≤ i - 1 := by
      unfold off
      split <;> omega
    simp only [Finset.coe_product, Set.mem_prod, Finset.mem_coe, Finset.mem_range]
    omega
  exact (Finset.finite_toSet _).subset this

/-- The boxes of a shape. -/
noncomputable def boxFin (sh : Bool) (mu : List Nat) : Finset (Nat × Nat) := (finite_shapeSet sh mu).toFinset

theorem mem_boxFin {sh : Bool} {mu : List Nat} {b : Nat × Nat} : b ∈ boxFin sh mu ↔ b ∈ shapeSet sh mu :=
  Set.Finite.mem_toFinset _

theorem finite_shapesIn (sh : Bool) (mu : List Nat) :
    {nu : List Nat | IsShape sh nu ∧ shapeSet sh nu ⊆ shapeSet sh mu}.Finite := by
  refine Set.Finite.of_finite_image (f := boxFin sh) (((boxFin sh mu).powerset).finite_toSet.subset ?_) ?_
  · rintro _ ⟨nu, hnu, rfl⟩
    rw [Finset.mem_coe, Finset.mem_powerset]
    intro b hb
    exact mem_boxFin.2 (hnu.2 (mem_boxFin.1 hb))
  · intro a ha b hb hab
    refine shapeSet_inj ha.1 hb.1 ?_
    ext c
    rw [← mem_boxFin, ← mem_boxFin, hab]

/-- The shapes contained in `mu`. -/
noncomputable def shapesIn (sh : Bool) (mu : List Nat) : Finset (List Nat) := (finite_shapesIn sh mu).toFinset

theorem mem_shapesIn {sh : Bool} {mu nu : List Nat} : nu ∈ shapesIn sh mu ↔
    IsShape sh nu ∧ shapeSet sh nu ⊆ shapeSet sh mu := Set.Finite.mem_toFinset _

/-! ### all moves -/

section Moves

variable (R : Rules) (lam : List Nat)

open scoped Classical in
/-- All moves for letter `k`. -/
noncomputable def moveFin (k : Nat) (mu : List Nat) : Finset (List Nat × Finset (Nat × Nat)) :=
  ((shapesIn R.sh mu) ×ˢ (boxFin R.sh mu).powerset).filter (fun m => IsMove R lam k mu m.1 (· ∈ m.2))

variable {R lam}

theorem mem_moveFin {k : Nat} {mu : List Nat} {m : List Nat × Finset (Nat × Nat)} :
    m ∈ moveFin R lam k mu ↔ IsMove R lam k mu m.1 (· ∈ m.2) := by
  classical
  rw [moveFin, Finset.mem_filter, Finset.mem_product, Finset.mem_powerset, mem_shapesIn]
  constructor
  · exact fun h => h.2
  · intro h
    exact ⟨⟨⟨h.shape, h.sub2⟩, fun b hb => mem_boxFin.2 (h.inside b hb).1⟩, h⟩

variable (R lam)

/-- All moves, as lists. -/
noncomputable def allMoves (k : Nat) (mu : List Nat) : List (List Nat × List (Nat × Nat)) :=
  (moveFin R lam k mu).toList.map (fun m => (m.1, m.2.toList))

variable {R lam}

theorem isMove_congr {k : Nat} {mu nu : List Nat} {S S' : Nat × Nat → Prop} (h : IsMove R lam k mu nu S)
    (hS : ∀ b, S b ↔ S' b) : IsMove R lam k mu nu S' := by
  obtain rfl : S = S' := funext (fun b => propext (hS b))
  exact h

theorem allMoves_lists (k : Nat) (mu : List Nat) : ListsMoves R lam k mu (allMoves R lam k mu) := by
  constructor
  · intro m hm
    obtain ⟨m', h1, rfl⟩ := List.mem_map.1 hm
    rw [Finset.mem_toList, mem_moveFin] at h1
    exact ⟨Finset.nodup_toList _, isMove_congr h1 (fun b => Finset.mem_toList.symm)⟩
  · intro nu S hS
    classical
    have hmem : ∀ b, b ∈ (boxFin R.sh mu).filter S ↔ S b := by
      intro b
      rw [Finset.mem_filter, mem_boxFin]
      exact ⟨fun h => h.2, fun h => ⟨(hS.inside b h).1, h⟩⟩
    refine ⟨(nu, ((boxFin R.sh mu).filter S).toList), List.mem_map.2 ⟨(nu, (boxFin R.sh mu).filter S), ?_, rfl⟩, rfl,
      fun b => ?_⟩
    · rw [Finset.mem_toList, mem_moveFin]
      exact isMove_congr hS (fun b => (hmem b).symm)
    · rw [Finset.mem_toList, hmem]
  · intro m hm m' hm' h1 h2
    obtain ⟨a, _, rfl⟩ := List.mem_map.1 hm
    obtain ⟨b, _, rfl⟩ := List.mem_map.1 hm'
    simp only [Finset.mem_toList] at h2
    dsimp only at h1
    rw [h1, Finset.ext (s₁ := a.2) (s₂ := b.2) h2]

variable (R lam)

/-- All tableaux. -/
noncomputable def allTabs (K : Nat) (mu : List Nat) : Finset Tab := genTabs R lam (allMoves R lam) K mu

variable {R lam}

theorem mem_allTabs (hinj : Function.Injective R.val) (hlam : IsShape R.sh lam) (K : Nat) {mu : List Nat}
    (hm : IsShape R.sh mu) {T : Tab} : T ∈ allTabs R lam K mu ↔ IsTab R lam K mu T :=
  mem_genTabs hinj hlam (fun k mu _ => allMoves_lists (k + 1) mu) K hm

variable {A : Type*} [CommRing A]

variable (R) in
/-- The generating function of the tableaux of shape `mu/lam`. -/
noncomputable def skewGen (K : Nat) (mu lam : List Nat) (y : Nat → A) : A :=
  WG (allTabs R lam K mu) K (tabWeight R cardOm) y

theorem skewGen_succ (hinj : Function.Injective R.val) (hlam : IsShape R.sh lam) (k : Nat) {mu : List Nat}
    (hm : IsShape R.sh mu) (y : Nat → A) :
    skewGen R (k + 1) mu lam y = ∑ m ∈ moveFin R lam (k + 1) mu, y k ^ m.2.card * skewGen R k m.1 lam y := by
  classical
  rw [skewGen, allTabs, WG_succ hinj hlam (fun k mu _ => allMoves_lists (k + 1) mu) cardOm k hm]
  refine (Finset.sum_bij (fun m _ => (m.1, m.2.toList)) ?_ ?_ ?_ ?_).symm
  · intro m hm
    rw [List.mem_toFinset, allMoves]
    exact List.mem_map.2 ⟨m, Finset.mem_toList.2 hm, rfl⟩
  · intro a _ b _ hab
    obtain ⟨h1, h2⟩ := Prod.mk.inj hab
    refine Prod.ext h1 (Finset.ext (fun c => ?_))
    rw [← Finset.mem_toList, h2, Finset.mem_toList]
  · intro b hb
    rw [List.mem_toFinset, allMoves] at hb
    obtain ⟨m, h1, h2⟩ := List.mem_map.1 hb
    exact ⟨m, Finset.mem_toList.1 h1, h2⟩
  · intro m _
    rw [cardOm, Finset.toList_toFinset]
    rfl

/-- The tableaux only depend on the boxes of `mu/lam`. -/
theorem skewGen_congr (hinj : Function.Injective R.val) {lam lam' mu mu' : List Nat} (hl : IsShape R.sh lam)
    (hl' : IsShape R.sh lam') (hm : IsShape R.sh mu) (hm' : IsShape R.sh mu') (h1 : shapeSet R.sh lam ⊆ shapeSet R.sh mu)
    (h2 : shapeSet R.sh lam' ⊆ shapeSet R.sh mu')
    (h : ∀ b, (b ∈ shapeSet R.sh mu ∧ b ∉ shapeSet R.sh lam) ↔ (b ∈ shapeSet R.sh mu' ∧ b ∉ shapeSet R.sh lam'))
    (K : Nat) (y : Nat → A) : skewGen R K mu lam y = skewGen R K mu' lam' y := by
  rw [skewGen, skewGen]
  congr 1
  ext T
  rw [mem_allTabs hinj hl K hm, mem_allTabs hinj hl' K hm']
  constructor
  · intro hT
    exact ⟨hT.canon, h2, fun b => (hT.dom b).trans (h b), hT.range, hT.single, hT.row, hT.col, hT.diag⟩
  · intro hT
    exact ⟨hT.canon, h1, fun b => (hT.dom b).trans (h b).symm, hT.range, hT.single, hT.row, hT.col, hT.diag⟩

theorem skewGen_eq_zero (hinj : Function.Injective R.val) {mu lam : List Nat} (hl : IsShape R.sh lam)
    (hm : IsShape R.sh mu) (h : ¬ shapeSet R.sh lam ⊆ shapeSet R.sh mu) (K : Nat) (y : Nat → A) :
    skewGen R K mu lam y = 0 := by
  rw [skewGen, WG, Finset.sum_eq_zero]
  intro T hT
  exact absurd ((mem_allTabs hinj hl K hm).1 hT).sub h

theorem skewGen_zero {mu lam : List Nat} (y : Nat → A) : skewGen R 0 mu lam y = if mu = lam then 1 else 0 := by
  rw [skewGen, WG, allTabs, genTabs]
  split <;> simp

end Moves

/-! ### doublebar sums -/

/-- `x` is `kappa` without some of its corners. -/
structure LessCorners (sh : Bool) (kappa x : List Nat) : Prop where
  shape : IsShape sh x
  sub : shapeSet sh x ⊆ shapeSet sh kappa
  corner : ∀ i j, (i, j) ∈ shapeSet sh kappa → (i, j) ∉ shapeSet sh x →
    (i, j + 1) ∉ shapeSet sh kappa ∧ (i + 1, j) ∉ shapeSet sh kappa

open scoped Classical in
/-- All `kappa` without some of its corners. -/
noncomputable def lessCorners (sh : Bool) (kappa : List Nat) : Finset (List Nat) :=
  (shapesIn sh kappa).filter (LessCorners sh kappa)

theorem mem_lessCorners {sh : Bool} {kappa x : List Nat} : x ∈ lessCorners sh kappa ↔ LessCorners sh kappa x := by
  classical
  rw [lessCorners, Finset.mem_filter, mem_shapesIn]
  exact ⟨fun h => h.2, fun h => ⟨⟨h.shape, h.sub⟩, h⟩⟩

/-- Letter `k` may be put into the boxes `S` on top of the shape `nu` to get `mu`, where the corners of `nu` may be
used too. -/
structure IsBarMove (R : Rules) (k : Nat) (mu nu : List Nat) (S : Nat × Nat → Prop) : Prop where
  shape : IsShape R.sh nu
  sub : shapeSet R.sh nu ⊆ shapeSet R.sh mu
  diff : ∀ b, b ∈ shapeSet R.sh mu → b ∉ shapeSet R.sh nu → S b
  inside : ∀ b, S b → b ∈ shapeSet R.sh mu
  corner : ∀ i j, S (i, j) → (i, j) ∈ shapeSet R.sh nu →
    (i, j + 1) ∉ shapeSet R.sh nu ∧ (i + 1, j) ∉ shapeSet R.sh nu
  row : ∀ i j, S (i, j) → (i, j + 1) ∈ shapeSet R.sh mu → (i, j + 1) ∉ shapeSet R.sh nu → R.rowRep k
  col : ∀ i j, S (i, j) → (i + 1, j) ∈ shapeSet R.sh mu → (i + 1, j) ∉ shapeSet R.sh nu → R.colRep k
  diag : ∀ i, S (i, i) → R.diag k

open scoped Classical in
/-- All such moves. -/
noncomputable def barMoves (R : Rules) (k : Nat) (mu : List Nat) : Finset (List Nat × Finset (Nat × Nat)) :=
  ((shapesIn R.sh mu) ×ˢ (boxFin R.sh mu).powerset).filter (fun m => IsBarMove R k mu m.1 (· ∈ m.2))

theorem mem_barMoves {R : Rules} {k : Nat} {mu : List Nat} {m : List Nat × Finset (Nat × Nat)} :
    m ∈ barMoves R k mu ↔ IsBarMove R k mu m.1 (· ∈ m.2) := by
  classical
  rw [barMoves, Finset.mem_filter, Finset.mem_product, Finset.mem_powerset, mem_shapesIn]
  constructor
  · exact fun h => h.2
  · intro h
    exact ⟨⟨⟨h.shape, h.sub⟩, fun b hb => mem_boxFin.2 (h.inside b hb)⟩, h⟩

variable {R : Rules} {A : Type*} [CommRing A]

open scoped Classical in
variable (R) in
/-- The sum over `kappa` without some of its corners. -/
noncomputable def barGen (K : Nat) (mu kappa : List Nat) (y : Nat → A) : A :=
  if shapeSet R.sh kappa ⊆ shapeSet R.sh mu then ∑ x ∈ lessCorners R.sh kappa, skewGen R K mu x y else 0

/-- The union of two shapes contained in a shape. -/
theorem exists_union {sh : Bool} {mu nu kappa : List Nat} (hm : IsShape sh mu) (hn : IsShape sh nu) (hk : IsShape sh kappa)
    (h1 : shapeSet sh nu ⊆ shapeSet sh mu) (h2 : shapeSet sh kappa ⊆ shapeSet sh mu) :
    ∃ u, IsShape sh u ∧ ∀ b, b ∈ shapeSet sh u ↔ b ∈ shapeSet sh nu ∨ b ∈ shapeSet sh kappa := by
  obtain ⟨u, hu, hs⟩ := exists_shape hm (shapeSet sh nu ∪ shapeSet sh kappa) (Set.union_subset h1 h2)
    (fun i j hij h => h.elim (fun h => Or.inl (shape_left hij h)) (fun h => Or.inr (shape_left hij h)))
    (fun i j hij h => h.elim (fun h => Or.inl (shape_above hn hij h)) (fun h => Or.inr (shape_above hk hij h)))
  exact ⟨u, hu, fun b => by rw [hs]; exact Iff.rfl⟩

/-- A shape without some of its corners. -/
theorem exists_less {sh : Bool} {mu : List Nat} (hm : IsShape sh mu) (S : Set (Nat × Nat))
    (hS : ∀ i j, (i, j) ∈ S → (i, j) ∈ shapeSet sh mu → (i, j + 1) ∉ shapeSet sh mu ∧ (i + 1, j) ∉ shapeSet sh mu) :
    ∃ u, IsShape sh u ∧ ∀ b, b ∈ shapeSet sh u ↔ b ∈ shapeSet sh mu ∧ b ∉ S := by
  obtain ⟨u, hu, hs⟩ := exists_shape hm (shapeSet sh mu \ S) Set.sdiff_subset
    (fun i j hij h => ⟨hij, fun hc => (hS i j hc hij).1 h.1⟩) (fun i j hij h => ⟨hij, fun hc => (hS i j hc hij).2 h.1⟩)
  exact ⟨u, hu, fun b => by rw [hs]; exact Iff.rfl⟩

/-- How the inner shape `x` and the shape `nu0` without the last letter correspond to `nu` and `x'`. -/
def BarRel (sh : Bool) (kappa : List Nat) (p q : List Nat × List Nat) : Prop :=
  (∀ b, b ∈ shapeSet sh q.1 ↔ b ∈ shapeSet sh p.2 ∨ b ∈ shapeSet sh kappa) ∧
  (∀ b, b ∈ shapeSet sh q.2 ↔ b ∈ shapeSet sh p.1 ∨ (b ∈ shapeSet sh kappa ∧ b ∉ shapeSet sh p.2))

theorem barRel_forward {k : Nat} {mu kappa : List Nat} (hm : IsShape R.sh mu)
    (hk : IsShape R.sh kappa) (hsub : shapeSet R.sh kappa ⊆ shapeSet R.sh mu) {S : Nat × Nat → Prop} {x nu0 : List Nat}
    (hx : LessCorners R.sh kappa x) (hmv : IsMove R x k mu nu0 S) :
    ∃ nu x', IsBarMove R k mu nu S ∧ shapeSet R.sh kappa ⊆ shapeSet R.sh nu ∧ LessCorners R.sh kappa x' ∧
      BarRel R.sh kappa (x, nu0) (nu, x') := by
  obtain ⟨nu, hn, hnu⟩ := exists_union hm hmv.shape hk hmv.sub2 hsub
  obtain ⟨x', hx', hx's⟩ := exists_less hk {b | b ∈ shapeSet R.sh nu0 ∧ b ∉ shapeSet R.sh x}
    (fun i j h1 h2 => hx.corner i j h2 h1.2)
  have hxs : ∀ b, b ∈ shapeSet R.sh x' ↔ b ∈ shapeSet R.sh x ∨ (b ∈ shapeSet R.sh kappa ∧ b ∉ shapeSet R.sh nu0) := by
    intro b
    have e1 := hx's b
    have e2 := @hx.sub b
    rw [Set.mem_ofPred_eq] at e1
    tauto
  have hSx : ∀ b, S b → b ∉ shapeSet R.sh x := fun b hb => (hmv.inside b hb).2
  refine ⟨nu, x', ⟨hn, ?_, ?_, fun b hb => (hmv.inside b hb).1, ?_, ?_, ?_, hmv.diag⟩, fun b hb => (hnu b).2 (Or.inr hb),
    ⟨hx', fun b hb => ((hx's b).1 hb).1, ?_⟩, hnu, hxs⟩
  · intro b hb
    rcases (hnu b).1 hb with h | h
    · exact hmv.sub2 h
    · exact hsub h
  · intro b h1 h2
    exact hmv.diff b h1 (fun h => h2 ((hnu b).2 (Or.inl h)))
  · intro i j h1 h2
    have hin := (hmv.inside _ h1).1
    have hkc : (i, j) ∈ shapeSet R.sh kappa → (i, j + 1) ∉ shapeSet R.sh kappa ∧ (i + 1, j) ∉ shapeSet R.sh kappa :=
      fun h => hx.corner i j h (hSx _ h1)
    have hnc : (i, j) ∈ shapeSet R.sh nu0 → (i, j + 1) ∉ shapeSet R.sh nu0 ∧ (i + 1, j) ∉ shapeSet R.sh nu0 :=
      fun h => (hmv.corner i j h1 h).2
    constructor
    · intro h
      rcases (hnu _).1 h with h | h
      · exact (hnc (shape_left hin h)).1 h
      · exact (hkc (shape_left hin h)).1 h
    · intro h
      rcases (hnu _).1 h with h | h
      · exact (hnc (shape_above hmv.shape hin h)).2 h
      · exact (hkc (shape_above hk hin h)).2 h
  · intro i j h1 h2 h3
    exact hmv.row i j h1 h2 (fun h => h3 ((hnu _).2 (Or.inl h)))
  · intro i j h1 h2 h3
    exact hmv.col i j h1 h2 (fun h => h3 ((hnu _).2 (Or.inl h)))
  · intro i j h1 h2
    exact hx.corner i j h1 (fun h => h2 ((hxs _).2 (Or.inl h)))

theorem barRel_backward (hsv : R.sv = true) {k : Nat} {mu kappa : List Nat} {S : Nat × Nat → Prop}
    {nu x' : List Nat} (hmv : IsBarMove R k mu nu S) (hkn : shapeSet R.sh kappa ⊆ shapeSet R.sh nu)
    (hx : LessCorners R.sh kappa x') :
    ∃ x nu0, LessCorners R.sh kappa x ∧ IsMove R x k mu nu0 S ∧ BarRel R.sh kappa (x, nu0) (nu, x') := by
  have hxn : ∀ b, b ∈ shapeSet R.sh x' → b ∈ shapeSet R.sh nu := fun b hb => hkn (hx.sub hb)
  obtain ⟨x, hx1, hx2⟩ := exists_less hx.shape {b | S b} (fun i j h1 h2 => by
    have := hmv.corner i j h1 (hxn _ h2)
    exact ⟨fun h => this.1 (hxn _ h), fun h => this.2 (hxn _ h)⟩)
  obtain ⟨nu0, hn1, hn2⟩ := exists_less hmv.shape {b | S b ∧ b ∈ shapeSet R.sh x'} (fun i j h1 h2 =>
    hmv.corner i j h1.1 h2)
  simp only [Set.mem_ofPred_eq] at hx2 hn2
  refine ⟨x, nu0, ⟨hx1, fun b hb => hx.sub ((hx2 b).1 hb).1, ?_⟩, ⟨hn1, ?_, ?_, ?_, ?_, ?_, ?_, ?_, hmv.diag⟩, ?_, ?_⟩
  · intro i j h1 h2
    by_cases h3 : (i, j) ∈ shapeSet R.sh x'
    · have h4 : S (i, j) := by
        by_contra hc
        exact h2 ((hx2 _).2 ⟨h3, hc⟩)
      have := hmv.corner i j h4 (hkn h1)
      exact ⟨fun h => this.1 (hkn h), fun h => this.2 (hkn h)⟩
    · exact hx.corner i j h1 h3
  · intro b hb
    have := (hx2 b).1 hb
    exact (hn2 b).2 ⟨hxn b this.1, fun h => this.2 h.1⟩
  · intro b hb
    exact hmv.sub ((hn2 b).1 hb).1
  · intro b h1 h2
    by_cases h3 : b ∈ shapeSet R.sh nu
    · by_contra hc
      exact h2 ((hn2 b).2 ⟨h3, fun h => hc h.1⟩)
    · exact hmv.diff b h1 h3
  · intro b hb
    exact ⟨hmv.inside b hb, fun h => ((hx2 b).1 h).2 hb⟩
  · intro i j h1 h2
    have := hmv.corner i j h1 ((hn2 _).1 h2).1
    exact ⟨hsv, fun h => this.1 ((hn2 _).1 h).1, fun h => this.2 ((hn2 _).1 h).1⟩
  · intro i j h1 h2 h3
    refine hmv.row i j h1 h2 (fun h => ?_)
    exact (hmv.corner i j h1 (shape_left (hmv.inside _ h1) h)).1 h
  · intro i j h1 h2 h3
    refine hmv.col i j h1 h2 (fun h => ?_)
    exact (hmv.corner i j h1 (shape_above hmv.shape (hmv.inside _ h1) h)).2 h
  · intro b
    have e1 := hn2 b
    have e2 := @hkn b
    have e3 := @hx.sub b
    dsimp only
    tauto
  · intro b
    have e1 := hn2 b
    have e2 := @hkn b
    have e3 := @hx.sub b
    have e4 := hx2 b
    dsimp only
    tauto

theorem barRel_inj {k : Nat} {mu kappa : List Nat} (hsub : shapeSet R.sh kappa ⊆ shapeSet R.sh mu) {S : Nat × Nat → Prop}
    {x nu0 x' nu0' : List Nat} {q : List Nat × List Nat} (hmv : IsMove R x k mu nu0 S) (hmv' : IsMove R x' k mu nu0' S)
    (h : BarRel R.sh kappa (x, nu0) q) (h' : BarRel R.sh kappa (x', nu0') q) (b : Nat × Nat) :
    (b ∈ shapeSet R.sh x ↔ b ∈ shapeSet R.sh x') ∧ (b ∈ shapeSet R.sh nu0 ↔ b ∈ shapeSet R.sh nu0') := by
  have a1 : (b ∈ shapeSet R.sh nu0 ∨ b ∈ shapeSet R.sh kappa) ↔ (b ∈ shapeSet R.sh nu0' ∨ b ∈ shapeSet R.sh kappa) :=
    (h.1 b).symm.trans (h'.1 b)
  have a2 : (b ∈ shapeSet R.sh x ∨ (b ∈ shapeSet R.sh kappa ∧ b ∉ shapeSet R.sh nu0)) ↔
      (b ∈ shapeSet R.sh x' ∨ (b ∈ shapeSet R.sh kappa ∧ b ∉ shapeSet R.sh nu0')) := (h.2 b).symm.trans (h'.2 b)
  have a5 : b ∈ shapeSet R.sh kappa → b ∉ shapeSet R.sh nu0 → S b := fun h => hmv.diff b (hsub h)
  have a6 : b ∈ shapeSet R.sh kappa → b ∉ shapeSet R.sh nu0' → S b := fun h => hmv'.diff b (hsub h)
  have a7 : S b → b ∉ shapeSet R.sh x := fun h => (hmv.inside b h).2
  have a8 : S b → b ∉ shapeSet R.sh x' := fun h => (hmv'.inside b h).2
  have a9 : b ∈ shapeSet R.sh x → b ∈ shapeSet R.sh nu0 := @hmv.sub1 b
  have a10 : b ∈ shapeSet R.sh x' → b ∈ shapeSet R.sh nu0' := @hmv'.sub1 b
  clear h h' hmv hmv' hsub
  by_cases hk : b ∈ shapeSet R.sh kappa
  · by_cases hS : S b
    · have n1 := a7 hS
      have n2 := a8 hS
      refine ⟨⟨fun h => absurd h n1, fun h => absurd h n2⟩, ?_⟩
      by_contra hc
      have : ¬ (b ∈ shapeSet R.sh nu0) ↔ ¬ (b ∈ shapeSet R.sh nu0') := by
        constructor
        · intro h
          exact (a2.1 (Or.inr ⟨hk, h⟩)).elim (fun h => absurd h n2) (fun h => h.2)
        · intro h
          exact (a2.2 (Or.inr ⟨hk, h⟩)).elim (fun h => absurd h n1) (fun h => h.2)
      exact hc (not_iff_not.1 this)
    · have n1 : b ∈ shapeSet R.sh nu0 := by
        by_contra h
        exact hS (a5 hk h)
      have n2 : b ∈ shapeSet R.sh nu0' := by
        by_contra h
        exact hS (a6 hk h)
      refine ⟨⟨fun h => ?_, fun h => ?_⟩, ⟨fun _ => n2, fun _ => n1⟩⟩
      · exact (a2.1 (Or.inl h)).elim id (fun h => absurd n2 h.2)
      · exact (a2.2 (Or.inl h)).elim id (fun h => absurd n1 h.2)
  · refine ⟨⟨fun h => ?_, fun h => ?_⟩, ⟨fun h => ?_, fun h => ?_⟩⟩
    · exact (a2.1 (Or.inl h)).elim id (fun h => absurd h.1 hk)
    · exact (a2.2 (Or.inl h)).elim id (fun h => absurd h.1 hk)
    · exact (a1.1 (Or.inl h)).elim id (fun h => absurd h hk)
    · exact (a1.2 (Or.inl h)).elim id (fun h => absurd h hk)

/-- The last letter of a doublebar sum. -/
theorem barGen_succ (hinj : Function.Injective R.val) (hsv : R.sv = true) (k : Nat) {mu kappa : List Nat}
    (hm : IsShape R.sh mu) (hk : IsShape R.sh kappa) (y : Nat → A) :
    barGen R (k + 1) mu kappa y = ∑ m ∈ barMoves R (k + 1) mu, y k ^ m.2.card * barGen R k m.1 kappa y := by
  classical
  by_cases hsub : shapeSet R.sh kappa ⊆ shapeSet R.sh mu
  · have hL : barGen R (k + 1) mu kappa y = ∑ p ∈ (lessCorners R.sh kappa).sigma (fun x => moveFin R x (k + 1) mu),
        y k ^ p.2.2.card * skewGen R k p.2.1 p.1 y := by
      rw [barGen, if_pos hsub, Finset.sum_sigma]
      refine Finset.sum_congr rfl (fun x hx => ?_)
      exact skewGen_succ hinj (mem_lessCorners.1 hx).shape k hm y
    have hR : ∑ m ∈ barMoves R (k + 1) mu, y k ^ m.2.card * barGen R k m.1 kappa y =
        ∑ q ∈ ((barMoves R (k + 1) mu).filter (fun m => shapeSet R.sh kappa ⊆ shapeSet R.sh m.1)) ×ˢ
          (lessCorners R.sh kappa), y k ^ q.1.2.card * skewGen R k q.1.1 q.2 y := by
      rw [Finset.sum_product, Finset.sum_filter]
      refine Finset.sum_congr rfl (fun m hm => ?_)
      rw [barGen]
      by_cases h : shapeSet R.sh kappa ⊆ shapeSet R.sh m.1
      · rw [if_pos h, if_pos h, Finset.mul_sum]
      · rw [if_neg h, if_neg h, mul_zero]
    rw [hL, hR]
    have hf : ∀ p ∈ (lessCorners R.sh kappa).sigma (fun x => moveFin R x (k + 1) mu), ∃ q : List Nat × List Nat,
        IsBarMove R (k + 1) mu q.1 (· ∈ p.2.2) ∧ shapeSet R.sh kappa ⊆ shapeSet R.sh q.1 ∧ LessCorners R.sh kappa q.2 ∧
        BarRel R.sh kappa (p.1, p.2.1) q := by
      intro p hp
      rw [Finset.mem_sigma, mem_lessCorners, mem_moveFin] at hp
      obtain ⟨nu, x', h1, h2, h3, h4⟩ := barRel_forward hm hk hsub hp.1 hp.2
      exact ⟨(nu, x'), h1, h2, h3, h4⟩
    choose! F hF using hf
    refine Finset.sum_bij (fun p _ => (((F p).1, p.2.2), (F p).2)) ?_ ?_ ?_ ?_
    · intro p hp
      obtain ⟨h1, h2, h3, h4⟩ := hF p hp
      rw [Finset.mem_product, Finset.mem_filter, mem_barMoves, mem_lessCorners]
      exact ⟨⟨h1, h2⟩, h3⟩
    · intro p hp p' hp' he
      obtain ⟨_, _, _, h4⟩ := hF p hp
      obtain ⟨_, _, _, h4'⟩ := hF p' hp'
      obtain ⟨he1, he2⟩ := Prod.mk.inj he
      obtain ⟨he1, he3⟩ := Prod.mk.inj he1
      rw [Finset.mem_sigma, mem_lessCorners, mem_moveFin] at hp hp'
      obtain ⟨x, nu0, S⟩ := p
      obtain ⟨x', nu0', S'⟩ := p'
      dsimp only at *
      subst he3
      obtain ⟨hx, hmv⟩ := hp
      obtain ⟨hx', hmv'⟩ := hp'
      rw [← Prod.ext he1 he2] at h4'
      have hb := barRel_inj hsub hmv hmv' h4 h4'
      obtain rfl := shapeSet_inj hx.shape hx'.shape (Set.ext (fun b => (hb b).1))
      obtain rfl := shapeSet_inj hmv.shape hmv'.shape (Set.ext (fun b => (hb b).2))
      rfl
    · rintro ⟨⟨nu, S⟩, x'⟩ hq
      rw [Finset.mem_product, Finset.mem_filter, mem_barMoves, mem_lessCorners] at hq
      obtain ⟨⟨hmv, hkn⟩, hx'⟩ := hq
      obtain ⟨x, nu0, h1, h2, h3⟩ := barRel_backward hsv hmv hkn hx'
      have hp : (⟨x, (nu0, S)⟩ : (_ : List Nat) × (List Nat × Finset (Nat × Nat))) ∈
          (lessCorners R.sh kappa).sigma (fun x => moveFin R x (k + 1) mu) := by
        rw [Finset.mem_sigma, mem_lessCorners, mem_moveFin]
        exact ⟨h1, h2⟩
      refine ⟨_, hp, ?_⟩
      obtain ⟨g1, _, g3, g4⟩ := hF _ hp
      dsimp only at *
      have e1 : (F ⟨x, (nu0, S)⟩).1 = nu := shapeSet_inj g1.shape hmv.shape
        (Set.ext (fun b => (g4.1 b).trans (h3.1 b).symm))
      have e2 : (F ⟨x, (nu0, S)⟩).2 = x' := shapeSet_inj g3.shape hx'.shape
        (Set.ext (fun b => (g4.2 b).trans (h3.2 b).symm))
      rw [e1, e2]
    · intro p hp
      obtain ⟨g1, g2, g3, g4⟩ := hF p hp
      rw [Finset.mem_sigma, mem_lessCorners, mem_moveFin] at hp
      congr 1
      refine skewGen_congr hinj hp.1.shape g3.shape hp.2.shape g1.shape hp.2.sub1 (fun b hb => g2 (g3.sub hb)) ?_ k y
      intro b
      have a1 := g4.1 b
      have a2 := g4.2 b
      have a3 := @hp.2.sub1 b
      have a4 := hp.1.sub
      have a5 := @a4 b
      dsimp only at a1 a2
      tauto
  · rw [barGen, if_neg hsub]
    refine (Finset.sum_eq_zero (fun m hm => ?_)).symm
    rw [barGen, if_neg, mul_zero]
    exact fun h => hsub (h.trans (mem_barMoves.1 hm).sub)

theorem barGen_zero {mu kappa : List Nat} (hm : IsShape R.sh mu)
    (hk : IsShape R.sh kappa) (y : Nat → A) : barGen R 0 mu kappa y = if mu = kappa then 1 else 0 := by
  classical
  have hkk : LessCorners R.sh kappa kappa := ⟨hk, le_rfl, fun i j h1 h2 => absurd h1 h2⟩
  rw [barGen]
  by_cases h : mu = kappa
  · subst h
    rw [if_pos le_rfl, if_pos rfl, Finset.sum_eq_single mu]
    · rw [skewGen_zero, if_pos rfl]
    · intro x hx hne
      rw [skewGen_zero, if_neg (fun h => hne h.symm)]
    · intro hc
      exact absurd (mem_lessCorners.2 hkk) hc
  · rw [if_neg h]
    split
    · rename_i hsub
      refine Finset.sum_eq_zero (fun x hx => ?_)
      have hx := mem_lessCorners.1 hx
      rw [skewGen_zero, if_neg]
      rintro rfl
      exact h (shapeSet_inj hm hk (Set.Subset.antisymm hx.sub hsub))
    · rfl

theorem barGen_eq_zero {mu kappa : List Nat} (h : ¬ shapeSet R.sh kappa ⊆ shapeSet R.sh mu) (K : Nat) (y : Nat → A) :
    barGen R K mu kappa y = 0 := by
  rw [barGen, if_neg h]

/-- The rules repeat after `p` letters. -/
def Periodic (R : Rules) (p : Nat) : Prop :=
  ∀ k, (R.rowRep (k + p) ↔ R.rowRep k) ∧ (R.colRep (k + p) ↔ R.colRep k) ∧ (R.diag (k + p) ↔ R.diag k)

theorem barMoves_periodic {p : Nat} (hp : Periodic R p) (k : Nat) (mu : List Nat) :
    barMoves R (k + p) mu = barMoves R k mu := by
  ext m
  rw [mem_barMoves, mem_barMoves]
  obtain ⟨h1, h2, h3⟩ := hp k
  constructor
  · intro h
    exact ⟨h.shape, h.sub, h.diff, h.inside, h.corner, fun i j a b c => h1.1 (h.row i j a b c),
      fun i j a b c => h2.1 (h.col i j a b c), fun i a => h3.1 (h.diag i a)⟩
  · intro h
    exact ⟨h.shape, h.sub, h.diff, h.inside, h.corner, fun i j a b c => h1.2 (h.row i j a b c),
      fun i j a b c => h2.2 (h.col i j a b c), fun i a => h3.2 (h.diag i a)⟩

/-- Splitting the letters into the first `p` and the others. -/
theorem barGen_add (hinj : Function.Injective R.val) (hsv : R.sv = true) {p : Nat} (hp : Periodic R p) (q : Nat)
    {mu kappa : List Nat} (hm : IsShape R.sh mu) (hk : IsShape R.sh kappa) (y : Nat → A) :
    barGen R (q + p) mu kappa y = ∑ nu ∈ shapesIn R.sh mu,
      barGen R q mu nu (fun i => y (i + p)) * barGen R p nu kappa y := by
  classical
  induction q generalizing mu with
  | zero =>
    rw [Finset.sum_eq_single mu]
    · rw [barGen_zero hm hm, if_pos rfl, one_mul, Nat.zero_add]
    · intro nu hnu hne
      rw [barGen_zero hm (mem_shapesIn.1 hnu).1, if_neg (fun h => hne h.symm), zero_mul]
    · intro h
      exact absurd (mem_shapesIn.2 ⟨hm, le_rfl⟩) h
  | succ q ih =>
    rw [show q + 1 + p = (q + p) + 1 by ring, barGen_succ hinj hsv (q + p) hm hk,
      show q + p + 1 = (q + 1) + p by ring, barMoves_periodic hp]
    have h1 : ∀ nu ∈ shapesIn R.sh mu, barGen R (q + 1) mu nu (fun i => y (i + p)) * barGen R p nu kappa y =
        ∑ m ∈ barMoves R (q + 1) mu, y (q + p) ^ m.2.card *
          (barGen R q m.1 nu (fun i => y (i + p)) * barGen R p nu kappa y) := by
      intro nu hnu
      rw [barGen_succ hinj hsv q hm (mem_shapesIn.1 hnu).1, Finset.sum_mul]
      exact Finset.sum_congr rfl (fun m _ => by ring)
    rw [Finset.sum_congr rfl h1, Finset.sum_comm]
    refine Finset.sum_congr rfl (fun m hmm => ?_)
    have hmv := mem_barMoves.1 hmm
    rw [ih hmv.shape, Finset.mul_sum]
    refine Finset.sum_subset (fun nu hnu => ?_) (fun nu hnu hno => ?_)
    · obtain ⟨a, b⟩ := mem_shapesIn.1 hnu
      exact mem_shapesIn.2 ⟨a, b.trans hmv.sub⟩
    · rw [barGen_eq_zero (R := R) (mu := m.1) (kappa := nu), zero_mul, mul_zero]
      intro h
      exact hno (mem_shapesIn.2 ⟨(mem_shapesIn.1 hnu).1, h⟩)

end Verif.Tableaux
