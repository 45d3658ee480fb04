import Verif.Lemmas.DoublebarFam

/-! Properties C91, C92, C93: the `doublebar` functions of symmetric.py. -/

attribute [-simp] List.getD_eq_getElem?_getD

namespace Verif.Symm

open Tab Tableaux Verif.Part Partition

/-- The sum over the tableaux in `S` of the monomial with a factor `x_i` for every letter `i` and `i'`, times `β` to the
number of letters minus `d`. -/
noncomputable def barSum (n : Nat) (d : Int) (S : Finset Tab) : Laurent :=
  ∑ T ∈ S, Laurent.xpow 0 ((T.entries.length : Int) - d) * ∏ i ∈ Finset.range n,
    Laurent.xpow ((i : ℤ) + 1) ((T.entries.count ((i : ℤ) + 1) + T.entries.count (-((i : ℤ) + 1)) : Nat) : ℤ)

theorem barSum_eq (n : Nat) (a b : Int) (S : Finset Tab) : ∑ T ∈ S,
    Laurent.xpow 0 ((T.entries.length : Int) + b - a) * ∏ i ∈ Finset.range n,
      Laurent.xpow ((i : ℤ) + 1) ((T.entries.count ((i : ℤ) + 1) + T.entries.count (-((i : ℤ) + 1)) : Nat) : ℤ) =
    barSum n (a - b) S :=
  Finset.sum_congr rfl (fun T _ => by rw [show (T.entries.length : Int) + b - a = T.entries.length - (a - b) by ring])

/-! ## C91: generating functions -/

/-- C91: for strict partitions, `stable_grothendieck_q_doublebar(n, mu, nu, degree_bound)` raises no exception and is the
sum over all set-valued shifted marked tableaux whose boxes are the boxes of `mu` outside `nu` and any set `C` of corners of
`nu`, with a factor `β` for every letter beyond `|mu| - |nu|`.  With a degree bound, only the tableaux with at most that
many letters count.  It is zero if `nu` is not inside `mu`. -/
theorem C91_q_doublebar (n : Nat) {mu nu : List Nat} (hm : IsStrict mu) (hn : IsStrict nu) (bound : Option Int) :
    ∃ f S, stableGrothendieckQDoublebar n mu nu bound = some f ∧ IsSym n f ∧ Vec.NoZero f ∧
      (∀ T, T ∈ S ↔ ShiftedDiagram nu ⊆ ShiftedDiagram mu ∧ (∀ b, bound = some b → (T.entries.length : Int) ≤ b) ∧
        ∃ C ⊆ Corners (ShiftedDiagram nu), IsTableauOf true (ShiftedDiagram mu \ (ShiftedDiagram nu \ C))
          (IsMarked true n (ShiftedDiagram mu \ (ShiftedDiagram nu \ C))) T.get?) ∧
      (polynomial Poly.x n f).den = barSum n ((mu.sum : Int) - nu.sum) S := by
  obtain ⟨L, hL, e⟩ := isBar_q n mu nu bound hm hn
  obtain ⟨f, h1, h2, h3, h4⟩ := doublebar_gen q_family n hm hn bound hL
  exact ⟨f, _, by rw [e, h1], h2, h3, fun T => mem_barTabs_marked (sh := true) hm hn, by rw [h4, barSum_eq]⟩

/-- C91: the same for `stable_grothendieck_p_doublebar` and the tableaux without primes on the diagonal. -/
theorem C91_p_doublebar (n : Nat) {mu nu : List Nat} (hm : IsStrict mu) (hn : IsStrict nu) (bound : Option Int) :
    ∃ f S, stableGrothendieckPDoublebar n mu nu bound = some f ∧ IsSym n f ∧ Vec.NoZero f ∧
      (∀ T, T ∈ S ↔ ShiftedDiagram nu ⊆ ShiftedDiagram mu ∧ (∀ b, bound = some b → (T.entries.length : Int) ≤ b) ∧
        ∃ C ⊆ Corners (ShiftedDiagram nu), IsTableauOf true (ShiftedDiagram mu \ (ShiftedDiagram nu \ C))
          (IsMarked false n (ShiftedDiagram mu \ (ShiftedDiagram nu \ C))) T.get?) ∧
      (polynomial Poly.x n f).den = barSum n ((mu.sum : Int) - nu.sum) S := by
  obtain ⟨L, hL, e⟩ := isBar_p n mu nu bound hm hn
  obtain ⟨f, h1, h2, h3, h4⟩ := doublebar_gen p_family n hm hn bound hL
  exact ⟨f, _, by rw [e, h1], h2, h3, fun T => mem_barTabs_marked (sh := true) hm hn, by rw [h4, barSum_eq]⟩

/-- C91: the same for `stable_grothendieck_s_doublebar`, partitions and marked tableaux. -/
theorem C91_s_doublebar (n : Nat) {mu nu : List Nat} (hm : IsPartition mu) (hn : IsPartition nu) (bound : Option Int) :
    ∃ f S, stableGrothendieckSDoublebar n mu nu bound = some f ∧ IsSym n f ∧ Vec.NoZero f ∧
      (∀ T, T ∈ S ↔ Diagram nu ⊆ Diagram mu ∧ (∀ b, bound = some b → (T.entries.length : Int) ≤ b) ∧
        ∃ C ⊆ Corners (Diagram nu), IsTableauOf true (Diagram mu \ (Diagram nu \ C))
          (IsMarked true n (Diagram mu \ (Diagram nu \ C))) T.get?) ∧
      (polynomial Poly.x n f).den = barSum n ((mu.sum : Int) - nu.sum) S := by
  obtain ⟨L, hL, e⟩ := isBar_s n mu nu bound hm hn
  obtain ⟨f, h1, h2, h3, h4⟩ := doublebar_gen s_family n hm hn bound hL
  exact ⟨f, _, by rw [e, h1], h2, h3, fun T => mem_barTabs_marked (sh := false) hm hn, by rw [h4, barSum_eq]⟩

/-- C91: the same for `stable_grothendieck_doublebar`, partitions and semistandard set-valued tableaux. -/
theorem C91_doublebar (n : Nat) {mu nu : List Nat} (hm : IsPartition mu) (hn : IsPartition nu) (bound : Option Int) :
    ∃ f S, stableGrothendieckDoublebar n mu nu bound = some f ∧ IsSym n f ∧ Vec.NoZero f ∧
      (∀ T, T ∈ S ↔ Diagram nu ⊆ Diagram mu ∧ (∀ b, bound = some b → (T.entries.length : Int) ≤ b) ∧
        ∃ C ⊆ Corners (Diagram nu), IsTableauOf true (Diagram mu \ (Diagram nu \ C))
          (IsSemistandard n (Diagram mu \ (Diagram nu \ C))) T.get?) ∧
      (polynomial Poly.x n f).den = barSum n ((mu.sum : Int) - nu.sum) S := by
  obtain ⟨L, hL, e⟩ := isBar_g n mu nu bound hm hn
  obtain ⟨f, h1, h2, h3, h4⟩ := doublebar_gen sv_family n hm hn bound hL
  exact ⟨f, _, by rw [e, h1], h2, h3, fun T => mem_barTabs_sv hm hn, by rw [h4, barSum_eq]⟩

-- the shapes are `(2)/(1)` and `(2)/()`
example : IsStrict [2] ∧ IsStrict [1] ∧ (stableGrothendieckPDoublebar 1 [2] [1] none).map (fun f => f.dict.keys) = some [[1], [2]] := by
  refine ⟨by simp [IsStrict], by simp [IsStrict], by decide +kernel⟩

example : (stableGrothendieckQDoublebar 2 [2, 1] [2] (some 3)).isSome ∧
    (stableGrothendieckDoublebar 2 [2, 1] [1, 1] none).isSome ∧ (stableGrothendieckSDoublebar 1 [2] [1] none).isSome := by
  decide +kernel

example : (stableGrothendieckQDoublebar 2 [2] [3] none).map (fun f => f.dict.keys) = some [] := by decide +kernel

/-! ## C92: splitting the variables -/

/-- C92: `GQ_{mu//kappa}(x_1, ..., x_{n+m})` is the sum of
`GQ_{nu//kappa}(x_1, ..., x_n) * GQ_{mu//nu}(x_{n+1}, ..., x_{n+m})` over the strict partitions `nu` inside `mu`. -/
theorem C92_q_coproduct (n m : Nat) {mu kappa : List Nat} (hm : IsStrict mu) (hk : IsStrict kappa) :
    ∃ (f : SymPoly) (g h : List Nat → SymPoly), stableGrothendieckQDoublebar (n + m) mu kappa none = some f ∧
      (∀ nu ∈ subpartitions mu [] true, stableGrothendieckQDoublebar n nu kappa none = some (g nu) ∧
        stableGrothendieckQDoublebar m mu nu none = some (h nu)) ∧
      ∀ v : Int → Poly, (polynomial v (n + m) f).den = ((subpartitions mu [] true).map (fun nu =>
        (polynomial v n (g nu)).den * (polynomial (fun i => v (i + n)) m (h nu)).den)).sum :=
  bar_coproduct q_family isBar_q n m hm hk

/-- C92: the same for `GP`. -/
theorem C92_p_coproduct (n m : Nat) {mu kappa : List Nat} (hm : IsStrict mu) (hk : IsStrict kappa) :
    ∃ (f : SymPoly) (g h : List Nat → SymPoly), stableGrothendieckPDoublebar (n + m) mu kappa none = some f ∧
      (∀ nu ∈ subpartitions mu [] true, stableGrothendieckPDoublebar n nu kappa none = some (g nu) ∧
        stableGrothendieckPDoublebar m mu nu none = some (h nu)) ∧
      ∀ v : Int → Poly, (polynomial v (n + m) f).den = ((subpartitions mu [] true).map (fun nu =>
        (polynomial v n (g nu)).den * (polynomial (fun i => v (i + n)) m (h nu)).den)).sum :=
  bar_coproduct p_family isBar_p n m hm hk

/-- C92: the same for `GS` and all partitions. -/
theorem C92_s_coproduct (n m : Nat) {mu kappa : List Nat} (hm : IsPartition mu) (hk : IsPartition kappa) :
    ∃ (f : SymPoly) (g h : List Nat → SymPoly), stableGrothendieckSDoublebar (n + m) mu kappa none = some f ∧
      (∀ nu ∈ subpartitions mu [] false, stableGrothendieckSDoublebar n nu kappa none = some (g nu) ∧
        stableGrothendieckSDoublebar m mu nu none = some (h nu)) ∧
      ∀ v : Int → Poly, (polynomial v (n + m) f).den = ((subpartitions mu [] false).map (fun nu =>
        (polynomial v n (g nu)).den * (polynomial (fun i => v (i + n)) m (h nu)).den)).sum :=
  bar_coproduct s_family isBar_s n m hm hk

/-- C92: the same for `G` and all partitions. -/
theorem C92_coproduct (n m : Nat) {mu kappa : List Nat} (hm : IsPartition mu) (hk : IsPartition kappa) :
    ∃ (f : SymPoly) (g h : List Nat → SymPoly), stableGrothendieckDoublebar (n + m) mu kappa none = some f ∧
      (∀ nu ∈ subpartitions mu [] false, stableGrothendieckDoublebar n nu kappa none = some (g nu) ∧
        stableGrothendieckDoublebar m mu nu none = some (h nu)) ∧
      ∀ v : Int → Poly, (polynomial v (n + m) f).den = ((subpartitions mu [] false).map (fun nu =>
        (polynomial v n (g nu)).den * (polynomial (fun i => v (i + n)) m (h nu)).den)).sum :=
  bar_coproduct sv_family isBar_g n m hm hk

/-- C92: for `kappa = ()` the `doublebar` functions are `GQ_mu` and `GP_mu`. -/
theorem C92_nil_shifted (n : Nat) {mu : List Nat} (hm : IsStrict mu) (bound : Option Int) :
    (∃ f g, stableGrothendieckQDoublebar n mu [] bound = some f ∧ stableGrothendieckQ n mu [] bound = some g ∧
      IsSym n f ∧ ∀ k, f.get k = g.get k) ∧
    ∃ f g, stableGrothendieckPDoublebar n mu [] bound = some f ∧ stableGrothendieckP n mu [] bound = some g ∧
      IsSym n f ∧ ∀ k, f.get k = g.get k :=
  ⟨bar_nil q_family isBar_q n hm bound, bar_nil p_family isBar_p n hm bound⟩

/-- C92: for `kappa = ()` the `doublebar` functions are `GS_mu` and `G_mu`. -/
theorem C92_nil (n : Nat) {mu : List Nat} (hm : IsPartition mu) (bound : Option Int) :
    (∃ f g, stableGrothendieckSDoublebar n mu [] bound = some f ∧ stableGrothendieckS n mu [] bound = some g ∧
      IsSym n f ∧ ∀ k, f.get k = g.get k) ∧
    ∃ f g, stableGrothendieckDoublebar n mu [] bound = some f ∧ stableGrothendieck n mu [] bound = some g ∧
      IsSym n f ∧ ∀ k, f.get k = g.get k :=
  ⟨bar_nil s_family isBar_s n hm bound, bar_nil sv_family isBar_g n hm bound⟩

example : IsStrict [3, 1] ∧ IsStrict [2] ∧
    subpartitions [3, 1] [] true = [[], [1], [2], [3], [2, 1], [3, 1]] ∧
    (stableGrothendieckQDoublebar 1 [3, 1] [2] none).isSome := by
  refine ⟨by simp [IsStrict], by simp [IsStrict], by decide +kernel, by decide +kernel⟩

/-! ## C93: undoing -/

/-- C93: `GQ_{lam/mu}` is the sum of `(-β)^(|mu| - |nu|) GQ_{lam//nu}` over the strict partitions `nu` inside `mu`. -/
theorem C93_q_undo (n : Nat) {lam mu : List Nat} (hl : IsStrict lam) (hm : IsStrict mu)
    (hsub : ShiftedDiagram mu ⊆ ShiftedDiagram lam) (bound : Option Int) :
    ∃ (f : SymPoly) (g : List Nat → SymPoly), stableGrothendieckQ n lam mu bound = some f ∧
      (∀ nu ∈ subpartitions mu [] true, stableGrothendieckQDoublebar n lam nu bound = some (g nu)) ∧
      ∀ k, f.get k = ((subpartitions mu [] true).map (fun nu =>
        (-PolyVal.mk Poly.beta) ^ (mu.sum - nu.sum) * (g nu).get k)).sum :=
  bar_undo q_family isBar_q n hl hm hsub bound

/-- C93: the same for `GP`. -/
theorem C93_p_undo (n : Nat) {lam mu : List Nat} (hl : IsStrict lam) (hm : IsStrict mu)
    (hsub : ShiftedDiagram mu ⊆ ShiftedDiagram lam) (bound : Option Int) :
    ∃ (f : SymPoly) (g : List Nat → SymPoly), stableGrothendieckP n lam mu bound = some f ∧
      (∀ nu ∈ subpartitions mu [] true, stableGrothendieckPDoublebar n lam nu bound = some (g nu)) ∧
      ∀ k, f.get k = ((subpartitions mu [] true).map (fun nu =>
        (-PolyVal.mk Poly.beta) ^ (mu.sum - nu.sum) * (g nu).get k)).sum :=
  bar_undo p_family isBar_p n hl hm hsub bound

/-- C93: the same for `GS` and all partitions. -/
theorem C93_s_undo (n : Nat) {lam mu : List Nat} (hl : IsPartition lam) (hm : IsPartition mu)
    (hsub : Diagram mu ⊆ Diagram lam) (bound : Option Int) :
    ∃ (f : SymPoly) (g : List Nat → SymPoly), stableGrothendieckS n lam mu bound = some f ∧
      (∀ nu ∈ subpartitions mu [] false, stableGrothendieckSDoublebar n lam nu bound = some (g nu)) ∧
      ∀ k, f.get k = ((subpartitions mu [] false).map (fun nu =>
        (-PolyVal.mk Poly.beta) ^ (mu.sum - nu.sum) * (g nu).get k)).sum :=
  bar_undo s_family isBar_s n hl hm hsub bound

/-- C93: the same for `G` and all partitions. -/
theorem C93_undo (n : Nat) {lam mu : List Nat} (hl : IsPartition lam) (hm : IsPartition mu)
    (hsub : Diagram mu ⊆ Diagram lam) (bound : Option Int) :
    ∃ (f : SymPoly) (g : List Nat → SymPoly), stableGrothendieck n lam mu bound = some f ∧
      (∀ nu ∈ subpartitions mu [] false, stableGrothendieckDoublebar n lam nu bound = some (g nu)) ∧
      ∀ k, f.get k = ((subpartitions mu [] false).map (fun nu =>
        (-PolyVal.mk Poly.beta) ^ (mu.sum - nu.sum) * (g nu).get k)).sum :=
  bar_undo sv_family isBar_g n hl hm hsub bound

example : IsStrict [3, 1] ∧ IsStrict [2, 1] ∧ ShiftedDiagram [2, 1] ⊆ ShiftedDiagram [3, 1] := by
  refine ⟨by simp [IsStrict], by simp [IsStrict], ?_⟩
  rintro ⟨i, j⟩ ⟨h1, h2, h3⟩
  refine ⟨h1, h2, ?_⟩
  rcases i with _ | _ | _ | i <;> simp_all <;> omega

example : IsPartition [2, 2] ∧ IsPartition [1, 1] ∧ Diagram [1, 1] ⊆ Diagram [2, 2] ∧
    subpartitions [1, 1] [] false = [[], [1], [1, 1]] := by
  refine ⟨⟨by decide, by decide⟩, ⟨by decide, by decide⟩, ?_, by decide +kernel⟩
  rw [diagram_subset]
  intro i
  rcases i with _ | _ | i <;> simp +decide [List.getD]

end Verif.Symm
