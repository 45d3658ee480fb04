import Verif.Lemmas.DoublebarPoly
import Verif.Props.Partitions
import Verif.Props.Tableau
import Verif.Props.Marked

/-! The four families of `doublebar` functions. -/

attribute [-simp] List.getD_eq_getElem?_getD

namespace Verif.Symm

open Tab Tableaux Verif.Part Partition

/-! ### the families -/

theorem prod_range_two {A : Type*} [CommMonoid A] (f : Nat → A) (n : Nat) :
    ∏ k ∈ Finset.range (2 * n), f k = ∏ i ∈ Finset.range n, (f (2 * i) * f (2 * i + 1)) := by
  induction n with
  | zero => rfl
  | succ n ih => rw [show 2 * (n + 1) = 2 * n + 1 + 1 by ring, Finset.prod_range_succ, Finset.prod_range_succ, ih,
      Finset.prod_range_succ, mul_assoc]

/-- A factor for every letter. -/
theorem prod_letters {c : Nat → Nat} {N : Nat} (n : Nat) (hN : ∑ i ∈ Finset.range n, c i = N) (y : Nat → Laurent) :
    ∏ i ∈ Finset.range n, (Laurent.xpow 0 1 * y i) ^ c i = Laurent.xpow 0 (N : Int) * ∏ i ∈ Finset.range n, y i ^ c i := by
  rw [xpow_nat, ← hN, ← Finset.prod_pow_eq_pow_sum, ← Finset.prod_mul_distrib]
  exact Finset.prod_congr rfl (fun i _ => mul_pow _ _ _)

section Marked

variable {sh dp : Bool} {mu nu : List Nat}

theorem varMono_markWeight {n : Nat} {T : Tab} (hT : IsTab (markRules sh true dp) nu (2 * n) mu T) (v : Int → Poly) :
    xm (xden v) 1 (wtL n markWeight T) = varMono v n T := by
  rw [xm_wtL]
  refine Finset.prod_congr rfl (fun i hi => ?_)
  rw [count_entries hT.canon, count_entries hT.canon, markWeight]

/-- `BETA**(sum(nu) - sum(mu)) * _vectorize(...)` in any variables. -/
theorem betaVectorize_any (hdp : sh = false → dp = true) (hn : IsShape sh nu) (hm : IsShape sh mu) (n : Nat)
    (bound : Option Int) :
    ∃ f, betaVectorize n mu nu (markedCount sh true dp nu n mu) bound = some f ∧ IsSym n f ∧ Vec.NoZero f ∧
      ∀ v, (polynomial v n f).den = ∑ T ∈ (allTabs (markRules sh true dp) nu (2 * n) mu).filter
        (fun T => within bound T.entries.length),
        Laurent.xpow 0 ((T.entries.length : Int) - T.items.length) * varMono v n T := by
  obtain ⟨f, h1, h2, _⟩ := vectorize_marked (sv := true) hdp hn hm n (some (PolyVal.mk Poly.beta)) bound
  obtain ⟨b, hb1, hb2⟩ := pow_beta ((nu.sum : Int) - mu.sum)
  have hS : markedGen sh true dp nu n mu = allTabs (markRules sh true dp) nu (2 * n) mu := by
    ext T
    rw [isTab_markedGen hdp hn n hm, mem_allTabs (markRules_inj sh true dp) hn (2 * n) hm]
  refine ⟨Vec.smul f (PolyVal.mk b), by rw [betaVectorize, h1, hb1], isSym_smul h2 _, Vec.noZero_mk' _ _,
    fun v => ?_⟩
  obtain ⟨f', h1', _, _, _, h5⟩ := vectorize_weights v (marked_swapInvariant (sv := true) hdp hn n hm)
    (d := markedCount sh true dp nu n mu) (markedCount_keys sh true dp nu n mu)
    (fun k hk => by rw [markedCount_weights hdp hn hm, if_pos hk])
    (fun k hk => by rw [markedCount_weights hdp hn hm, if_neg hk]) (some (PolyVal.mk Poly.beta)) bound
  obtain rfl : f' = f := Option.some.inj (h1'.symm.trans h1)
  have e : ∀ T ∈ markedGen sh true dp nu n mu, (wtL n markWeight T).sum = T.entries.length :=
    fun T hT => sum_markWeight ((isTab_markedGen hdp hn n hm).1 hT)
  rw [polynomial_smul v h2, PolyVal.den_mul, h5, Finset.sum_mul,
    Finset.filter_congr (q := fun T => within bound T.entries.length) (fun T hT => by rw [e T hT]), hS]
  refine Finset.sum_congr rfl (fun T hT => ?_)
  have hI := (mem_allTabs (markRules_inj sh true dp) hn (2 * n) hm).1 (Finset.mem_filter.1 hT).1
  have := isTab_length hI
  have := entries_length_ge hI.canon
  rw [PolyVal.den_mk, hb2, signFactor_beta, mul_right_comm, varMono_markWeight hI, sum_markWeight hI, xpow_zero_add]
  congr 2
  omega

theorem marked_family (hdp : sh = false → dp = true)
    {skew : Nat → List Nat → List Nat → Option Int → Option SymPoly}
    (hs : ∀ n mu nu bound, IsShape sh mu → IsShape sh nu →
      skew n mu nu bound = betaVectorize n mu nu (markedCount sh true dp nu n mu) bound) :
    SkewFamily (markRules sh true dp) 2 skew where
  inj := markRules_inj sh true dp
  sv := rfl
  pos := by omega
  periodic n k := by
    have h1 : ∀ k, (markRules sh true dp).rowRep k ↔ k % 2 = 0 := fun k => Iff.rfl
    have h2 : ∀ k, (markRules sh true dp).colRep k ↔ k % 2 = 1 := fun k => Iff.rfl
    have h3 : ∀ k, (markRules sh true dp).diag k ↔ dp = true ∨ k % 2 = 0 := fun k => Iff.rfl
    have e : (k + 2 * n) % 2 = k % 2 := by omega
    rw [h1, h1, h2, h2, h3, h3, e]
    exact ⟨Iff.rfl, Iff.rfl, Iff.rfl⟩
  spec n mu x bound hm hx := by
    rw [hs n mu x bound hm hx]
    exact betaVectorize_any hdp hx hm n bound
  letters n mu x T hT y := by
    rw [prod_range_two, ← prod_letters n (sum_count_entries T.entries n (isTab_entries hT)) y]
    refine Finset.prod_congr rfl (fun i _ => ?_)
    rw [markRules_val_odd, show 2 * i + 1 + 1 = 2 * i + 2 by rfl, markRules_val_even, show 2 * i / 2 = i by omega,
      show (2 * i + 1) / 2 = i by omega, ← pow_add, count_entries hT.canon, count_entries hT.canon, add_comm]

end Marked

theorem sv_count_neg {n : Nat} {mu nu : List Nat} {T : Tab} (h : IsTab svRules nu n mu T) (i : Nat) :
    T.entries.count (-((i : ℤ) + 1)) = 0 := by
  rw [List.count_eq_zero]
  intro hx
  obtain ⟨b, hb⟩ := mem_entries.1 hx
  obtain ⟨k, h1, h2, h3⟩ := h.range b _ hb
  simp only [svRules] at h3
  omega

theorem sv_entries {n : Nat} {mu nu : List Nat} {T : Tab} (h : IsTab svRules nu n mu T) :
    ∀ x ∈ T.entries, 1 ≤ x.natAbs ∧ x.natAbs ≤ n := by
  intro x hx
  obtain ⟨b, hb⟩ := mem_entries.1 hx
  obtain ⟨k, h1, h2, h3⟩ := h.range b _ hb
  simp only [svRules] at h3
  omega

theorem sv_family : SkewFamily svRules 1 stableGrothendieck where
  inj := svRules_inj
  sv := rfl
  pos := by omega
  periodic n k := ⟨Iff.rfl, Iff.rfl, Iff.rfl⟩
  spec n mu x bound hm hx := by
    have hm' : IsPartition mu := hm
    have hx' : IsPartition x := hx
    obtain ⟨f, h1, h2, h3, _⟩ := stableGrothendieck_spec Poly.x n hm' hx' bound
    refine ⟨f, h1, h2, h3, fun v => ?_⟩
    obtain ⟨f', h1', _, _, _, h5⟩ := stableGrothendieck_spec v n hm' hx' bound
    obtain rfl : f' = f := Option.some.inj (h1'.symm.trans h1)
    have hS : semistandard true x n mu = allTabs svRules x (1 * n) mu := by
      ext T
      rw [mem_semistandard hx' n hm', mem_allTabs svRules_inj hx (1 * n) hm, one_mul, isTab_svRules hm' hx']
    rw [h5, hS]
    refine Finset.sum_congr rfl (fun T hT => ?_)
    have hT := (mem_allTabs svRules_inj hx (1 * n) hm).1 (Finset.mem_filter.1 hT).1
    congr 1
    rw [xm_eq_prod, length_wt, varMono]
    refine Finset.prod_congr rfl (fun i hi => ?_)
    rw [getD_wt n T (Finset.mem_range.1 hi), sv_count_neg hT, add_zero, add_comm 1 i]
  letters n mu x T hT y := by
    rw [one_mul] at hT ⊢
    rw [← prod_letters n (sum_count_entries T.entries n (sv_entries hT)) y]
    refine Finset.prod_congr rfl (fun i _ => ?_)
    rw [sv_count_neg hT, add_zero, count_entries hT.canon, Nat.div_one]
    simp only [svRules]
    push_cast
    rfl

theorem s_family : SkewFamily (markRules false true true) 2 stableGrothendieckS :=
  marked_family (fun _ => rfl) (fun n mu nu bound _ _ => by rw [stableGrothendieckS, countSemistandardMarked_eq true true])

theorem q_family : SkewFamily (markRules true true true) 2 stableGrothendieckQ :=
  marked_family (by simp) (fun n mu nu bound hm hn => by
    rw [stableGrothendieckQ, countSemistandardShiftedMarked_eq hn n hm]; rfl)

theorem p_family : SkewFamily (markRules true true false) 2 stableGrothendieckP :=
  marked_family (by simp) (fun n mu nu bound hm hn => by
    rw [stableGrothendieckP, countSemistandardShiftedMarked_eq hn n hm]; rfl)

/-! ### corners -/

theorem lessCorners_iff {sh : Bool} {nu x : List Nat} : LessCorners sh nu x ↔
    IsShape sh x ∧ ∃ C ⊆ Corners (shapeSet sh nu), shapeSet sh x = shapeSet sh nu \ C := by
  constructor
  · intro h
    refine ⟨h.shape, shapeSet sh nu \ shapeSet sh x, ?_, ?_⟩
    · rintro ⟨i, j⟩ ⟨h1, h2⟩
      exact ⟨h1, (h.corner i j h1 h2).2, (h.corner i j h1 h2).1⟩
    · ext b
      have := @h.sub b
      rw [Set.mem_sdiff, Set.mem_sdiff]
      tauto
  · rintro ⟨h1, C, hC, h2⟩
    refine ⟨h1, by rw [h2]; exact Set.sdiff_subset, fun i j ha hb => ?_⟩
    have : (i, j) ∈ C := by
      by_contra hc
      exact hb (by rw [h2]; exact ⟨ha, hc⟩)
    exact ⟨(hC this).2.2, (hC this).2.1⟩

theorem exists_lessCorners {sh : Bool} {nu : List Nat} (hn : IsShape sh nu) {C : Set (Nat × Nat)}
    (hC : C ⊆ Corners (shapeSet sh nu)) : ∃ x, LessCorners sh nu x ∧ shapeSet sh x = shapeSet sh nu \ C := by
  obtain ⟨x, h1, h2⟩ := exists_less hn C (fun i j h _ => ⟨(hC h).2.2, (hC h).2.1⟩)
  have : shapeSet sh x = shapeSet sh nu \ C := by ext b; exact h2 b
  exact ⟨x, lessCorners_iff.2 ⟨h1, C, hC, this⟩, this⟩

theorem listsLess_false {nu : List Nat} (hn : IsPartition nu) : ListsLess false nu (removeInnerCorners nu) := by
  obtain ⟨h1, h2, h3⟩ := C21_remove_inner_corners hn
  exact ⟨h1, h2, fun x => (h3 x).trans (lessCorners_iff (sh := false)).symm⟩

theorem listsLess_true {nu : List Nat} (hn : IsStrict nu) : ListsLess true nu (removeShiftedInnerCorners nu) := by
  obtain ⟨h1, h2, h3⟩ := C21_remove_shifted_inner_corners hn
  exact ⟨h1, h2, fun x => (h3 x).trans (lessCorners_iff (sh := true)).symm⟩

theorem lessCorners_nil {sh : Bool} (h : IsShape sh []) : lessCorners sh [] = {[]} := by
  have hs : shapeSet sh [] = ∅ := by
    ext ⟨i, j⟩
    rw [mem_shapeSet]
    simp
  ext x
  rw [mem_lessCorners, Finset.mem_singleton]
  constructor
  · intro hx
    exact shapeSet_inj hx.shape h (by
      have := hx.sub
      rw [hs] at this ⊢
      exact Set.subset_eq_empty this rfl)
  · rintro rfl
    exact ⟨h, le_rfl, fun i j h1 h2 => absurd h1 h2⟩

/-! ### the sets of tableaux -/

open scoped Classical in
/-- The tableaux of shape `mu//nu`. -/
noncomputable def barTabs (R : Rules) (nu : List Nat) (K : Nat) (mu : List Nat) (bound : Option Int) : Finset Tab :=
  if shapeSet R.sh nu ⊆ shapeSet R.sh mu then
    (lessCorners R.sh nu).biUnion (fun x => (allTabs R x K mu).filter (fun T => within bound T.entries.length))
  else ∅

theorem mem_barTabs {R : Rules} {nu : List Nat} {K : Nat} {mu : List Nat} {bound : Option Int}
    (hinj : Function.Injective R.val) (hm : IsShape R.sh mu) {T : Tab} : T ∈ barTabs R nu K mu bound ↔
      shapeSet R.sh nu ⊆ shapeSet R.sh mu ∧ within bound T.entries.length ∧
        ∃ x, LessCorners R.sh nu x ∧ IsTab R x K mu T := by
  classical
  rw [barTabs]
  split
  · rename_i h
    rw [Finset.mem_biUnion]
    constructor
    · rintro ⟨x, hx, hT⟩
      rw [Finset.mem_filter] at hT
      have hx := mem_lessCorners.1 hx
      exact ⟨h, hT.2, x, hx, (mem_allTabs hinj hx.shape K hm).1 hT.1⟩
    · rintro ⟨_, hb, x, hx, hT⟩
      exact ⟨x, mem_lessCorners.2 hx, Finset.mem_filter.2 ⟨(mem_allTabs hinj hx.shape K hm).2 hT, hb⟩⟩
  · rename_i h
    simp [h]

open scoped Classical in
theorem sum_barTabs {R : Rules} {nu : List Nat} {K : Nat} {mu : List Nat} {bound : Option Int}
    (hinj : Function.Injective R.val) (hm : IsShape R.sh mu) (g : Tab → Laurent) : ∑ T ∈ barTabs R nu K mu bound, g T =
      if shapeSet R.sh nu ⊆ shapeSet R.sh mu then ∑ x ∈ lessCorners R.sh nu,
        ∑ T ∈ (allTabs R x K mu).filter (fun T => within bound T.entries.length), g T else 0 := by
  rw [barTabs]
  split
  · rw [Finset.sum_biUnion]
    intro x hx x' hx' hne
    rw [Function.onFun, Finset.disjoint_left]
    intro T hT hT'
    have hx := mem_lessCorners.1 hx
    have hx' := mem_lessCorners.1 hx'
    have hT := (mem_allTabs hinj hx.shape K hm).1 (Finset.mem_filter.1 hT).1
    have hT' := (mem_allTabs hinj hx'.shape K hm).1 (Finset.mem_filter.1 hT').1
    apply hne
    refine shapeSet_inj hx.shape hx'.shape ?_
    ext b
    have h1 := hT.dom b
    have h2 := hT'.dom b
    have h3 := @hT.sub b
    have h4 := @hT'.sub b
    tauto
  · simp

/-- The generating function. -/
theorem doublebar_gen {R : Rules} {per : Nat} {skew : Nat → List Nat → List Nat → Option Int → Option SymPoly}
    (H : SkewFamily R per skew) (n : Nat) {mu nu : List Nat} (hm : IsShape R.sh mu)
    (hn : IsShape R.sh nu) (bound : Option Int) {L : List (Option (List Nat))} (hL : ListsLess R.sh nu L) :
    ∃ f, (if contains mu nu then L.foldlM (doublebarStep (fun x => skew n mu x bound) nu) (mkSym n Dict.empty)
        else some (mkSym n Dict.empty)) = some f ∧ IsSym n f ∧ Vec.NoZero f ∧
      (polynomial Poly.x n f).den = ∑ T ∈ barTabs R nu (per * n) mu bound,
        Laurent.xpow 0 ((T.entries.length : Int) + nu.sum - mu.sum) * ∏ i ∈ Finset.range n,
          Laurent.xpow ((i : ℤ) + 1) ((T.entries.count ((i : ℤ) + 1) + T.entries.count (-((i : ℤ) + 1)) : Nat) : ℤ) := by
  obtain ⟨f, h1, h2, h3, _, h5⟩ := doublebar_spec H n hm hn bound hL
  refine ⟨f, h1, h2, h3, ?_⟩
  rw [h5, sum_barTabs H.inj hm]
  simp only [varMono_x]

theorem mem_barTabs_marked {sh dp : Bool} {nu : List Nat} {n : Nat} {mu : List Nat} {bound : Option Int}
    (hm : IsShape sh mu) (hn : IsShape sh nu) {T : Tab} : T ∈ barTabs (markRules sh true dp) nu (2 * n) mu bound ↔
      shapeSet sh nu ⊆ shapeSet sh mu ∧ (∀ b, bound = some b → (T.entries.length : Int) ≤ b) ∧
        ∃ C ⊆ Corners (shapeSet sh nu), IsTableauOf true (shapeSet sh mu \ (shapeSet sh nu \ C))
          (IsMarked dp n (shapeSet sh mu \ (shapeSet sh nu \ C))) T.get? := by
  rw [mem_barTabs (markRules_inj sh true dp) hm]
  refine and_congr_right (fun hsub => and_congr_right (fun _ => ?_))
  constructor
  · rintro ⟨x, hx, hT⟩
    obtain ⟨_, C, hC, e⟩ := lessCorners_iff.1 hx
    rw [isTab_iff_marked] at hT
    change shapeSet sh x = shapeSet sh nu \ C at e
    refine ⟨C, hC, ?_⟩
    rw [← e]
    exact hT.2
  · rintro ⟨C, hC, hT⟩
    obtain ⟨x, hx, e⟩ := exists_lessCorners hn hC
    refine ⟨x, hx, ?_⟩
    rw [isTab_iff_marked, e]
    exact ⟨Set.sdiff_subset.trans hsub, hT⟩

theorem mem_barTabs_sv {nu : List Nat} {n : Nat} {mu : List Nat} {bound : Option Int}
    (hm : IsPartition mu) (hn : IsPartition nu) {T : Tab} : T ∈ barTabs svRules nu (1 * n) mu bound ↔
      Diagram nu ⊆ Diagram mu ∧ (∀ b, bound = some b → (T.entries.length : Int) ≤ b) ∧
        ∃ C ⊆ Corners (Diagram nu), IsTableauOf true (Diagram mu \ (Diagram nu \ C))
          (IsSemistandard n (Diagram mu \ (Diagram nu \ C))) T.get? := by
  have key : ∀ x, IsPartition x → (IsTab svRules x (1 * n) mu T ↔ Diagram x ⊆ Diagram mu ∧
      IsTableauOf true (Diagram mu \ Diagram x) (IsSemistandard n (Diagram mu \ Diagram x)) T.get?) := by
    intro x hx
    rw [one_mul, isTab_svRules hm hx, ← mem_semistandard hx n hm, C25_setvalued n hm hx, IsTableauOf]
    simp
  rw [mem_barTabs svRules_inj hm]
  refine and_congr_right (fun hsub => and_congr_right (fun _ => ?_))
  constructor
  · rintro ⟨x, hx, hT⟩
    obtain ⟨_, C, hC, e⟩ := lessCorners_iff.1 hx
    rw [key x hx.shape] at hT
    change Diagram x = Diagram nu \ C at e
    refine ⟨C, hC, ?_⟩
    rw [← e]
    exact hT.2
  · rintro ⟨C, hC, hT⟩
    obtain ⟨x, hx, e⟩ := exists_lessCorners (sh := false) hn hC
    change Diagram x = Diagram nu \ C at e
    refine ⟨x, hx, ?_⟩
    rw [key x hx.shape, e]
    exact ⟨Set.sdiff_subset.trans hsub, hT⟩

/-! ### sums over shapes -/

theorem isShape_nil (sh : Bool) : IsShape sh [] := by
  cases sh
  · exact ⟨List.Pairwise.nil, fun a h => by simp at h⟩
  · exact ⟨List.Pairwise.nil, fun a h => by simp at h⟩

theorem toFinset_subpartitions {sh : Bool} {mu : List Nat} (hm : IsShape sh mu) :
    (subpartitions mu [] sh).Nodup ∧ (∀ x, x ∈ subpartitions mu [] sh ↔ IsShape sh x ∧ shapeSet sh x ⊆ shapeSet sh mu) ∧
      (subpartitions mu [] sh).toFinset = shapesIn sh mu := by
  have hp : IsPartition mu := by
    cases sh
    · exact hm
    · exact isStrict_isPartition hm
  obtain ⟨h1, h2⟩ := C19_subpartitions_partial sh hp (isShape_nil false) (Nat.zero_le _)
  have h3 : ∀ x, x ∈ subpartitions mu [] sh ↔ IsShape sh x ∧ shapeSet sh x ⊆ shapeSet sh mu := by
    intro x
    rw [h2 x, shapeSet_subset, ← diagram_subset (mu := mu) (nu := x)]
    have he : Diagram [] ⊆ Diagram x := by rw [diagram_subset]; simp
    cases sh
    · simp only [IsShape, Bool.false_eq_true, if_false]
      tauto
    · simp only [IsShape, if_true]
      constructor
      · rintro ⟨a, b, c, d⟩
        exact ⟨⟨d trivial, a.2⟩, c⟩
      · rintro ⟨a, b⟩
        exact ⟨isStrict_isPartition a, he, b, fun _ => a.1⟩
  refine ⟨h1, h3, ?_⟩
  ext x
  rw [List.mem_toFinset, h3, mem_shapesIn]

/-! ### all four kinds at once -/

section Kinds

variable {R : Rules} {per : Nat} {skew bar : Nat → List Nat → List Nat → Option Int → Option SymPoly}

/-- `bar` is the `doublebar` function of `skew`. -/
def IsBar (sh : Bool) (skew bar : Nat → List Nat → List Nat → Option Int → Option SymPoly) : Prop :=
  ∀ n mu nu bound, IsShape sh mu → IsShape sh nu → ∃ L, ListsLess sh nu L ∧ bar n mu nu bound =
    if contains mu nu then L.foldlM (doublebarStep (fun x => skew n mu x bound) nu) (mkSym n Dict.empty)
    else some (mkSym n Dict.empty)

theorem isBar_s : IsBar false stableGrothendieckS stableGrothendieckSDoublebar :=
  fun _ _ _ _ _ hn => ⟨_, listsLess_false hn, rfl⟩

theorem isBar_g : IsBar false stableGrothendieck stableGrothendieckDoublebar :=
  fun _ _ _ _ _ hn => ⟨_, listsLess_false hn, rfl⟩

theorem isBar_q : IsBar true stableGrothendieckQ stableGrothendieckQDoublebar :=
  fun _ _ _ _ _ hn => ⟨_, listsLess_true hn, rfl⟩

theorem isBar_p : IsBar true stableGrothendieckP stableGrothendieckPDoublebar :=
  fun _ _ _ _ _ hn => ⟨_, listsLess_true hn, rfl⟩

theorem bar_den (H : SkewFamily R per skew) (hB : IsBar R.sh skew bar) (n : Nat) {mu nu : List Nat}
    (hm : IsShape R.sh mu) (hn : IsShape R.sh nu) : ∃ f, bar n mu nu none = some f ∧ ∀ v, (polynomial v n f).den =
      Laurent.xpow 0 ((nu.sum : Int) - mu.sum) *
        barGen R (per * n) mu nu (fun k => Laurent.xpow 0 1 * xden v (k / per + 1)) := by
  classical
  obtain ⟨L, hL, e⟩ := hB n mu nu none hm hn
  obtain ⟨f, h1, _, _, _, h5⟩ := doublebar_spec H n hm hn none hL
  exact ⟨f, by rw [e, h1], fun v => doublebar_barGen H n hm v (h5 v)⟩

theorem bar_coproduct (H : SkewFamily R per skew) (hB : IsBar R.sh skew bar) (n m : Nat) {mu kappa : List Nat}
    (hm : IsShape R.sh mu) (hk : IsShape R.sh kappa) : ∃ (f : SymPoly) (g h : List Nat → SymPoly),
      bar (n + m) mu kappa none = some f ∧
      (∀ nu ∈ subpartitions mu [] R.sh, bar n nu kappa none = some (g nu) ∧ bar m mu nu none = some (h nu)) ∧
      ∀ v, (polynomial v (n + m) f).den = ((subpartitions mu [] R.sh).map (fun nu =>
        (polynomial v n (g nu)).den * (polynomial (fun i => v (i + n)) m (h nu)).den)).sum := by
  obtain ⟨s1, s2, s3⟩ := toFinset_subpartitions hm
  obtain ⟨f, hf, ef⟩ := bar_den H hB (n + m) hm hk
  refine ⟨f, fun nu => (bar n nu kappa none).getD (mkSym n Dict.empty),
    fun nu => (bar m mu nu none).getD (mkSym m Dict.empty), hf, fun nu hnu => ?_, fun v => ?_⟩
  · have hnu := (s2 nu).1 hnu
    obtain ⟨g, hg, _⟩ := bar_den H hB n hnu.1 hk
    obtain ⟨h, hh, _⟩ := bar_den H hB m hm hnu.1
    dsimp only
    rw [hg, hh]
    exact ⟨rfl, rfl⟩
  · rw [ef, doublebar_coproduct H n m hm hk, ← s3, List.sum_toFinset _ s1]
    congr 1
    refine List.map_congr_left (fun nu hnu => ?_)
    have hnu := (s2 nu).1 hnu
    obtain ⟨g, hg, eg⟩ := bar_den H hB n hnu.1 hk
    obtain ⟨h, hh, eh⟩ := bar_den H hB m hm hnu.1
    dsimp only
    rw [hg, hh, Option.getD_some, Option.getD_some, eg, eh]

theorem bar_nil (H : SkewFamily R per skew) (hB : IsBar R.sh skew bar) (n : Nat) {mu : List Nat}
    (hm : IsShape R.sh mu) (bound : Option Int) :
    ∃ f g, bar n mu [] bound = some f ∧ skew n mu [] bound = some g ∧ IsSym n f ∧ ∀ k, f.get k = g.get k := by
  have h0 := isShape_nil R.sh
  obtain ⟨L, hL, e⟩ := hB n mu [] bound hm h0
  obtain ⟨f, h1, h2, _, h4, _⟩ := doublebar_spec H n hm h0 bound hL
  obtain ⟨g, g1, _⟩ := H.spec n mu [] bound hm h0
  refine ⟨f, g, by rw [e, h1], g1, h2, fun k => ?_⟩
  rw [h4, lessCorners_nil h0, if_pos (by rw [shapeSet_subset]; simp), Finset.sum_singleton, skewD, g1,
    betaPow_nat le_rfl, Nat.sub_self, pow_zero, mul_one]
  rfl

theorem bar_undo (H : SkewFamily R per skew) (hB : IsBar R.sh skew bar) (n : Nat) {lam mu : List Nat}
    (hl : IsShape R.sh lam) (hm : IsShape R.sh mu) (hsub : shapeSet R.sh mu ⊆ shapeSet R.sh lam) (bound : Option Int) :
    ∃ (f : SymPoly) (g : List Nat → SymPoly), skew n lam mu bound = some f ∧
      (∀ nu ∈ subpartitions mu [] R.sh, bar n lam nu bound = some (g nu)) ∧
      ∀ k, f.get k = ((subpartitions mu [] R.sh).map (fun nu =>
        (-PolyVal.mk Poly.beta) ^ (mu.sum - nu.sum) * (g nu).get k)).sum := by
  classical
  obtain ⟨s1, s2, s3⟩ := toFinset_subpartitions hm
  obtain ⟨f, hf, _⟩ := H.spec n lam mu bound hl hm
  have hbar : ∀ nu ∈ subpartitions mu [] R.sh, ∃ g, bar n lam nu bound = some g ∧ ∀ k, g.get k =
      ∑ x ∈ lessCorners R.sh nu, (skewD skew n lam x bound).get k * betaPow ((nu.sum : Int) - x.sum) := by
    intro nu hnu
    have hnu := (s2 nu).1 hnu
    obtain ⟨L, hL, e⟩ := hB n lam nu bound hl hnu.1
    obtain ⟨g, h1, _, _, h4, _⟩ := doublebar_spec H n hl hnu.1 bound hL
    refine ⟨g, by rw [e, h1], fun k => ?_⟩
    rw [h4, if_pos (hnu.2.trans hsub)]
  refine ⟨f, fun nu => (bar n lam nu bound).getD (mkSym n Dict.empty), hf, fun nu hnu => ?_, fun k => ?_⟩
  · obtain ⟨g, hg, _⟩ := hbar nu hnu
    dsimp only
    rw [hg]
    rfl
  · have := doublebar_undo (skew := skew) n (lam := lam) hm bound k
      (g := fun nu => ((bar n lam nu bound).getD (mkSym n Dict.empty)).get k) (fun nu hnu => by
        rw [← s3, List.mem_toFinset] at hnu
        obtain ⟨g, hg, eg⟩ := hbar nu hnu
        rw [hg, Option.getD_some, eg])
    rw [skewD, hf, Option.getD_some] at this
    rw [this, ← s3, List.sum_toFinset _ s1]

end Kinds

end Verif.Symm
