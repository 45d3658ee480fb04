import Verif.Lemmas.TransTab
import Verif.Lemmas.MrppPoly
import Verif.Props.Marked

/-! The transposed dual polynomials are triangular families. -/

attribute [-simp] List.getD_eq_getElem?_getD

namespace Verif.Symm

open Tableaux Verif.Part Partition

variable {τ : Type*}

theorem wCount_choices_support {S : Finset τ} {n : Nat} {e d : τ → Nat → Nat} {a : Nat → Nat}
    (h : wCount (choices S n d) n (chWt n e) a ≠ 0) : ∃ T ∈ S, ∀ i < n, e T i ≤ a i ∧ a i ≤ e T i + d T i := by
  rw [wCount] at h
  obtain ⟨x, hx⟩ := Finset.card_pos.1 (Nat.pos_of_ne_zero (by exact_mod_cast h))
  rw [Finset.mem_filter] at hx
  obtain ⟨h1, h2⟩ := mem_choices hx.1
  refine ⟨x.1, h1, fun i hi => ?_⟩
  have h3 := hx.2 i hi
  have h4 := h2 ⟨i, hi⟩
  rw [chWt, dif_pos hi] at h3
  simp only at h4
  omega

theorem wCount_choices_top {S : Finset τ} {n N : Nat} {e d : τ → Nat → Nat} {a : Nat → Nat}
    (hc : ∀ T ∈ S, ∑ i ∈ Finset.range n, (e T i + d T i) = N) (ha : ∑ i ∈ Finset.range n, a i = N) :
    wCount (choices S n d) n (chWt n e) a = wCount S n (fun T i => e T i + d T i) a := by
  rw [wCount, wCount]
  congr 1
  have key : ∀ x ∈ (choices S n d).filter (fun x => ∀ i < n, chWt n e x i = a i),
      ∀ i : Fin n, (x.2 i).card = d x.1 i := by
    intro x hx
    rw [Finset.mem_filter] at hx
    obtain ⟨h1, h2⟩ := mem_choices hx.1
    have h3 : ∑ i ∈ Finset.range n, chWt n e x i = ∑ i ∈ Finset.range n, (e x.1 i + d x.1 i) := by
      rw [hc _ h1, ← ha]
      exact Finset.sum_congr rfl (fun i hi => hx.2 i (Finset.mem_range.1 hi))
    have h4 : ∀ i ∈ Finset.range n, chWt n e x i ≤ e x.1 i + d x.1 i := by
      intro i hi
      have := h2 ⟨i, Finset.mem_range.1 hi⟩
      rw [chWt, dif_pos (Finset.mem_range.1 hi)]
      simp only at this
      omega
    have h5 := (Finset.sum_eq_sum_iff_of_le h4).1 h3
    intro i
    have := h5 i (Finset.mem_range.2 i.2)
    rw [chWt_fin] at this
    omega
  have hset : ∀ x ∈ (choices S n d).filter (fun x => ∀ i < n, chWt n e x i = a i),
      x = ⟨x.1, fun i => Finset.range (d x.1 i)⟩ := by
    intro x hx
    have h1 := key x hx
    rw [Finset.mem_filter, choices, Finset.mem_sigma] at hx
    obtain ⟨T, s⟩ := x
    congr 1
    funext i
    have h2 := Fintype.mem_piFinset.1 hx.1.2 i
    rw [Finset.mem_powerset] at h2
    exact Finset.eq_of_subset_of_card_le h2 (by rw [Finset.card_range]; exact (h1 i).ge)
  refine Finset.card_bij' (fun x _ => x.1) (fun T _ => ⟨T, fun i => Finset.range (d T i)⟩) ?_ ?_ ?_ ?_
  · intro x hx
    have h1 := key x hx
    rw [Finset.mem_filter] at hx
    rw [Finset.mem_filter]
    refine ⟨(mem_choices hx.1).1, fun i hi => ?_⟩
    rw [← hx.2 i hi, chWt, dif_pos hi, h1 ⟨i, hi⟩]
  · intro T hT
    rw [Finset.mem_filter] at hT
    rw [Finset.mem_filter, choices, Finset.mem_sigma]
    refine ⟨⟨hT.1, Fintype.mem_piFinset.2 (fun i => ?_)⟩, fun i hi => ?_⟩
    · rw [Finset.mem_powerset]
    · rw [chWt, dif_pos hi, Finset.card_range, ← hT.2 i hi]
  · intro x hx
    exact (hset x hx).symm
  · intro T _
    rfl

/-! ### marked tableaux -/

open scoped Classical in
/-- The coefficients of the transposed dual P- and Q-polynomials. -/
noncomputable def transCount (dp : Bool) (n : Nat) (mu k : List Nat) : Int :=
  if IsPartition k ∧ k.length ≤ n then
    wCount (choices (markedGen true false dp [] n mu) n restWt) n (chWt n lineWt) (fun i => k.getD i 0) else 0

theorem transCount_top {dp : Bool} {n : Nat} {mu k : List Nat} (hm : IsStrict mu) (hs : k.sum = mu.sum) :
    transCount dp n mu k = (markedCount true false dp [] n mu).getD k 0 := by
  have hnil : IsStrict [] := ⟨by simp, by simp⟩
  rw [transCount, markedCount_weights (sh := true) (by simp) hnil hm]
  by_cases hk : IsPartition k ∧ k.length ≤ n
  · rw [if_pos hk, if_pos hk, wCount_choices_top (N := mu.sum)]
    · congr 1
      funext T i
      rw [lineWt_add, markWeight, add_comm]
    · intro T hT
      have := markedGen_count dp hnil hm n T hT
      simpa using this
    · rw [sum_range_length hk.2, hs]
  · rw [if_neg hk, if_neg hk]

theorem transCount_before {dp : Bool} {n : Nat} {mu k : List Nat} (hm : IsStrict mu) (hk : transCount dp n mu k ≠ 0)
    (hne : k ≠ mu) : beforeHigh mu k := by
  have hnil : IsStrict [] := ⟨by simp, by simp⟩
  have hle : k.sum ≤ mu.sum := by
    rw [transCount] at hk
    by_cases hp : IsPartition k ∧ k.length ≤ n
    swap
    · rw [if_neg hp] at hk
      exact absurd rfl hk
    rw [if_pos hp] at hk
    obtain ⟨T, hT, h⟩ := wCount_choices_support hk
    have := markedGen_count dp hnil hm n T hT
    rw [List.sum_nil, add_zero] at this
    rw [← this, ← sum_range_length hp.2]
    exact Finset.sum_le_sum (fun i hi => (h i (Finset.mem_range.1 hi)).2)
  rcases Nat.lt_or_ge k.sum mu.sum with h | h
  · exact Or.inl h
  have he : k.sum = mu.sum := by omega
  rw [transCount_top hm he] at hk
  rcases markedCount_before hm hk hne with h | h
  · omega
  · exact Or.inr h

theorem transCount_self {dp : Bool} {n : Nat} {mu : List Nat} (hm : IsStrict mu) (hl : mu.length ≤ n) :
    transCount dp n mu mu = if dp then 2 ^ mu.length else 1 := by
  rw [transCount_top hm rfl, markedCount_self hm hl]

/-- `function` gives the transposed dual polynomials, and `none` for partitions that are not strict. -/
def IsTransFamily (dp : Bool) (n : Nat) (w : PolyVal) (function : List Nat → Option SymPoly) : Prop :=
  (∀ mu, ¬ mu.Pairwise (· > ·) → function mu = none) ∧ ∀ mu, IsStrict mu → ∃ g, function mu = some g ∧ IsSym n g ∧
    (∀ k, g.get k = (transCount dp n mu k : PolyVal) * w ^ (mu.sum - k.sum)) ∧
    (polynomial Poly.x n g).den = ∑ T ∈ markedGen true false dp [] n mu, ∏ i ∈ Finset.range n,
        (xden Poly.x (i + 1) ^ lineWt T i * (xden Poly.x (i + 1) + w.den) ^ restWt T i)

theorem trans_triangular {dp : Bool} {n : Nat} {w : PolyVal} (hw : BetaOnly w.den) {function : List Nat → Option SymPoly}
    (hF : IsTransFamily dp n w function) :
    TriangularOn n (fun mu => IsStrict mu ∧ mu.length ≤ n) (fun mu => if dp then 2 ^ mu.length else 1) function
      beforeHigh := by
  refine ⟨beforeHigh_trans, beforeHigh_irrefl, fun mu ⟨hm, hl⟩ => ⟨by cases dp <;> simp, ?_⟩⟩
  obtain ⟨g, h1, h2, h3, _⟩ := hF.2 mu hm
  refine ⟨g, h1, h2, ?_, fun k => ?_, fun k hk hne => ?_⟩
  · rw [h3, transCount_self hm hl]; simp
  · rw [h3, PolyVal.den_mul, PolyVal.den_intCast, PolyVal.den_pow]
    exact betaOnly_mul (betaOnly_int _) (betaOnly_pow hw _)
  · refine transCount_before (dp := dp) (n := n) hm ?_ hne
    intro h
    rw [h3, h] at hk
    simp at hk

theorem phi_transFamily {dp : Bool} {n : Nat} {w : PolyVal} {function : List Nat → Option SymPoly}
    (hF : IsTransFamily dp n w function) {mu : List Nat} (hm : IsStrict mu) : phi (xden Poly.x) n (fden function mu) =
      ∑ T ∈ markedGen true false dp [] n mu, ∏ i ∈ Finset.range n,
        (xden Poly.x (i + 1) ^ lineWt T i * (xden Poly.x (i + 1) + w.den) ^ restWt T i) := by
  obtain ⟨g, h1, h2, _, h4⟩ := hF.2 mu hm
  rw [fden, h1, Option.map_some, Option.getD_some, ← h4, den_polynomial Poly.x n (fun k hk => (h2.keys k hk).1)]

theorem neg_mk_neg_beta : -PolyVal.mk (Poly.neg Poly.beta) = PolyVal.mk Poly.beta := by
  apply PolyVal.den_injective
  rw [PolyVal.den_neg, PolyVal.den_mk, PolyVal.den_mk, Poly.den_neg, neg_neg]

theorem family_trans {dp : Bool} {n : Nat} {tabs : List Nat → List Tab}
    (ht : ∀ mu S, IsStrict mu → semistandardShiftedMarked dp false [] n mu = some S → ListsSet (tabs mu) S) :
    IsTransFamily dp n (PolyVal.mk Poly.beta) (fun mu => (semistandardShiftedMarked dp false [] n mu).bind (fun _ =>
      transposedDualMarked n mu [] (Poly.neg Poly.beta) (tabs mu))) := by
  have hnil : IsStrict [] := ⟨by simp, by simp⟩
  constructor
  · intro mu h
    simp only [C51_not_strict dp false n h]
    rfl
  · intro mu hm
    have hS := semistandardShiftedMarked_eq (sv := false) (dp := dp) hnil n hm
    obtain ⟨f, h1, h2, _, h4, h5⟩ := transposedDualMarked_spec Poly.x dp n hm hnil (Or.inl rfl) (ht mu _ hm hS)
    refine ⟨f, ?_, h2, fun k => ?_, ?_⟩
    · simp only [hS]
      exact h1
    · rw [h4, transCount, neg_mk_neg_beta, List.sum_nil, Nat.sub_zero]
      by_cases hk : IsPartition k ∧ k.length ≤ n
      · rw [if_pos hk, if_pos hk]
      · rw [if_neg hk, if_neg hk]
        simp
    · rw [h5, PolyVal.den_mk, Poly.den_neg]
      simp only [sub_neg_eq_add]

/-! ### semistandard tableaux -/

open scoped Classical in
/-- The coefficients of the transposed dual polynomials. -/
noncomputable def rowCount (n : Nat) (mu k : List Nat) : Int :=
  if IsPartition k ∧ k.length ≤ n then
    wCount (choices (semistandard false [] n mu) n rowRestWt) n (chWt n rowLineWt) (fun i => k.getD i 0) else 0

theorem rowCount_wt {n : Nat} {mu : List Nat} (hm : IsPartition mu) (a : Nat → Nat) :
    wCount (semistandard false [] n mu) n (fun T i => rowLineWt T i + rowRestWt T i) a = tabCount false [] n mu a := by
  rw [wCount, tabCount]
  congr 2
  refine Finset.filter_congr (fun T hT => forall₂_congr (fun i _ => ?_))
  have hT' := hT
  rw [semistandard_eq_allTabs isPartition_nil hm, mem_allTabs ssRules_inj isPartition_nil n hm] at hT'
  have h1 : ((boxesWith T ((i : Int) + 1)).image Prod.fst).card ≤ _ := Finset.card_image_le
  rw [count_entries hT'.canon, rowLineWt, rowRestWt]
  have e : ((boxesWith T ((i : Int) + 1)).image Prod.fst).card + ((boxesWith T ((i : Int) + 1)).card -
      ((boxesWith T ((i : Int) + 1)).image Prod.fst).card) = (boxesWith T ((i : Int) + 1)).card := by omega
  rw [e]

theorem rowCount_top {n : Nat} {mu k : List Nat} (hm : IsPartition mu) (hs : k.sum = mu.sum) :
    rowCount n mu k = (countSemistandard false [] n mu).getD k 0 := by
  rw [rowCount]
  by_cases hk : IsPartition k ∧ k.length ≤ n
  · rw [if_pos hk, (count_spec isPartition_nil n hm k).1 hk, wCount_choices_top (N := mu.sum), rowCount_wt hm]
    · intro T hT
      have := semistandard_count isPartition_nil hm n T hT
      simpa using this
    · rw [sum_range_length hk.2, hs]
  · rw [if_neg hk, (count_spec isPartition_nil n hm k).2 hk]

theorem rowCount_support {n : Nat} {mu k : List Nat} (hm : IsPartition mu) (h : rowCount n mu k ≠ 0) :
    k.getD 0 0 ≤ mu.getD 0 0 ∧ (k ≠ mu → beforeHigh mu k) := by
  have h' := h
  rw [rowCount] at h'
  by_cases hp : IsPartition k ∧ k.length ≤ n
  swap
  · rw [if_neg hp] at h'
    exact absurd rfl h'
  rw [if_pos hp] at h'
  obtain ⟨T, hT, hw⟩ := wCount_choices_support h'
  constructor
  · by_cases h0 : 0 < n
    · refine (hw 0 h0).2.trans ?_
      have hne : tabCount false [] n mu (fun i => rowLineWt T i + rowRestWt T i) ≠ 0 := by
        rw [← rowCount_wt hm, wCount]
        have : 0 < ((semistandard false [] n mu).filter
            (fun T' => ∀ i < n, rowLineWt T' i + rowRestWt T' i = rowLineWt T i + rowRestWt T i)).card :=
          Finset.card_pos.2 ⟨T, Finset.mem_filter.2 ⟨hT, fun _ _ => rfl⟩⟩
        exact_mod_cast this.ne'
      exact (tabCount_support hm hne).2.1 0 h0
    · obtain rfl : k = [] := List.length_eq_zero_iff.1 (by omega)
      exact Nat.zero_le _
  · intro hne
    have hle : k.sum ≤ mu.sum := by
      have := semistandard_count isPartition_nil hm n T hT
      rw [List.sum_nil, add_zero] at this
      rw [← this, ← sum_range_length hp.2]
      exact Finset.sum_le_sum (fun i hi => (hw i (Finset.mem_range.1 hi)).2)
    rcases Nat.lt_or_ge k.sum mu.sum with hlt | hge
    · exact Or.inl hlt
    have he : k.sum = mu.sum := by omega
    rw [rowCount_top hm he] at h
    rcases (count_support hm h).2.2.2.2.2.1 hne with h7 | h7
    · omega
    · exact Or.inr h7

theorem rowCount_self {n : Nat} {mu : List Nat} (hm : IsPartition mu) (hl : mu.length ≤ n) : rowCount n mu mu = 1 := by
  rw [rowCount_top hm rfl, count_self hm hl]

/-- `function` gives the transposed dual polynomials. -/
def IsRowFamily (n : Nat) (w : PolyVal) (function : List Nat → Option SymPoly) : Prop :=
  ∀ mu, IsPartition mu → ∃ g, function mu = some g ∧ IsSym n g ∧
    (∀ k, g.get k = (rowCount n mu k : PolyVal) * w ^ (mu.sum - k.sum)) ∧
    (polynomial Poly.x n g).den = ∑ T ∈ semistandard false [] n mu, ∏ i ∈ Finset.range n,
        (xden Poly.x (i + 1) ^ rowLineWt T i * (xden Poly.x (i + 1) + w.den) ^ rowRestWt T i)

theorem row_triangular {n : Nat} {w : PolyVal} (hw : BetaOnly w.den) {function : List Nat → Option SymPoly}
    (hF : IsRowFamily n w function) : Triangular n function beforeHigh := by
  refine ⟨beforeHigh_trans, beforeHigh_irrefl, fun mu hm hl => ?_⟩
  obtain ⟨g, h1, h2, h3, _⟩ := hF mu hm
  refine ⟨g, h1, h2, ?_, fun k => ?_, fun k hk hne => ?_⟩
  · rw [h3, rowCount_self hm hl]; simp
  · rw [h3, PolyVal.den_mul, PolyVal.den_intCast, PolyVal.den_pow]
    exact betaOnly_mul (betaOnly_int _) (betaOnly_pow hw _)
  · refine (rowCount_support hm (n := n) (k := k) ?_).2 hne
    intro h
    rw [h3, h] at hk
    simp at hk

theorem row_first {n : Nat} {w : PolyVal} {function : List Nat → Option SymPoly}
    (hF : IsRowFamily n w function) {mu k : List Nat} (hm : IsPartition mu) (hk : fden function mu k ≠ 0) :
    k.getD 0 0 ≤ mu.getD 0 0 := by
  obtain ⟨g, h1, _, h3, _⟩ := hF mu hm
  rw [fden, h1, Option.map_some, Option.getD_some, Vec.den_apply, h3] at hk
  refine (rowCount_support hm (n := n) (k := k) (fun h => ?_)).1
  rw [h] at hk
  simp at hk

theorem phi_rowFamily {n : Nat} {w : PolyVal} {function : List Nat → Option SymPoly} (hF : IsRowFamily n w function)
    {mu : List Nat} (hm : IsPartition mu) : phi (xden Poly.x) n (fden function mu) =
      ∑ T ∈ semistandard false [] n mu, ∏ i ∈ Finset.range n,
        (xden Poly.x (i + 1) ^ rowLineWt T i * (xden Poly.x (i + 1) + w.den) ^ rowRestWt T i) := by
  obtain ⟨g, h1, h2, _, h4⟩ := hF mu hm
  rw [fden, h1, Option.map_some, Option.getD_some, ← h4, den_polynomial Poly.x n (fun k hk => (h2.keys k hk).1)]

theorem family_row {n : Nat} {tabs : List Nat → List Tab}
    (ht : ∀ mu, IsPartition mu → ListsSet (tabs mu) (semistandard false [] n mu)) :
    IsRowFamily n (PolyVal.mk Poly.beta) (fun mu => transposedDual n mu [] (Poly.neg Poly.beta) (tabs mu)) := by
  intro mu hm
  obtain ⟨f, h1, h2, _, h4, h5⟩ := transposedDual_spec Poly.x n hm isPartition_nil (Or.inl rfl) (ht mu hm)
  refine ⟨f, h1, h2, fun k => ?_, ?_⟩
  · rw [h4, rowCount, neg_mk_neg_beta, List.sum_nil, Nat.sub_zero]
    by_cases hk : IsPartition k ∧ k.length ≤ n
    · rw [if_pos hk, if_pos hk]
    · rw [if_neg hk, if_neg hk]
      simp
  · rw [h5, PolyVal.den_mk, Poly.den_neg]
    simp only [sub_neg_eq_add]

end Verif.Symm
