import Verif.Lemmas.TransPoly
import Verif.Lemmas.TransRow
import Verif.Lemmas.TabCount
import Verif.Lemmas.MarkedGen

/-! The transposed dual functions of semistandard and of shifted marked tableaux. -/

attribute [-simp] List.getD_eq_getElem?_getD

namespace Verif.Symm

open Tableaux Verif.Part Partition

/-! ### rows, columns and boxes that hold an entry -/

/-- Every box holds exactly one entry. -/
def SingleTab (T : Tab) : Prop := ∀ p ∈ T.items, ∃ a, p.2 = [a]

theorem singleTab_of_isTab {R : Rules} (hsv : R.sv = false) {lam mu : List Nat} {K : Nat} {T : Tab}
    (h : IsTab R lam K mu T) : SingleTab T := by
  rintro ⟨b, s⟩ hp
  have hg : T.get? b = some s := Tab.get?_eq_some.2 hp
  have he : T.ent b = s := by rw [Tab.ent, hg]; rfl
  have h1 := h.canon.ne b
  have h2 := h.canon.sorted b
  have h3 := h.single hsv b
  rw [he] at h2 h3
  rw [hg] at h1
  match s, h1, h2, h3 with
  | [], h1, _, _ => exact absurd rfl h1
  | [a], _, _, _ => exact ⟨a, rfl⟩
  | a :: c :: t, _, h2, h3 =>
    rw [List.pairwise_cons] at h2
    have := h2.1 c (by simp)
    have := h3 a (by simp) c (by simp)
    omega

theorem filter_head {T : Tab} (h : SingleTab T) (x : Int) : T.items.filter (fun p => decide (p.2.head? = some x)) =
    T.items.filter (fun p => decide (x ∈ p.2)) := by
  refine List.filter_congr (fun p hp => ?_)
  obtain ⟨a, ha⟩ := h p hp
  rw [ha]
  simp [eq_comm]

theorem rowsWith_eq {T : Tab} (h : SingleTab T) (x : Int) : rowsWith T x = (boxesWith T x).image Prod.fst := by
  rw [rowsWith, filter_head h, boxesWith]
  ext a
  simp only [List.mem_toFinset, List.mem_map, Finset.mem_image]
  constructor
  · rintro ⟨p, hp, rfl⟩
    exact ⟨p.1, ⟨p, hp, rfl⟩, rfl⟩
  · rintro ⟨b, ⟨p, hp, rfl⟩, rfl⟩
    exact ⟨p, hp, rfl⟩

theorem colsWith_eq {T : Tab} (h : SingleTab T) (x : Int) : colsWith T x = (boxesWith T x).image Prod.snd := by
  rw [colsWith, filter_head h, boxesWith]
  ext a
  simp only [List.mem_toFinset, List.mem_map, Finset.mem_image]
  constructor
  · rintro ⟨p, hp, rfl⟩
    exact ⟨p.1, ⟨p, hp, rfl⟩, rfl⟩
  · rintro ⟨b, ⟨p, hp, rfl⟩, rfl⟩
    exact ⟨p, hp, rfl⟩

theorem cellsWith_eq {T : Tab} (h : SingleTab T) (x : Int) : cellsWith T x = boxesWith T x := by
  rw [cellsWith, filter_head h, boxesWith]

theorem cellsWithAbs_card {T : Tab} (h : SingleTab T) (i : Nat) :
    (cellsWithAbs T (i + 1)).card = (boxesWith T ((i : Int) + 1)).card + (boxesWith T (-((i : Int) + 1))).card := by
  rw [← Finset.card_union_of_disjoint]
  · congr 1
    ext b
    simp only [cellsWithAbs, boxesWith, List.mem_toFinset, List.mem_map, Finset.mem_union, List.mem_filter, decide_eq_true_eq]
    constructor
    · rintro ⟨p, ⟨hp, hv⟩, rfl⟩
      obtain ⟨a, ha⟩ := h p hp
      rw [ha] at hv
      simp only [List.head?_cons, Option.map_some, Option.some_inj] at hv
      rcases Int.natAbs_eq a with h1 | h1
      · left
        refine ⟨p, ⟨hp, ?_⟩, rfl⟩
        rw [ha, List.mem_singleton]
        omega
      · right
        refine ⟨p, ⟨hp, ?_⟩, rfl⟩
        rw [ha, List.mem_singleton]
        omega
    · rintro (⟨p, ⟨hp, hv⟩, rfl⟩ | ⟨p, ⟨hp, hv⟩, rfl⟩)
      all_goals
        refine ⟨p, ⟨hp, ?_⟩, rfl⟩
        obtain ⟨a, ha⟩ := h p hp
        rw [ha, List.mem_singleton] at hv
        rw [ha]
        simp only [List.head?_cons, Option.map_some, Option.some_inj]
        omega
  · rw [Finset.disjoint_left]
    intro b h1 h2
    rw [mem_boxesWith] at h1 h2
    have : ∃ a, T.ent b = [a] := by
      unfold Tab.ent at h1 ⊢
      cases hg : T.get? b with
      | none => simp [hg] at h1
      | some s => exact h (b, s) (Tab.get?_eq_some.1 hg)
    obtain ⟨a, ha⟩ := this
    rw [ha, List.mem_singleton] at h1 h2
    omega

/-! ### shifted marked tableaux -/

/-- Rows that hold `i + 1` and columns that hold `-(i + 1)`. -/
def lineWt (T : Tab) (i : Nat) : Nat :=
  ((boxesWith T ((i : Int) + 1)).image Prod.fst).card + ((boxesWith T (-((i : Int) + 1))).image Prod.snd).card

/-- The other boxes that hold `±(i + 1)`. -/
def restWt (T : Tab) (i : Nat) : Nat :=
  (boxesWith T ((i : Int) + 1)).card - ((boxesWith T ((i : Int) + 1)).image Prod.fst).card +
    ((boxesWith T (-((i : Int) + 1))).card - ((boxesWith T (-((i : Int) + 1))).image Prod.snd).card)

theorem lineWt_add (T : Tab) (i : Nat) : lineWt T i + restWt T i = 
    (boxesWith T (-((i : Int) + 1))).card + (boxesWith T ((i : Int) + 1)).card := by
  have h1 : ((boxesWith T ((i : Int) + 1)).image Prod.fst).card ≤ _ := Finset.card_image_le
  have h2 : ((boxesWith T (-((i : Int) + 1))).image Prod.snd).card ≤ _ := Finset.card_image_le
  rw [lineWt, restWt]
  omega

theorem markExponents_eq {T : Tab} (h : SingleTab T) (i : Nat) :
    markExponents T (i + 1) = ((lineWt T i : Int), (restWt T i : Int)) := by
  have h1 : ((boxesWith T ((i : Int) + 1)).image Prod.fst).card ≤ _ := Finset.card_image_le
  have h2 : ((boxesWith T (-((i : Int) + 1))).image Prod.snd).card ≤ _ := Finset.card_image_le
  rw [markExponents, rowsWith_eq h, colsWith_eq h, cellsWithAbs_card h, lineWt, restWt]
  push_cast
  rw [Prod.mk.injEq]
  refine ⟨rfl, ?_⟩
  omega

theorem prod_range_two {A : Type*} [CommMonoid A] (f : Nat → A) (n : Nat) :
    ∏ k ∈ Finset.range (2 * n), f k = ∏ i ∈ Finset.range n, (f (2 * i) * f (2 * i + 1)) := by
  induction n with
  | zero => rfl
  | succ n ih => rw [show 2 * (n + 1) = 2 * n + 1 + 1 by ring, Finset.prod_range_succ, Finset.prod_range_succ, ih,
      Finset.prod_range_succ, mul_assoc]

theorem sum_range_two {A : Type*} [AddCommMonoid A] (f : Nat → A) (n : Nat) :
    ∑ k ∈ Finset.range (2 * n), f k = ∑ i ∈ Finset.range n, (f (2 * i) + f (2 * i + 1)) := by
  induction n with
  | zero => rfl
  | succ n ih => rw [show 2 * (n + 1) = 2 * n + 1 + 1 by ring, Finset.sum_range_succ, Finset.sum_range_succ, ih,
      Finset.sum_range_succ, add_assoc]

theorem markedGen_eq_allTabs (dp : Bool) {lam mu : List Nat} (hl : IsStrict lam) (hm : IsStrict mu) (n : Nat) :
    markedGen true false dp lam n mu = allTabs (markRules true false dp) lam (2 * n) mu := by
  ext T
  rw [isTab_markedGen (fun h => by simp at h) (sh := true) hl n hm,
    mem_allTabs (R := markRules true false dp) (markRules_inj true false dp) hl (2 * n) hm]

theorem transGen_eq {A : Type*} [CommRing A] (dp : Bool) {lam mu : List Nat} (hl : IsStrict lam) (hm : IsStrict mu) (n : Nat)
    (y : Nat → A) : transGen dp n mu lam y =
      ∑ T ∈ markedGen true false dp lam n mu, ∏ i ∈ Finset.range n, (y i ^ lineWt T i * (y i + 1) ^ restWt T i) := by
  rw [transGen, omGen, markedGen_eq_allTabs dp hl hm]
  refine Finset.sum_congr rfl (fun T _ => ?_)
  rw [prod_range_two]
  refine Finset.prod_congr rfl (fun i _ => ?_)
  rw [markRules_val_odd, show 2 * i + 1 + 1 = 2 * i + 2 by ring, markRules_val_even, transOm, transOm, if_neg (by omega),
    if_pos (by omega), show (2 * i + 1 - 1) / 2 = i by omega, show (2 * i + 2 - 1) / 2 = i by omega, lineWt, restWt, pow_add, pow_add]
  ring

theorem choices_swapInvariant (dp : Bool) {lam mu : List Nat} (hl : IsStrict lam) (hm : IsStrict mu) (n : Nat) :
    SwapInvariant (choices (markedGen true false dp lam n mu) n restWt) n (chWt n lineWt) := by
  refine swapInvariant_of_field _ n _ (fun j hj => ?_)
  rw [WG_choices, WG_choices, ← transGen_eq dp hl hm, ← transGen_eq dp hl hm]
  have h0 : ∀ i : ℕ, algebraMap (MvPolynomial ℕ ℤ) (FractionRing (MvPolynomial ℕ ℤ)) (MvPolynomial.X i) ≠ 0 := by
    intro i h
    rw [← map_zero (algebraMap (MvPolynomial ℕ ℤ) (FractionRing (MvPolynomial ℕ ℤ)))] at h
    exact MvPolynomial.X_ne_zero i (IsFractionRing.injective _ _ h)
  exact transGen_swap dp hl hm n j hj _ (h0 _) (h0 _)

theorem markedGen_count (dp : Bool) {lam mu : List Nat} (hl : IsStrict lam) (hm : IsStrict mu) (n : Nat) :
    ∀ T ∈ markedGen true false dp lam n mu, ∑ i ∈ Finset.range n, (lineWt T i + restWt T i) + lam.sum = mu.sum := by
  intro T hT
  have h := (isTab_markedGen (fun h => by simp at h) (sh := true) hl n hm).1 hT
  rw [← isTab_length h, ← sum_boxesWith rfl (markRules_inj true false dp) h, sum_range_two]
  congr 1
  refine Finset.sum_congr rfl (fun i _ => ?_)
  rw [markRules_val_odd, show 2 * i + 1 + 1 = 2 * i + 2 by ring, markRules_val_even, lineWt_add]

/-! ### semistandard tableaux -/

/-- Rows that hold `i + 1`. -/
def rowLineWt (T : Tab) (i : Nat) : Nat := ((boxesWith T ((i : Int) + 1)).image Prod.fst).card

/-- The other boxes that hold `i + 1`. -/
def rowRestWt (T : Tab) (i : Nat) : Nat :=
  (boxesWith T ((i : Int) + 1)).card - ((boxesWith T ((i : Int) + 1)).image Prod.fst).card

theorem rowExponents_eq {T : Tab} (h : SingleTab T) (i : Nat) :
    rowExponents T (i + 1) = ((rowLineWt T i : Int), (rowRestWt T i : Int)) := by
  have h1 : ((boxesWith T ((i : Int) + 1)).image Prod.fst).card ≤ _ := Finset.card_image_le
  rw [rowExponents, rowsWith_eq h, cellsWith_eq h, rowLineWt, rowRestWt]
  push_cast
  rw [Prod.mk.injEq]
  refine ⟨rfl, ?_⟩
  omega

theorem semistandard_eq_allTabs {lam mu : List Nat} (hl : IsPartition lam) (hm : IsPartition mu) (n : Nat) :
    semistandard false lam n mu = allTabs ssRules lam n mu := by
  ext T
  rw [mem_semistandard hl n hm, ← isTab_ssRules hm hl, mem_allTabs ssRules_inj hl n hm]

theorem ssRules_val (k : Nat) : ssRules.val k = (k : Int) := rfl

theorem rowGen_eq {A : Type*} [CommRing A] {lam mu : List Nat} (hl : IsPartition lam) (hm : IsPartition mu) (n : Nat)
    (y : Nat → A) : rowGen n mu lam y =
      ∑ T ∈ semistandard false lam n mu, ∏ i ∈ Finset.range n, (y i ^ rowLineWt T i * (y i + 1) ^ rowRestWt T i) := by
  rw [rowGen, omGen, semistandard_eq_allTabs hl hm]
  refine Finset.sum_congr rfl (fun T _ => Finset.prod_congr rfl (fun i _ => ?_))
  rw [ssRules_val, rowOm, Nat.add_sub_cancel, rowLineWt, rowRestWt]
  push_cast
  rfl

theorem rowChoices_swapInvariant {lam mu : List Nat} (hl : IsPartition lam) (hm : IsPartition mu) (n : Nat) :
    SwapInvariant (choices (semistandard false lam n mu) n rowRestWt) n (chWt n rowLineWt) := by
  intro j hj y
  rw [WG_choices, WG_choices, ← rowGen_eq hl hm, ← rowGen_eq hl hm]
  exact rowGen_swap hl hm n j hj y

theorem semistandard_count {lam mu : List Nat} (hl : IsPartition lam) (hm : IsPartition mu) (n : Nat) :
    ∀ T ∈ semistandard false lam n mu, ∑ i ∈ Finset.range n, (rowLineWt T i + rowRestWt T i) + lam.sum = mu.sum := by
  intro T hT
  rw [semistandard_eq_allTabs hl hm, mem_allTabs ssRules_inj hl n hm] at hT
  rw [← isTab_length hT, ← sum_boxesWith rfl ssRules_inj hT]
  congr 1
  refine Finset.sum_congr rfl (fun i _ => ?_)
  have h1 : ((boxesWith T ((i : Int) + 1)).image Prod.fst).card ≤ _ := Finset.card_image_le
  rw [ssRules_val, rowLineWt, rowRestWt]
  push_cast
  omega

/-! ### the four functions -/

/-- The two values of `beta` that are used: `-BETA`, the default, and `BETA`. -/
theorem pow_pm_beta {beta : Poly} (h : beta = Poly.neg Poly.beta ∨ beta = Poly.beta) (k : Int) :
    ∃ b c, Poly.pow beta (-1) = some b ∧ b.den * beta.den = 1 ∧ Poly.pow (Poly.neg beta) k = some c := by
  have hmono : ∀ q : Poly, ∀ m : Mono, ∀ s : ℤ, q.items = [(m, s)] → s.natAbs ≤ 1 → ∃ c, Poly.pow q k = some c := by
    intro q m s hq hs
    rw [Poly.pow]
    by_cases h0 : k = 0
    · exact ⟨_, if_pos h0⟩
    · rw [if_neg h0]
      by_cases hneg : k < 0
      · rw [if_pos hneg, hq]
        exact ⟨_, if_neg (by omega)⟩
      · exact ⟨_, if_neg hneg⟩
  rcases h with rfl | rfl
  · obtain ⟨b, h1, h2⟩ := C04_pow_negative_partial (Poly.neg Poly.beta) 1 (by omega) (Mono.var 0 1) (-1) (by decide)
      (Or.inr ⟨rfl, by decide⟩)
    obtain ⟨c, hc⟩ := hmono (Poly.neg (Poly.neg Poly.beta)) (Mono.var 0 1) 1 (by decide) (by decide)
    exact ⟨b, c, h1, by rw [pow_one] at h2; exact h2, hc⟩
  · obtain ⟨b, h1, h2⟩ := C04_pow_negative_partial Poly.beta 1 (by omega) (Mono.var 0 1) 1 (by decide) (Or.inl rfl)
    obtain ⟨c, hc⟩ := hmono (Poly.neg Poly.beta) (Mono.var 0 1) (-1) (by decide) (by decide)
    exact ⟨b, c, h1, by rw [pow_one] at h2; exact h2, hc⟩

open scoped Classical in
theorem transposedDualMarked_spec (v : Int → Poly) (dp : Bool) (n : Nat) {mu nu : List Nat} (hm : IsStrict mu)
    (hn : IsStrict nu) {beta : Poly} (hb : beta = Poly.neg Poly.beta ∨ beta = Poly.beta) {tabs : List Tab}
    (ht : ListsSet tabs (markedGen true false dp nu n mu)) :
    ∃ f, transposedDualMarked n mu nu beta tabs = some f ∧ IsSym n f ∧ Vec.NoZero f ∧
      (∀ k, f.get k = if IsPartition k ∧ k.length ≤ n then
        (wCount (choices (markedGen true false dp nu n mu) n restWt) n (chWt n lineWt) (fun i => k.getD i 0) : PolyVal) *
          (-PolyVal.mk beta) ^ (mu.sum - nu.sum - k.sum) else 0) ∧
      (polynomial v n f).den = ∑ T ∈ markedGen true false dp nu n mu, ∏ i ∈ Finset.range n,
        (xden v (i + 1) ^ lineWt T i * (xden v (i + 1) - beta.den) ^ restWt T i) := by
  obtain ⟨b, c, h1, h2, h3⟩ := pow_pm_beta hb ((mu.sum : Int) - nu.sum)
  exact transVectorize_spec v ht (fun T hT i _ => markExponents_eq (singleTab_of_isTab rfl
    ((isTab_markedGen (fun h => by simp at h) (sh := true) hn n hm).1 hT)) i)
    (choices_swapInvariant dp hn hm n) h1 h2 h3 (markedGen_count dp hn hm n)

open scoped Classical in
theorem transposedDual_spec (v : Int → Poly) (n : Nat) {mu nu : List Nat} (hm : IsPartition mu)
    (hn : IsPartition nu) {beta : Poly} (hb : beta = Poly.neg Poly.beta ∨ beta = Poly.beta) {tabs : List Tab}
    (ht : ListsSet tabs (semistandard false nu n mu)) :
    ∃ f, transposedDual n mu nu beta tabs = some f ∧ IsSym n f ∧ Vec.NoZero f ∧
      (∀ k, f.get k = if IsPartition k ∧ k.length ≤ n then
        (wCount (choices (semistandard false nu n mu) n rowRestWt) n (chWt n rowLineWt) (fun i => k.getD i 0) : PolyVal) *
          (-PolyVal.mk beta) ^ (mu.sum - nu.sum - k.sum) else 0) ∧
      (polynomial v n f).den = ∑ T ∈ semistandard false nu n mu, ∏ i ∈ Finset.range n,
        (xden v (i + 1) ^ rowLineWt T i * (xden v (i + 1) - beta.den) ^ rowRestWt T i) := by
  obtain ⟨b, c, h1, h2, h3⟩ := pow_pm_beta hb ((mu.sum : Int) - nu.sum)
  refine transVectorize_spec v ht (fun T hT i _ => rowExponents_eq (singleTab_of_isTab (R := ssRules) (lam := nu) (mu := mu) (K := n) rfl ?_) i)
    (rowChoices_swapInvariant hn hm n) h1 h2 h3 (semistandard_count hn hm n)
  · rw [semistandard_eq_allTabs hn hm, mem_allTabs ssRules_inj hn n hm] at hT
    exact hT

end Verif.Symm
