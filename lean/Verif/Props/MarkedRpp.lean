import Verif.Lemmas.MarkedRppCount
import Verif.Spec.Tableau

/-! Properties C62, C63: generating and counting marked reverse plane partitions. -/

attribute [-simp] List.getD_eq_getElem?_getD

namespace Verif.Tableaux

open Tab Verif.Part Partition Symm

theorem mrppVal_le {dn : Bool} {k l : Nat} (hk : 1 ≤ k) (hl : 1 ≤ l) :
    MarkedLT ((mrppRules dn).val k) ((mrppRules dn).val l) ∨ (mrppRules dn).val k = (mrppRules dn).val l ↔ k ≤ l := by
  simp only [MarkedLT, mrppRules, markRules, Int.abs_eq_natAbs]
  split <;> split <;> omega

theorem mrppVal_range {dn : Bool} {n : Nat} {x : Int} :
    (∃ k, 1 ≤ k ∧ k ≤ 2 * n ∧ x = (mrppRules dn).val k) ↔ 1 ≤ |x| ∧ |x| ≤ n := by
  rw [Int.abs_eq_natAbs]
  constructor
  · rintro ⟨k, h1, h2, rfl⟩
    simp only [mrppRules, markRules]
    split <;> omega
  · intro h
    rcases lt_trichotomy x 0 with hx | hx | hx
    · refine ⟨2 * x.natAbs - 1, by omega, by omega, ?_⟩
      simp only [mrppRules, markRules]
      rw [if_neg (by omega)]
      omega
    · subst hx; simp at h
    · refine ⟨2 * x.natAbs, by omega, by omega, ?_⟩
      simp only [mrppRules, markRules]
      rw [if_pos (by omega)]
      omega

theorem mrppVal_neg {dn : Bool} {k : Nat} (hk : 1 ≤ k) : (mrppRules dn).val k < 0 ↔ k % 2 = 1 := by
  simp only [mrppRules, markRules]
  split <;> omega

/-- C62: for strict partitions, `Tableau.semistandard_marked_rpp(n, mu, nu, diagonal_nonprimes)` (and
`semistandard_shifted_rpp`) raises no exception and returns the set of all marked reverse plane partitions of shifted shape
`mu/nu` with letters `1', 1, ..., n', n`, with only primed letters on the diagonal if `diagonal_nonprimes` is false; it is
empty when `nu` is not contained in `mu`. -/
theorem C62_semistandard_marked_rpp (dn : Bool) (n : Nat) {mu nu : List Nat} (hm : IsStrict mu) (hn : IsStrict nu) :
    ∃ S, semistandardMarkedRpp dn nu n mu = some S ∧ ∀ T, T ∈ S ↔ ShiftedDiagram nu ⊆ ShiftedDiagram mu ∧
      ∃ f, IsMarkedRPP dn n (ShiftedDiagram mu \ ShiftedDiagram nu) f ∧
        (∀ b ∈ ShiftedDiagram mu \ ShiftedDiagram nu, T.get? b = some [f b]) ∧
        ∀ b ∉ ShiftedDiagram mu \ ShiftedDiagram nu, T.get? b = none := by
  refine ⟨_, semistandardMarkedRpp_eq n hm, fun T => ?_⟩
  rw [isTab_mrppGen hn n hm, isTab_iff_filling rfl]
  refine and_congr_right (fun _ => exists_congr (fun f => and_congr_left (fun _ => ?_)))
  have hsh : shapeSet (mrppRules dn).sh mu \ shapeSet (mrppRules dn).sh nu = ShiftedDiagram mu \ ShiftedDiagram nu := rfl
  rw [hsh]
  simp only [mrppVal_range]
  constructor
  · rintro ⟨h1, h2, h3, h4⟩
    refine ⟨h1, fun i j a b => ?_, fun i j a b => ?_, fun hd i a => ?_⟩
    · obtain ⟨k, a1, _, a3⟩ := (mrppVal_range (dn := dn)).2 (h1 _ a)
      obtain ⟨l, b1, _, b3⟩ := (mrppVal_range (dn := dn)).2 (h1 _ b)
      rw [a3, b3, mrppVal_le a1 b1]
      exact (h2 i j k l a b a3.symm b3.symm).1
    · obtain ⟨k, a1, _, a3⟩ := (mrppVal_range (dn := dn)).2 (h1 _ a)
      obtain ⟨l, b1, _, b3⟩ := (mrppVal_range (dn := dn)).2 (h1 _ b)
      rw [a3, b3, mrppVal_le a1 b1]
      exact (h3 i j k l a b a3.symm b3.symm).1
    · obtain ⟨k, a1, _, a3⟩ := (mrppVal_range (dn := dn)).2 (h1 _ a)
      rw [a3, mrppVal_neg a1]
      rcases h4 i k a a3.symm with h | h
      · rw [hd] at h; simp at h
      · exact h
  · rintro ⟨h1, h2, h3, h4⟩
    have hpos : ∀ b ∈ ShiftedDiagram mu \ ShiftedDiagram nu, ∀ k, (mrppRules dn).val k = f b → 1 ≤ k := by
      intro b hb k hk
      by_contra hc
      have h0 : k = 0 := by omega
      subst h0
      have := h1 b hb
      rw [← hk] at this
      simp [mrppRules, markRules] at this
    refine ⟨h1, fun i j k l a b ha hb => ⟨?_, fun _ => trivial⟩, fun i j k l a b ha hb => ⟨?_, fun _ => trivial⟩,
      fun i k a ha => ?_⟩
    · have := h2 i j a b
      rwa [← ha, ← hb, mrppVal_le (hpos _ a k ha) (hpos _ b l hb)] at this
    · have := h3 i j a b
      rwa [← ha, ← hb, mrppVal_le (hpos _ a k ha) (hpos _ b l hb)] at this
    · show dn = true ∨ k % 2 = 1
      cases dn with
      | true => exact Or.inl rfl
      | false =>
        have := h4 rfl i a
        rw [← ha, mrppVal_neg (hpos _ a k ha)] at this
        exact Or.inr this

/-- C62: a shape that is not strict raises an AssertionError. -/
theorem C62_not_strict (dn : Bool) (n : Nat) {mu nu : List Nat} (h : ¬ mu.Pairwise (· > ·)) :
    semistandardMarkedRpp dn nu n mu = none ∧ countSemistandardMarkedRpp dn nu n mu = none := by
  have : isStrictPartition mu = false := by
    rw [← Bool.not_eq_true, isStrictPartition_iff]
    exact h
  cases n <;> simp [semistandardMarkedRpp, countSemistandardMarkedRpp, this]

/-- C62: `weight(n)` of a marked reverse plane partition is, for each letter `a`, the number of columns that contain `a`
plus the number of rows that contain `a'`. -/
theorem C62_weight (dn : Bool) (n : Nat) {mu nu : List Nat} (hm : IsStrict mu) (hn : IsStrict nu) {S : Finset Tab}
    (hS : semistandardMarkedRpp dn nu n mu = some S) {T : Tab} (hT : T ∈ S) :
    ∃ w, markedRppWeight n T = some w ∧ w.length = n ∧ ∀ a < n, w.getD a 0 =
      {j | ∃ i s, T.get? (i, j) = some s ∧ (a : Int) + 1 ∈ s}.ncard +
      {i | ∃ j s, T.get? (i, j) = some s ∧ -((a : Int) + 1) ∈ s}.ncard := by
  rw [semistandardMarkedRpp_eq n hm, Option.some_inj] at hS
  subst hS
  have h := (isTab_mrppGen hn n hm).1 hT
  refine ⟨_, markedRppWeight_eq h, length_wtL _ _ _, fun a ha => ?_⟩
  have hmem : ∀ b (x : Int), b ∈ boxesWith T x ↔ ∃ s, T.get? b = some s ∧ x ∈ s := by
    intro b x
    rw [mem_boxesWith, ent]
    cases hg : T.get? b with
    | none => simp
    | some s => simp
  rw [getD_wtL _ _ _ ha, mrppWt, ← Set.ncard_coe_finset, ← Set.ncard_coe_finset]
  congr 2
  · ext j
    rw [Finset.mem_coe, Finset.mem_image]
    constructor
    · rintro ⟨⟨i, j'⟩, h1, rfl⟩
      obtain ⟨s, h2, h3⟩ := (hmem _ _).1 h1
      exact ⟨i, s, h2, h3⟩
    · rintro ⟨i, s, h2, h3⟩
      exact ⟨(i, j), (hmem _ _).2 ⟨s, h2, h3⟩, rfl⟩
  · ext i
    rw [Finset.mem_coe, Finset.mem_image]
    constructor
    · rintro ⟨⟨i', j⟩, h1, rfl⟩
      obtain ⟨s, h2, h3⟩ := (hmem _ _).1 h1
      exact ⟨j, s, h2, h3⟩
    · rintro ⟨j, s, h2, h3⟩
      exact ⟨(i, j), (hmem _ _).2 ⟨s, h2, h3⟩, rfl⟩

example : (semistandardMarkedRpp true [] 2 [2, 1]).map Finset.card = some 20 := by decide +kernel

example : (semistandardMarkedRpp false [] 2 [2, 1]).map Finset.card = some 5 := by decide +kernel

example : markedRppWeight 2 ((((Tab.empty.add (1, 1) (-1)).add (1, 2) (-1)).add (2, 2) 2).add (1, 3) 2) = some [1, 2] := by
  decide +kernel

/-- C63: for strict partitions, `count_semistandard_marked_rpp` raises no exception.  For a partition `alpha` with at most
`n` parts, the count under the key `alpha` is the number of marked reverse plane partitions of weight `alpha` (padded with
zeros); all other keys have the value 0. -/
theorem C63_count_marked_rpp (dn : Bool) (n : Nat) {mu nu : List Nat} (hm : IsStrict mu) (hn : IsStrict nu) :
    ∃ d S, countSemistandardMarkedRpp dn nu n mu = some d ∧ semistandardMarkedRpp dn nu n mu = some S ∧
      ∀ alpha, (IsPartition alpha ∧ alpha.length ≤ n → d.getD alpha 0 =
        (S.filter (fun T => ∃ w, markedRppWeight n T = some w ∧ ∀ i < n, w.getD i 0 = alpha.getD i 0)).card) ∧
      (¬ (IsPartition alpha ∧ alpha.length ≤ n) → d.getD alpha 0 = 0) := by
  refine ⟨_, _, countSemistandardMarkedRpp_eq n hm, semistandardMarkedRpp_eq n hm, fun alpha => ?_⟩
  have h := (mrpp_countSetup (dn := dn) hn).count n mu hm alpha
  constructor
  · intro ha
    rw [h, if_pos ha, ← (mrpp_countSetup hn).stable ha.2 hm (fun i h1 _ => List.getD_eq_default _ _ h1), wCount]
    congr 2
    refine Finset.filter_congr (fun T hT => ?_)
    rw [markedRppWeight_eq ((isTab_mrppGen hn n hm).1 hT)]
    simp only [Option.some_inj, exists_eq_left']
    refine forall₂_congr (fun i hi => ?_)
    rw [getD_wtL _ _ _ hi]
  · intro ha
    rw [h, if_neg ha]

/-- C63: the number of marked reverse plane partitions of a given weight does not depend on the order of the weight. -/
theorem C63_symmetric (dn : Bool) (n : Nat) {mu nu : List Nat} (hm : IsStrict mu) (hn : IsStrict nu) {S : Finset Tab}
    (hS : semistandardMarkedRpp dn nu n mu = some S) {u v : List Nat} (hu : u.length = n) (hp : u.Perm v) :
    (S.filter (fun T => markedRppWeight n T = some u)).card = (S.filter (fun T => markedRppWeight n T = some v)).card := by
  rw [semistandardMarkedRpp_eq n hm, Option.some_inj] at hS
  subst hS
  have key : ∀ u : List Nat, u.length = n →
      (((mrppGen dn nu n mu).filter (fun T => markedRppWeight n T = some u)).card : Int) =
      wCount (mrppGen dn nu n mu) n mrppWt (fun i => u.getD i 0) := by
    intro u hu
    rw [wCount_wtL _ _ _ hu]
    congr 2
    refine Finset.filter_congr (fun T hT => ?_)
    rw [markedRppWeight_eq ((isTab_mrppGen hn n hm).1 hT), Option.some_inj]
  have h1 := wCount_perm (mrpp_swap (dn := dn) hn n hm) hp [] (by simpa using hu)
  simp only [List.nil_append] at h1
  have := (key u hu).trans (h1.trans (key v (by rw [← hp.length_eq, hu])).symm)
  exact_mod_cast this

example : (countSemistandardMarkedRpp true [] 2 [2, 1]).map (fun d => (d.getD [2, 1] 0, d.getD [2] 0, d.getD [1, 1] 0)) =
    some (4, 4, 4) := by decide +kernel

end Verif.Tableaux
