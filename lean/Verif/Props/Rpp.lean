import Verif.Lemmas.RppWeight
import Verif.Spec.Tableau

/-! Properties C47, C48: generating and counting reverse plane partitions. -/

attribute [-simp] List.getD_eq_getElem?_getD

namespace Verif.Tableaux

open Tab Verif.Part Partition Symm

/-- C47: `Tableau.semistandard_rpp(n, mu, nu)` is the set of all reverse plane partitions of shape `mu/nu` with entries
in `1..n`, and is empty when `nu` is not contained in `mu`. -/
theorem C47_semistandard_rpp (n : Nat) {mu nu : List Nat} (hm : IsPartition mu) (hn : IsPartition nu) (T : Tab) :
    T ∈ semistandardRpp nu n mu ↔ Diagram nu ⊆ Diagram mu ∧
      ∃ f, IsReversePlanePartition n (Diagram mu \ Diagram nu) f ∧
        (∀ b ∈ Diagram mu \ Diagram nu, T.get? b = some [f b]) ∧
        ∀ b ∉ Diagram mu \ Diagram nu, T.get? b = none := by
  rw [isTab_semistandardRpp hn n hm, isTab_iff_filling rfl]
  refine and_congr_right (fun _ => exists_congr (fun f => and_congr_left (fun _ => ?_)))
  have hv : ∀ k : Nat, rppRules.val k = (k : Int) := fun _ => rfl
  constructor
  · rintro ⟨h1, h2, h3, _⟩
    have h1' : ∀ b ∈ Diagram mu \ Diagram nu, ∃ k : Nat, 1 ≤ k ∧ k ≤ n ∧ (k : Int) = f b := by
      intro b hb
      obtain ⟨k, a1, a2, a3⟩ := h1 b hb
      exact ⟨k, a1, a2, a3.symm⟩
    refine ⟨fun b hb => ?_, fun i j a b => ?_, fun i j a b => ?_⟩
    · obtain ⟨k, a1, a2, a3⟩ := h1' b hb
      omega
    · obtain ⟨k, _, _, a3⟩ := h1' _ a
      obtain ⟨l, _, _, b3⟩ := h1' _ b
      have := (h2 i j k l a b a3 b3).1
      omega
    · obtain ⟨k, _, _, a3⟩ := h1' _ a
      obtain ⟨l, _, _, b3⟩ := h1' _ b
      have := (h3 i j k l a b a3 b3).1
      omega
  · rintro ⟨h1, h2, h3⟩
    refine ⟨fun b hb => ?_, fun i j k l a b ha hb => ?_, fun i j k l a b ha hb => ?_, fun _ _ _ _ => trivial⟩
    · have := h1 b hb
      exact ⟨(f b).toNat, by omega, by omega, by rw [hv]; omega⟩
    · have := h2 i j a b
      rw [hv] at ha hb
      exact ⟨by omega, fun _ => trivial⟩
    · have := h3 i j a b
      rw [hv] at ha hb
      exact ⟨by omega, fun _ => trivial⟩

/-- C47: `weight(n)` of a reverse plane partition is, for each letter, the number of columns that contain it. -/
theorem C47_weight (n : Nat) {mu nu : List Nat} (hm : IsPartition mu) (hn : IsPartition nu) {T : Tab}
    (hT : T ∈ semistandardRpp nu n mu) : (rppWeight n T).length = n ∧ ∀ a < n,
      (rppWeight n T).getD a 0 = {j | ∃ i s, T.get? (i, j) = some s ∧ (a : Int) + 1 ∈ s}.ncard := by
  have h := (isTab_semistandardRpp hn n hm).1 hT
  rw [rppWeight_eq h]
  refine ⟨length_wtL _ _ _, fun a ha => ?_⟩
  rw [getD_wtL _ _ _ ha, tabWeight, colOm, ← Set.ncard_coe_finset]
  congr 1
  ext j
  rw [Finset.mem_coe, Finset.mem_image]
  constructor
  · rintro ⟨⟨i, j'⟩, h1, rfl⟩
    rw [mem_boxesWith] at h1
    have h2 : (rppRules.val (a + 1)) = (a : Int) + 1 := by simp [rppRules]
    rw [h2, ent] at h1
    cases hg : T.get? (i, j') with
    | none => simp [hg] at h1
    | some s =>
      rw [hg] at h1
      exact ⟨i, s, hg, h1⟩
  · rintro ⟨i, s, h1, h2⟩
    refine ⟨(i, j), mem_boxesWith.2 ?_, rfl⟩
    rw [ent, h1]
    simpa [rppRules] using h2

example : (semistandardRpp [] 2 [2, 1]).card = 5 := by decide +kernel

example : rppWeight 2 ((Tab.empty.add (1, 1) 1).add (2, 1) 1) = [1, 0] := by decide +kernel

/-- C48: for a partition `alpha` with at most `n` parts, the count under the key `alpha` is the number of reverse plane
partitions of weight `alpha` (padded with zeros); all other keys have the value 0. -/
theorem C48_count_rpp (n : Nat) {mu nu : List Nat} (hm : IsPartition mu) (hn : IsPartition nu) (alpha : List Nat) :
    (IsPartition alpha ∧ alpha.length ≤ n → (countSemistandardRpp nu n mu).getD alpha 0 =
      ((semistandardRpp nu n mu).filter (fun T => ∀ i < n, (rppWeight n T).getD i 0 = alpha.getD i 0)).card) ∧
    (¬ (IsPartition alpha ∧ alpha.length ≤ n) → (countSemistandardRpp nu n mu).getD alpha 0 = 0) := by
  have h := (rpp_countSetup hn).count n mu hm alpha
  constructor
  · intro ha
    rw [h, if_pos ha, ← (rpp_countSetup hn).stable ha.2 hm (fun i h1 _ => List.getD_eq_default _ _ h1), wCount]
    congr 2
    refine Finset.filter_congr (fun T hT => forall₂_congr (fun i hi => ?_))
    rw [rppWeight_eq ((isTab_semistandardRpp hn n hm).1 hT), getD_wtL _ _ _ hi]
  · intro ha
    rw [h, if_neg ha]

/-- C48: the number of reverse plane partitions of a given weight does not depend on the order of the weight. -/
theorem C48_symmetric (n : Nat) {mu nu : List Nat} (hm : IsPartition mu) (hn : IsPartition nu) {u v : List Nat}
    (hu : u.length = n) (hp : u.Perm v) :
    ((semistandardRpp nu n mu).filter (fun T => rppWeight n T = u)).card =
      ((semistandardRpp nu n mu).filter (fun T => rppWeight n T = v)).card := by
  have key : ∀ u : List Nat, u.length = n →
      (((semistandardRpp nu n mu).filter (fun T => rppWeight n T = u)).card : Int) =
      wCount (semistandardRpp nu n mu) n (tabWeight rppRules colOm) (fun i => u.getD i 0) := by
    intro u hu
    rw [wCount_wtL _ _ _ hu]
    congr 2
    refine Finset.filter_congr (fun T hT => ?_)
    rw [rppWeight_eq ((isTab_semistandardRpp hn n hm).1 hT)]
  have h1 := wCount_perm (rpp_swap hn n hm) hp [] (by simpa using hu)
  simp only [List.nil_append] at h1
  have := (key u hu).trans (h1.trans (key v (by rw [← hp.length_eq, hu])).symm)
  exact_mod_cast this

example : (countSemistandardRpp [] 3 [2, 1]).getD [1, 1] 0 = 1 ∧
    (countSemistandardRpp [] 3 [2, 1]).getD [2] 0 = 1 ∧ (countSemistandardRpp [] 3 [2, 1]).getD [2, 1] 0 = 1 ∧
    (countSemistandardRpp [] 3 [2, 1]).getD [1, 1, 1] 0 = 2 := by decide +kernel

end Verif.Tableaux
