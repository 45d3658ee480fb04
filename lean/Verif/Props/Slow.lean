import Verif.Lemmas.SlowPoly
import Verif.Props.MarkedExpansion
import Verif.Props.Symmetric
import Verif.Props.Dual

/-! # C55: the slow generating functions agree with the fast ones -/

attribute [-simp] List.getD_eq_getElem?_getD

namespace Verif.Symm

open Tableaux Verif.Part Partition

/-- Both calls return, and the two results are equal (`==` of vectors.py) and symmetric. -/
def Agrees (n : Nat) (slow fast : Option SymPoly) : Prop :=
  ∃ f g, slow = some f ∧ fast = some g ∧ IsSym n f ∧ Vec.eq f g = true

/-- A number of tableaux, as a dictionary and as a set, as far as the two functions need it. -/
structure SameCounts (n : Nat) (W : Tab → List Nat) (S : Finset Tab) (d : Dict (List Nat) Int) : Prop where
  length : ∀ T ∈ S, (W T).length = n
  symm : ∀ u v : List Nat, u.length = n → u.Perm v →
    (S.filter (fun T => W T = u)).card = (S.filter (fun T => W T = v)).card
  keys : ∀ q ∈ d.keys, q.length ≤ n
  count : ∀ k, (IsPartition k ∧ k.length ≤ n → d.getD k 0 =
      (S.filter (fun T => ∀ i < n, (W T).getD i 0 = k.getD i 0)).card) ∧
      (¬ (IsPartition k ∧ k.length ≤ n) → d.getD k 0 = 0)

theorem agrees_vectorize {n : Nat} {W : Tab → List Nat} {S : Finset Tab} {d : Dict (List Nat) Int}
    (h : SameCounts n W S d) {tabs : List Tab} (ht : ListsSet tabs S) (signs : Option PolyVal) :
    Agrees n (slowVectorize n W tabs signs) (vectorize n d signs none) := by
  obtain ⟨f, g, h1, h2, h3, h4, h5⟩ := slow_eq_fast ht h.length h.symm h.keys h.count signs
  exact ⟨f, g, h1, h2, h3, vec_eq_of_get_eq h4 h5⟩

theorem agrees_beta {n : Nat} {S : Finset Tab} {d : Dict (List Nat) Int}
    (h : SameCounts n (weight n) S d) {tabs : List Tab} (ht : ListsSet tabs S) (mu nu : List Nat) :
    Agrees n (slowGrothendieck n mu nu tabs) (betaVectorize n mu nu d none) := by
  obtain ⟨f, g, h1, h2, h3, h4, h5⟩ := slow_eq_fast ht h.length h.symm h.keys h.count (some (PolyVal.mk Poly.beta))
  obtain ⟨b, hb1, _⟩ := pow_beta ((nu.sum : Int) - mu.sum)
  refine ⟨Vec.smul f (PolyVal.mk b), Vec.smul g (PolyVal.mk b), by rw [slowGrothendieck, h1, hb1], by
    rw [betaVectorize, h2, hb1], isSym_smul h3 _, vec_eq_of_get_eq (Vec.noZero_mk' _ _) (fun k => ?_)⟩
  rw [Vec.get_smul, Vec.get_smul, h5]

theorem sameCounts_semistandard (sv : Bool) (n : Nat) {mu nu : List Nat} (hm : IsPartition mu) (hn : IsPartition nu) :
    SameCounts n (weight n) (semistandard sv nu n mu) (countSemistandard sv nu n mu) := by
  have hw : ∀ T ∈ semistandard sv nu n mu, (weight n T).length = n ∧ ∀ i < n, (weight n T).getD i 0 =
      (T.items.flatMap Prod.snd).count ((i : Int) + 1) := by
    intro T hT
    have hT := ((mem_semistandard hn n hm T).1 hT).2
    have hr : ∀ x ∈ T.entries, 1 ≤ x ∧ x ≤ (n : Int) := by
      intro x hx
      obtain ⟨b, hb⟩ := Tab.mem_entries.1 hx
      exact hT.range b x hb
    obtain ⟨h1, h2⟩ := weight_spec (n := n) (T := T) (fun x hx => by have := hr x hx; omega)
    refine ⟨h1, fun i hi => ?_⟩
    rw [h2 i hi, List.count_eq_zero.2 (fun hc : -((i : Int) + 1) ∈ T.entries => by have := hr _ hc; omega)]
    rfl
  have hf : ∀ u : List Nat, u.length = n → (semistandard sv nu n mu).filter (fun T => weight n T = u) =
      (semistandard sv nu n mu).filter (fun T => ∀ i < n, (T.items.flatMap Prod.snd).count ((i : Int) + 1) = u.getD i 0) := by
    intro u hu
    refine Finset.filter_congr (fun T hT => ⟨?_, fun h => ?_⟩)
    · rintro rfl i hi
      rw [(hw T hT).2 i hi]
    · refine List.ext_getElem (by rw [(hw T hT).1, hu]) (fun i h1 h2 => ?_)
      have hi : i < n := by omega
      rw [← List.getD_eq_getElem _ 0 h1, ← List.getD_eq_getElem _ 0 h2, (hw T hT).2 i hi, h i hi]
  refine ⟨fun T hT => (hw T hT).1, fun u v hu hp => ?_, count_keys sv nu n mu, fun k => ?_⟩
  · rw [hf u hu, hf v (by rw [← hp.length_eq, hu])]
    exact C29_symmetric sv hm hn hp hu
  · rw [Finset.filter_congr (q := fun T => ∀ i < n, (T.items.flatMap Prod.snd).count ((i : Int) + 1) = k.getD i 0)
      (fun T hT => forall₂_congr (fun i hi => by rw [(hw T hT).2 i hi]))]
    exact C26_counts sv n hm hn k

theorem sameCounts_marked {sh sv dp : Bool} (hdp : sh = false → dp = true) (n : Nat) {mu nu : List Nat}
    (hm : IsShape sh mu) (hn : IsShape sh nu) :
    SameCounts n (weight n) (markedGen sh sv dp nu n mu) (markedCount sh sv dp nu n mu) :=
  ⟨fun _ hT => (weight_spec (isTab_entries ((isTab_markedGen hdp hn n hm).1 hT))).1,
    fun _ _ hu hp => symm_marked hdp n hm hn hu hp, markedCount_keys sh sv dp nu n mu, count_marked hdp n hm hn⟩

theorem sameCounts_rpp (n : Nat) {mu nu : List Nat} (hm : IsPartition mu) (hn : IsPartition nu) :
    SameCounts n (rppWeight n) (semistandardRpp nu n mu) (countSemistandardRpp nu n mu) :=
  ⟨fun _ hT => (C47_weight n hm hn hT).1, fun _ _ hu hp => C48_symmetric n hm hn hu hp,
    (rpp_countSetup hn).keys n mu hm, C48_count_rpp n hm hn⟩

/-- C55: `_slow_schur(n, mu, nu)` raises no exception, in whatever order the set of tableaux is traversed, and its value
equals `schur(n, mu, nu)`. -/
theorem C55_schur (n : Nat) {mu nu : List Nat} (hm : IsPartition mu) (hn : IsPartition nu) {tabs : List Tab}
    (ht : ListsSet tabs (semistandard false nu n mu)) : Agrees n (slowSchur n tabs) (schur n mu nu) :=
  agrees_vectorize (sameCounts_semistandard false n hm hn) ht none

/-- C55: the same for `_slow_stable_grothendieck`. -/
theorem C55_stable_grothendieck (n : Nat) {mu nu : List Nat} (hm : IsPartition mu) (hn : IsPartition nu)
    {tabs : List Tab} (ht : ListsSet tabs (semistandard true nu n mu)) :
    Agrees n (slowGrothendieck n mu nu tabs) (stableGrothendieck n mu nu none) :=
  agrees_beta (sameCounts_semistandard true n hm hn) ht mu nu

/-- C55: the same for `_slow_schur_s`. -/
theorem C55_schur_s (n : Nat) {mu nu : List Nat} (hm : IsPartition mu) (hn : IsPartition nu) {tabs : List Tab}
    (ht : ListsSet tabs (semistandardMarked false nu n mu)) : Agrees n (slowSchur n tabs) (schurS n mu nu) := by
  rw [semistandardMarked_eq false true] at ht
  rw [schurS, countSemistandardMarked_eq false true]
  exact agrees_vectorize (sameCounts_marked (sh := false) (fun _ => rfl) n hm hn) ht none

/-- C55: the same for `_slow_stable_grothendieck_s`. -/
theorem C55_stable_grothendieck_s (n : Nat) {mu nu : List Nat} (hm : IsPartition mu) (hn : IsPartition nu)
    {tabs : List Tab} (ht : ListsSet tabs (semistandardMarked true nu n mu)) :
    Agrees n (slowGrothendieck n mu nu tabs) (stableGrothendieckS n mu nu none) := by
  rw [semistandardMarked_eq true true] at ht
  rw [stableGrothendieckS, countSemistandardMarked_eq true true]
  exact agrees_beta (sameCounts_marked (sh := false) (fun _ => rfl) n hm hn) ht mu nu

/-- C55: the same for `_slow_schur_q`. -/
theorem C55_schur_q (n : Nat) {mu nu : List Nat} (hm : IsStrict mu) (hn : IsStrict nu) {S : Finset Tab}
    (hS : semistandardShiftedMarked true false nu n mu = some S) {tabs : List Tab} (ht : ListsSet tabs S) :
    Agrees n (slowSchur n tabs) (schurQ n mu nu) := by
  rw [semistandardShiftedMarked_eq hn n hm, Option.some_inj] at hS
  subst hS
  rw [schurQ, countSemistandardShiftedMarked_eq hn n hm]
  exact agrees_vectorize (sameCounts_marked (sh := true) (by simp) n hm hn) ht none

/-- C55: the same for `_slow_schur_p`. -/
theorem C55_schur_p (n : Nat) {mu nu : List Nat} (hm : IsStrict mu) (hn : IsStrict nu) {S : Finset Tab}
    (hS : semistandardShiftedMarked false false nu n mu = some S) {tabs : List Tab} (ht : ListsSet tabs S) :
    Agrees n (slowSchur n tabs) (schurP n mu nu) := by
  rw [semistandardShiftedMarked_eq hn n hm, Option.some_inj] at hS
  subst hS
  rw [schurP, countSemistandardShiftedMarked_eq hn n hm]
  exact agrees_vectorize (sameCounts_marked (sh := true) (by simp) n hm hn) ht none

/-- C55: the same for `_slow_stable_grothendieck_q`. -/
theorem C55_stable_grothendieck_q (n : Nat) {mu nu : List Nat} (hm : IsStrict mu) (hn : IsStrict nu) {S : Finset Tab}
    (hS : semistandardShiftedMarked true true nu n mu = some S) {tabs : List Tab} (ht : ListsSet tabs S) :
    Agrees n (slowGrothendieck n mu nu tabs) (stableGrothendieckQ n mu nu none) := by
  rw [semistandardShiftedMarked_eq hn n hm, Option.some_inj] at hS
  subst hS
  rw [stableGrothendieckQ, countSemistandardShiftedMarked_eq hn n hm]
  exact agrees_beta (sameCounts_marked (sh := true) (by simp) n hm hn) ht mu nu

/-- C55: the same for `_slow_stable_grothendieck_p`. -/
theorem C55_stable_grothendieck_p (n : Nat) {mu nu : List Nat} (hm : IsStrict mu) (hn : IsStrict nu) {S : Finset Tab}
    (hS : semistandardShiftedMarked false true nu n mu = some S) {tabs : List Tab} (ht : ListsSet tabs S) :
    Agrees n (slowGrothendieck n mu nu tabs) (stableGrothendieckP n mu nu none) := by
  rw [semistandardShiftedMarked_eq hn n hm, Option.some_inj] at hS
  subst hS
  rw [stableGrothendieckP, countSemistandardShiftedMarked_eq hn n hm]
  exact agrees_beta (sameCounts_marked (sh := true) (by simp) n hm hn) ht mu nu

/-- C55: the same for `_slow_dual_stable_grothendieck`. -/
theorem C55_dual_stable_grothendieck (n : Nat) {mu nu : List Nat} (hm : IsPartition mu) (hn : IsPartition nu)
    {tabs : List Tab} (ht : ListsSet tabs (semistandardRpp nu n mu)) :
    Agrees n (slowDual n mu nu tabs) (dualStableGrothendieck n mu nu) := by
  have h := sameCounts_rpp n hm hn
  obtain ⟨r, hr, _⟩ := dualStableGrothendieck_spec Poly.x n hm hn
  rw [dualStableGrothendieck, dualVectorize] at hr ⊢
  rw [slowDual]
  cases hb : Poly.pow Poly.beta (-1) with
  | none => rw [hb] at hr; cases hr
  | some b =>
    rw [hb] at hr
    simp only at hr ⊢
    obtain ⟨f, g, h1, h2, h3, h4, h5⟩ := slow_eq_fast ht h.length h.symm h.keys h.count (some (PolyVal.mk (Poly.neg b)))
    rw [h1, h2]
    rw [h2] at hr
    simp only at hr ⊢
    cases hc : Poly.pow (Poly.neg Poly.beta) ((mu.sum : Int) - nu.sum) with
    | none => rw [hc] at hr; cases hr
    | some c =>
      refine ⟨Vec.smul f (PolyVal.mk c), Vec.smul g (PolyVal.mk c), rfl, rfl, isSym_smul h3 _,
        vec_eq_of_get_eq (Vec.noZero_mk' _ _) (fun k => ?_)⟩
      rw [Vec.get_smul, Vec.get_smul, h5]

/-- C55: the assertion in `_slow_vectorize` fails exactly when some tableau has a weight that occurs more or less often
than its decreasing rearrangement. -/
theorem C55_assertion (n : Nat) (W : Tab → List Nat) (tabs : List Tab) (hW : ∀ T ∈ tabs, (W T).length = n)
    (hd : tabs.Nodup) (signs : Option PolyVal) : slowVectorize n W tabs signs = none ↔
      ∃ T ∈ tabs, ∃ u : List Nat, u.Pairwise (· ≥ ·) ∧ u.Perm (W T) ∧
        (tabs.filter (fun T' => W T' = u)).length ≠ (tabs.filter (fun T' => W T' = W T)).length := by
  have hl : ListsSet tabs tabs.toFinset := ⟨hd, fun T => List.mem_toFinset.symm⟩
  have hcard : ∀ u, ((tabs.toFinset.filter (fun T => W T = u)).card) = (tabs.filter (fun T => W T = u)).length := by
    intro u
    rw [← List.toFinset_card_of_nodup (hd.filter _)]
    congr 1
    ext T
    simp
  have hsorted : ∀ u : List Nat, (sortDown u).Pairwise (· ≥ ·) := fun u => by
    rw [sortDown, List.pairwise_reverse]
    exact List.pairwise_insertionSort _ u
  have hcheck : slowCheck (slowDictionary W tabs) = true ↔ ∀ T ∈ tabs,
      (tabs.filter (fun T' => W T' = sortDown (W T))).length = (tabs.filter (fun T' => W T' = W T)).length := by
    rw [slowCheck, List.all_eq_true]
    constructor
    · intro h T hT
      have hk : W T ∈ (slowDictionary W tabs).keys := by
        by_contra hc
        have h0 := slowDictionary_getD hl W (W T)
        rw [Dict.getD_of_notMem hc] at h0
        have h1 : (tabs.toFinset.filter (fun T' => W T' = W T)).card ≠ 0 :=
          Finset.card_ne_zero.2 ⟨T, by simp [hT]⟩
        exact h1 (by exact_mod_cast h0.symm)
      have := h _ hk
      rw [decide_eq_true_eq, slowDictionary_getD hl, slowDictionary_getD hl, hcard, hcard] at this
      exact_mod_cast this
    · intro h alpha ha
      obtain ⟨T, hT, rfl⟩ := slowDictionary_keys hl W alpha ha
      rw [decide_eq_true_eq, slowDictionary_getD hl, slowDictionary_getD hl, hcard, hcard,
        h T (List.mem_toFinset.1 hT)]
  have hiff : slowVectorize n W tabs signs = none ↔ ¬ slowCheck (slowDictionary W tabs) = true := by
    rw [slowVectorize]
    by_cases hc : slowCheck (slowDictionary W tabs) = true
    · rw [if_pos hc]
      obtain ⟨e, e1, _⟩ := slow_fold (n := n) (fun ac => (ac.2 : PolyVal) * slowSign signs ac.1)
        ((slowDictionary W tabs).items.filter (fun ac => isPartition (ac.1.map (fun a : Nat => (a : Int)))))
        ((slowDictionary W tabs).nodup.sublist (List.filter_sublist.map _)) (fun t ht => by
          rw [List.mem_filter, isPartition_cast] at ht
          obtain ⟨T, hT, hw⟩ := slowDictionary_keys hl W t.1 (Dict.mem_keys_of_items ht.1)
          exact ⟨by rw [← hw]; exact hW T (List.mem_toFinset.1 hT), ht.2⟩) Dict.empty (by simp [Dict.keys, Dict.empty])
      rw [e1]
      simp [hc]
    · rw [if_neg hc]
      simp [hc]
  rw [hiff, hcheck]
  push Not
  constructor
  · rintro ⟨T, hT, h⟩
    exact ⟨T, hT, _, hsorted _, (sortDown_perm _).symm, h⟩
  · rintro ⟨T, hT, u, h1, h2, h3⟩
    have : u = sortDown (W T) :=
      List.Perm.eq_of_pairwise (le := (· ≥ ·)) (fun _ _ _ _ h1 h2 => le_antisymm h2 h1) h1 (hsorted _)
        (h2.trans (sortDown_perm _))
    exact ⟨T, hT, this ▸ h3⟩

theorem exists_listsSet (S : Finset Tab) : ∃ tabs, ListsSet tabs S := ⟨S.toList, S.nodup_toList, fun _ => S.mem_toList⟩

example : IsStrict [2] ∧ IsStrict [] ∧ ((semistandardShiftedMarked false true [] 2 [2]).map Finset.card) = some 9 :=
  ⟨⟨by decide, by decide⟩, isStrict_nil, by decide +kernel⟩

/-- Weights (1, 2) without (2, 1) make the assertion fail. -/
example : slowVectorize 2 (weight 2) [(Tab.empty.set (1, 1) [1]).set (1, 2) [2] |>.set (1, 3) [2]] none = none := by
  decide +kernel

end Verif.Symm
