import Verif.Lemmas.Grassmannian
import Verif.Props.PermCodes
import Verif.Props.Partitions

/-! # C67: Grassmannian permutations -/

namespace Verif.Perm

open Verif.Part Verif.Partition

attribute [-simp] List.getD_eq_getElem?_getD
attribute [local irreducible] mul s inverse identity len

theorem mem_rightDescents_unsigned {v : SPerm} (hu : isUnsigned v = true) (i : Nat) :
    i ∈ rightDescents v ↔ 1 ≤ i ∧ v.call ((i : Int) + 1) < v.call i := by
  rw [mem_rightDescents, Desc, lo]
  by_cases hi : i = 0
  · subst hi
    rw [if_pos rfl]
    have := isUnsigned_iff.1 hu 1 (by omega)
    rw [(call_odd v).neg]
    simp only [Int.natCast_zero, zero_add]
    omega
  · rw [if_neg hi]
    omega

theorem IsGr.descents {v : SPerm} {mu : List Nat} (h : IsGr v mu.reverse) (hmu : IsPartition mu) (i : Nat) :
    i ∈ rightDescents v ↔ mu ≠ [] ∧ i = mu.length := by
  have hs : mu.reverse.Pairwise (· ≤ ·) := by rw [List.pairwise_reverse]; exact hmu.1
  rw [mem_rightDescents_unsigned h.pos]
  have key : ∀ i : Nat, 1 ≤ i → (v.call ((i : Int) + 1) < v.call i ↔ mu.reverse.getD i 0 < mu.reverse.getD (i - 1) 0) := by
    intro i hi
    have e1 := card_rowSet_succ h.pos (i := i) (by omega)
    have e2 := h.card_rowSet hs i
    have e3 := h.card_rowSet hs (i - 1)
    rw [show (((i - 1 : Nat) : Int) + 1) = i by omega] at e3
    rw [e2, e3] at e1
    exact e1.symm
  constructor
  · rintro ⟨h1, h2⟩
    rw [key i h1] at h2
    have hlt : i - 1 < mu.length := by
      by_contra hc
      rw [List.getD_eq_default (n := i - 1) _ _ (by rw [List.length_reverse]; omega)] at h2
      omega
    refine ⟨by rintro rfl; simp at hlt, ?_⟩
    by_contra hc
    have := sorted_getD hs (j := i - 1) (k := i) (by omega) (by rw [List.length_reverse]; omega)
    omega
  · rintro ⟨h1, rfl⟩
    have hl := List.length_pos_iff.2 h1
    refine ⟨hl, ?_⟩
    rw [key _ hl, List.getD_eq_default _ _ (by rw [List.length_reverse]), List.getD_eq_getElem _ _ (by rw [List.length_reverse]; omega)]
    exact hmu.2 _ (List.mem_reverse.1 (List.getElem_mem _))

theorem getGrassmannian_partition {mu : List Nat} (hmu : IsPartition mu) :
    ∃ v, getGrassmannian mu = some (inverse v) ∧ IsGr v mu.reverse ∧ permShape (inverse v) = some mu := by
  obtain ⟨v, h1, -, h3⟩ := getGrassmannian_spec mu
  have hs := List.pairwise_insertionSort (· ≤ ·) mu
  have h4 := h3.shape hs
  rw [sortDescTrim_sort, sortDescTrim_self hmu] at h4
  rw [sort_of_partition hmu] at h3
  exact ⟨v, h1, h3, h4⟩

/-- C67: `get_grassmannian(*mu)` of a partition `mu` is a permutation `w` without signs.  The first values of its inverse are
`i + mu_(r + 1 - i)`, where `r` is the number of parts; the inverse has at most one descent, `r`; the shape of `w` is `mu`,
its length is the size of `mu`. -/
theorem C67_get_grassmannian {mu : List Nat} (hmu : IsPartition mu) : ∃ w, getGrassmannian mu = some w ∧ isUnsigned w = true ∧
    (∀ k < mu.length, (inverse w).call ((k : Int) + 1) = (k : Int) + 1 + mu.reverse.getD k 0) ∧
    leftDescents w = (if mu = [] then [] else [mu.length]) ∧ permShape w = some mu ∧ len w = mu.sum := by
  obtain ⟨v, h1, h3, h4⟩ := getGrassmannian_partition hmu
  have hu : isUnsigned (inverse v) = true := inverse_unsigned h3.pos
  refine ⟨_, h1, hu, fun k hk => ?_, ?_, h4, ?_⟩
  · rw [inverse_inverse]
    exact h3.val k (by rw [List.length_reverse]; exact hk)
  · rw [leftDescents, inverse_inverse]
    have hd := h3.descents hmu
    by_cases he : mu = []
    · rw [if_pos he, List.eq_nil_iff_forall_not_mem]
      intro i hi
      exact ((hd i).1 hi).1 he
    · rw [if_neg he]
      refine List.perm_singleton.1 ((List.perm_ext_iff_of_nodup (rightDescents_nodup v) (List.nodup_singleton _)).2 (fun i => ?_))
      rw [hd, List.mem_singleton]
      exact ⟨fun h => h.2, fun h => ⟨he, h⟩⟩
  · obtain ⟨nu, c, e1, -, -, -, e2⟩ := C66_shape hu
    rw [h4, Option.some.injEq] at e1
    rw [← e2, ← e1]

example : (getGrassmannian [3, 1]).map (fun w => (w.oneline, (inverse w).oneline)) = some ([3, 1, 4, 5, 2], [2, 5, 1, 3, 4]) := by
  decide +kernel

/-- C67: the order of the arguments and zeros do not matter for the shape of `get_grassmannian(*mu)`. -/
theorem C67_get_grassmannian_any (mu : List Nat) : ∃ w lam, getGrassmannian mu = some w ∧ permShape w = some lam ∧
    lam.Perm (mu.filter (· ≠ 0)) ∧ len w = mu.sum := by
  obtain ⟨v, h1, -, h3⟩ := getGrassmannian_spec mu
  have h4 := h3.shape (List.pairwise_insertionSort (· ≤ ·) mu)
  rw [sortDescTrim_sort] at h4
  have h5 := (sortDescTrim_spec mu).1
  refine ⟨_, _, h1, h4, h5, ?_⟩
  obtain ⟨nu, c, e1, -, -, -, e2⟩ := C66_shape (inverse_unsigned h3.pos)
  rw [h4, Option.some.injEq] at e1
  rw [← e2, ← e1, h5.sum_eq, filter_ne_zero_sum]

example : (getGrassmannian [1, 0, 3]).map (fun w => (inverse w).oneline) = some [1, 3, 6, 2, 4, 5] := by decide +kernel

theorem isGrassmannian_iff (w : SPerm) : isGrassmannian w = some true ↔ ∃ mu, IsPartition mu ∧ permShape w = some mu ∧
    getGrassmannian mu = some w := by
  constructor
  · intro h
    have hu : isUnsigned w = true := by
      by_contra hc
      have hc' : isUnsigned (inverse w) = false := by
        rw [← Bool.not_eq_true]
        intro h'
        have := inverse_unsigned h'
        rw [inverse_inverse] at this
        exact hc this
      rw [isGrassmannian, permShape, (C66_code _).2 hc'] at h
      cases h
    obtain ⟨mu, c, h1, -, h2, -⟩ := C66_shape hu
    obtain ⟨v, h3, -⟩ := getGrassmannian_partition h2
    rw [isGrassmannian, h1, Option.bind_some, h3, Option.map_some, Option.some.injEq, decide_eq_true_iff] at h
    exact ⟨mu, h2, h1, by rw [h3, h]⟩
  · rintro ⟨mu, h1, h2, h3⟩
    rw [isGrassmannian, h2, Option.bind_some, h3, Option.map_some]
    simp

/-- C67: `is_grassmannian` accepts the identity and the permutations without signs with exactly one left descent and
`w(1) ≠ 1`; it raises exactly for permutations with signs.  (So permutations with one left descent and `w(1) = 1` are not
recognised.) -/
theorem C67_is_grassmannian (w : SPerm) :
    (isGrassmannian w = some true ↔ isUnsigned w = true ∧ (w = identity ∨ ((∃ r, leftDescents w = [r]) ∧ w.call 1 ≠ 1))) ∧
    (isGrassmannian w = none ↔ isUnsigned w = false) := by
  have hu' : isUnsigned w = true → isUnsigned (inverse w) = true := inverse_unsigned
  constructor
  · rw [isGrassmannian_iff]
    constructor
    · rintro ⟨mu, h1, h2, h3⟩
      obtain ⟨w', h4, h5, h6, h7, h8, h9⟩ := C67_get_grassmannian h1
      rw [h3, Option.some.injEq] at h4
      subst h4
      refine ⟨h5, ?_⟩
      by_cases he : mu = []
      · left
        subst he
        rw [← len_eq_zero, h9]
        rfl
      · right
        rw [if_neg he] at h7
        refine ⟨⟨_, h7⟩, fun hc => ?_⟩
        have hl := List.length_pos_iff.2 he
        have e1 := h6 0 hl
        simp only [Int.natCast_zero, zero_add] at e1
        have e2 := congrArg (inverse w).call hc
        rw [inverse_call, e1, List.getD_eq_getElem _ _ (by rw [List.length_reverse]; exact hl)] at e2
        have := h1.2 _ (List.mem_reverse.1 (List.getElem_mem (l := mu.reverse) (n := 0) (by rw [List.length_reverse]; exact hl)))
        omega
    · rintro ⟨hu, h⟩
      have hgr : ∃ r : Nat, (∀ i : Int, 0 < i → i ≠ r → (inverse w).call i < (inverse w).call (i + 1)) ∧
          (r ≠ 0 → (inverse w).call 1 ≠ 1) := by
        rcases h with rfl | ⟨⟨r, hr⟩, h1⟩
        · refine ⟨0, fun i _ _ => ?_, fun h => absurd rfl h⟩
          have : inverse identity = identity := ext_call (fun a => by
            apply (call_odd identity).inj
            rw [call_inverse, call_identity, call_identity])
          rw [this, call_identity, call_identity]
          omega
        · refine ⟨r, fun i hi hir => ?_, fun _ hc => h1 ?_⟩
          · by_contra hc
            have hne : (inverse w).call i ≠ (inverse w).call (i + 1) := fun he => by
              have := (call_odd (inverse w)).inj _ _ he; omega
            have hm : i.toNat ∈ leftDescents w := by
              rw [leftDescents, mem_rightDescents_unsigned (hu' hu), show ((i.toNat : Nat) : Int) = i by omega]
              exact ⟨by omega, by omega⟩
            rw [hr, List.mem_singleton] at hm
            omega
          · have := congrArg w.call hc
            rwa [call_inverse, eq_comm] at this
      obtain ⟨r, hr1, hr2⟩ := hgr
      obtain ⟨mu, hmu, hg, -⟩ := isGr_of_descents (hu' hu) hr1 hr2
      obtain ⟨v, h3, h4, h5⟩ := getGrassmannian_partition hmu
      have he := h4.unique hg (by rw [List.pairwise_reverse]; exact hmu.1)
      rw [he, inverse_inverse] at h3 h5
      exact ⟨mu, hmu, h5, h3⟩
  · constructor
    · intro h
      rw [← Bool.not_eq_true]
      intro hu
      obtain ⟨mu, c, h1, -, h2, -⟩ := C66_shape hu
      obtain ⟨v, h3, -⟩ := getGrassmannian_partition h2
      rw [isGrassmannian, h1, Option.bind_some, h3] at h
      cases h
    · intro h
      have hc' : isUnsigned (inverse w) = false := by
        rw [← Bool.not_eq_true]
        intro h'
        have := inverse_unsigned h'
        rw [inverse_inverse, h] at this
        cases this
      rw [isGrassmannian, permShape, (C66_code _).2 hc']
      rfl

example : (construct [3, 1, 4, 5, 2]).map (fun w => (isGrassmannian w, leftDescents w)) = some (some true, [2]) := by decide +kernel

/-- C67 (violated by the code for `w(1) = 1`): a permutation with exactly one left descent that is not recognised. -/
theorem C67_is_grassmannian_fails : ∃ w, isUnsigned w = true ∧ leftDescents w = [2] ∧ rightDescents w = [2] ∧
    isGrassmannian w = some false :=
  ⟨s 2, by decide +kernel, by decide +kernel, by decide +kernel, by decide +kernel⟩

theorem mapM_option {α β : Type} (l : List α) (f : α → Option β) (g : α → β) (h : ∀ x ∈ l, f x = some (g x)) :
    l.mapM f = some (l.map g) := by
  induction l with
  | nil => rfl
  | cons a l ih =>
    rw [List.mapM_cons, h a (by simp), ih (fun x hx => h x (by simp [hx]))]
    rfl

theorem downRange_one (top : Nat) : downRange top 1 = (List.range top).map (fun k => top - k) := by
  rw [downRange, List.filter_eq_self.2]
  intro k _
  simp [Nat.mod_one]

theorem getD_downRange_one (top k : Nat) : (downRange top 1).getD k 0 = top - k := by
  rw [downRange_one]
  by_cases hk : k < top
  · rw [List.getD_eq_getElem _ _ (by simpa using hk)]
    simp
  · rw [List.getD_eq_default _ _ (by simpa using hk)]
    omega

theorem isPartition_downRange (top step : Nat) : IsPartition (downRange top step) := by
  constructor
  · rw [downRange, List.pairwise_map]
    refine (List.pairwise_lt_range.filter _).imp (fun {a b} h => ?_)
    omega
  · intro a ha
    rw [downRange, List.mem_map] at ha
    obtain ⟨k, hk, rfl⟩ := ha
    rw [List.mem_filter, List.mem_range] at hk
    omega

/-- C67: `grassmannians(n)` lists without repetitions the permutations accepted by `is_grassmannian` whose shape `mu` satisfies
`mu_k ≤ n - k` for all `k`. -/
theorem C67_grassmannians (n : Nat) : ∃ L, grassmannians n = some L ∧ L.Nodup ∧ ∀ w, w ∈ L ↔
    isGrassmannian w = some true ∧ ∃ mu, permShape w = some mu ∧ ∀ k, mu.getD k 0 ≤ n - 1 - k := by
  have hsub := C19_subpartitions_partial (mu := downRange (n - 1) 1) (nu := []) false (isPartition_downRange _ _)
    ⟨List.Pairwise.nil, by simp⟩ (by simp)
  have hmem : ∀ lam, lam ∈ subpartitions (downRange (n - 1) 1) [] false ↔ IsPartition lam ∧ ∀ k, lam.getD k 0 ≤ n - 1 - k := by
    intro lam
    rw [hsub.2, diagram_subset, diagram_subset]
    simp only [getD_downRange_one]
    constructor
    · rintro ⟨h1, -, h2, -⟩
      exact ⟨h1, h2⟩
    · rintro ⟨h1, h2⟩
      exact ⟨h1, fun i => by rw [List.getD_nil]; omega, h2, fun h => by cases h⟩
  refine ⟨_, mapM_option _ _ (fun mu => (getGrassmannian mu).getD identity) (fun mu hm => ?_), ?_, fun w => ?_⟩
  · obtain ⟨v, h3, -⟩ := getGrassmannian_partition ((hmem mu).1 hm).1
    rw [h3]
    rfl
  · refine hsub.1.map_on (fun mu hm nu hn he => ?_)
    obtain ⟨v, h3, -, h4⟩ := getGrassmannian_partition ((hmem mu).1 hm).1
    obtain ⟨u, h5, -, h6⟩ := getGrassmannian_partition ((hmem nu).1 hn).1
    rw [h3, h5] at he
    simp only [Option.getD_some] at he
    rw [he, h6, Option.some.injEq] at h4
    exact h4.symm
  · rw [List.mem_map]
    constructor
    · rintro ⟨mu, hm, rfl⟩
      obtain ⟨h1, h2⟩ := (hmem mu).1 hm
      obtain ⟨v, h3, -, h4⟩ := getGrassmannian_partition h1
      rw [h3]
      simp only [Option.getD_some]
      exact ⟨(isGrassmannian_iff _).2 ⟨mu, h1, h4, h3⟩, mu, h4, h2⟩
    · rintro ⟨h1, mu, h2, h3⟩
      obtain ⟨nu, h4, h5, h6⟩ := (isGrassmannian_iff w).1 h1
      rw [h5, Option.some.injEq] at h2
      subst h2
      exact ⟨nu, (hmem nu).2 ⟨h4, h3⟩, by rw [h6]; rfl⟩

/-- C67 (the argument `rank` does not bound the rank): `grassmannians(3)` yields a permutation of rank 4, and misses `s_2`. -/
theorem C67_grassmannians_rank : ∃ L, grassmannians 3 = some L ∧ (∃ w ∈ L, w.rank = 4) ∧ s 2 ∉ L :=
  ⟨(grassmannians 3).getD [], by decide +kernel, ⟨(construct [3, 1, 4, 2]).getD identity, by decide +kernel, by decide +kernel⟩,
    by decide +kernel⟩

end Verif.Perm
