import Verif.Lemmas.StableFull
import Verif.Props.Involutions

/-! Property C59: the stable Grothendieck polynomials of permutations and involutions. -/

attribute [-simp] List.getD_eq_getElem?_getD

namespace Verif.Perm

open Verif.Symm Verif.Part Verif.PermSpec

attribute [local irreducible] mul s inverse identity len mod act demazure

theorem len_demazure_le_length (u : List Nat) : len (demazure u) ≤ u.length := by
  induction u using List.reverseRecOn with
  | nil => rw [demazure_nil]; exact (show len identity ≤ 0 by decide +kernel)
  | append_singleton u i ih =>
    rw [demazure_concat, mod_s, List.length_append, List.length_singleton]
    by_cases hd : Desc (demazure u).call i
    · rw [act_of_desc hd]; omega
    · rw [act_of_not hd, len_mul_s_of_not hd]; omega

theorem letters_of_hecke {w : SPerm} (hw : isUnsigned w = true) (u : List Nat) (h : HeckeWord w u) :
    ∀ i ∈ u, 1 ≤ i ∧ i < w.rank := by
  intro i hi
  rw [HeckeWord] at h
  subst h
  exact ⟨pos_of_demazure_unsigned hw hi, lt_rank_demazure hi⟩

theorem letters_of_involution {w : SPerm} (u : List Nat) (h : InvolutionHeckeWord w u) :
    ∀ i ∈ u, i < w.rank ∧ (isUnsigned w = true → 1 ≤ i) := by
  intro i hi
  rw [InvolutionHeckeWord] at h
  subst h
  exact ⟨lt_rank_demazure (by simp [hi]), fun hw => pos_of_demazure_unsigned hw (by simp [hi] : i ∈ u.reverse ++ u)⟩

/-- C59: `stable_grothendieck(n, degree_bound)`.  For a permutation without signs, whatever earlier runs left in the cache,
the generator ends after at most `n * rank + 1` levels, no error is raised, and the result enumerates the sequences of
decreasing words whose concatenation is a Hecke word. -/
theorem C59_stable_grothendieck (gt : PolyVal → PolyVal → Bool) {w : SPerm} (hw : isUnsigned w = true) (n : Nat)
    (bound : Option Int) {fuel : Nat} (hf : n * w.rank + 1 < fuel) {L : List Level}
    (hL : CacheEntry (heckeKind w.rank (some n)) L) :
    ∃ F L', stableGrothendieckOf gt w n bound fuel L = .ok (F, L') ∧ CacheEntry (heckeKind w.rank (some n)) L' ∧ IsSym n F ∧
      Enumerates List.length [] (DecProducts (HeckeWord w)) (len w) n bound F := by
  rw [stableGrothendieckOf, if_pos hw]
  have hmem : ∀ fs, fs ∈ DecProducts (HeckeWord w) ↔ (∀ y ∈ fs, y ∈ YB.decWords 1 (w.rank - 1)) ∧
      (fs.flatMap id).foldl act identity = w := by
    intro fs
    rw [mem_decProducts (letters_of_hecke hw), HeckeWord, demazure_eq]
  refine sumWords_full gt (heckeKind w.rank (some n)) w _ (len w) n act id (YB.decWords 1 (w.rank - 1))
    (YB.nodup_decWords _ _) (mem_dec_nil _ _) (nodup_letters w.rank) ?_ identity w ?_ ?_ ?_ ?_
    (ascents_end (n := n) (N := w.rank) ?_ rfl) hf bound hL _ hmem ?_ (fun _ => rfl)
  · intro y hy i hi
    have := (YB.mem_decWords.1 hy).2 i hi
    rw [mem_letters]; omega
  · intro a ha
    refine YB.decreasingZeta_count 1 _ a (fun i hi => ?_)
    have := mem_letters.1 (ha i hi)
    omega
  · intro u
    rw [LevelKind.reach_total _ (g := act) (fun p i => by rw [← mod_s]; rfl), Option.some.injEq]
    rfl
  · intro α _ hlen u hu hz v hv hne
    exact dec_ok hlen hu hz hv hne
  · intro α β hp
    exact YB.cnt_dec_perm grel_act le_rfl _ _ hp _
  · intro i hi; exact (mem_letters.1 hi).2
  · rintro fs ⟨-, h⟩
    rw [HeckeWord] at h
    rw [List.flatMap_id, ← h]
    exact Int.ofNat_le.2 (len_demazure_le_length _)

theorem invReach (N n : Nat) (u : List Nat) :
    (orthogonalKind N (some n) true).reach (orthogonalKind N (some n) true).start u = some (u.foldl invAct identity) :=
  LevelKind.reach_total _ (g := invAct) (fun p i => by simp [orthogonalKind, invAct]) _ u

/-- C59: `involution_stable_grothendieck(n, degree_bound)`, for an involution without signs. -/
theorem C59_involution (gt : PolyVal → PolyVal → Bool) {w : SPerm} (hw : isInvolution w = true) (hu : isUnsigned w = true)
    (n : Nat) (bound : Option Int) {fuel : Nat} (hf : n * (2 * w.rank) + 1 < fuel) {L : List Level}
    (hL : CacheEntry (orthogonalKind w.rank (some n) true) L) :
    ∃ F L', involutionStableGrothendieck gt w n bound fuel L = .ok (F, L') ∧
      CacheEntry (orthogonalKind w.rank (some n) true) L' ∧ IsSym n F ∧
      Enumerates List.length [] (DecProducts (InvolutionHeckeWord w)) (involutionLength w) n bound F := by
  rw [involutionStableGrothendieck, if_pos ⟨hw, hu⟩]
  have hmem : ∀ fs, fs ∈ DecProducts (InvolutionHeckeWord w) ↔ (∀ y ∈ fs, y ∈ YB.decWords 1 (w.rank - 1)) ∧
      (fs.flatMap id).foldl invAct identity = w := by
    intro fs
    rw [mem_decProducts (N := w.rank) (fun u h i hi => ⟨(letters_of_involution u h i hi).2 hu, (letters_of_involution u h i hi).1⟩),
      InvolutionHeckeWord, invAct_identity]
  refine sumWords_full gt (orthogonalKind w.rank (some n) true) w _ (involutionLength w) n invAct id
    (YB.decWords 1 (w.rank - 1)) (YB.nodup_decWords _ _) (mem_dec_nil _ _) (nodup_letters w.rank) ?_ identity w ?_ ?_ ?_ ?_
    (peaks_end (n := n) (N := w.rank) ?_ rfl) hf bound hL _ hmem ?_ (fun _ => rfl)
  · intro y hy i hi
    have := (YB.mem_decWords.1 hy).2 i hi
    rw [mem_letters]; omega
  · intro a ha
    refine YB.decreasingZeta_count 1 _ a (fun i hi => ?_)
    have := mem_letters.1 (ha i hi)
    omega
  · intro u
    rw [invReach, Option.some.injEq]
    constructor
    · rintro ⟨-, h⟩
      refine ⟨fun i hi => ?_, h⟩
      rw [invAct_identity] at h
      have := letters_of_involution u h i hi
      rw [mem_letters]; exact ⟨this.2 hu, this.1⟩
    · rintro ⟨h1, h⟩
      exact ⟨fun i hi => List.mem_range.2 (mem_letters.1 (h1 i hi)).2, h⟩
  · intro α _ hlen u hu hz v hv hne
    exact peak_ok (fun _ => isV_of_dec) hlen hu hz hv
  · intro α β hp
    exact YB.cnt_dec_perm grel_invAct le_rfl _ _ hp _
  · intro i hi; exact List.mem_range.1 hi
  · rintro fs ⟨-, h⟩
    rw [List.flatMap_id]
    exact Int.ofNat_le.2 (((C57_length.2 w hw).2.2) _ h)

/-- C59: `signed_involution_stable_grothendieck(n, degree_bound)`, for an involution that may have signs: here the words are
unimodal, with a marked split into a decreasing and an increasing part. -/
theorem C59_signed_involution (gt : PolyVal → PolyVal → Bool) {w : SPerm} (hw : isInvolution w = true)
    (n : Nat) (bound : Option Int) {fuel : Nat} (hf : n * (2 * w.rank) + 1 < fuel) {L : List Level}
    (hL : CacheEntry (orthogonalKind w.rank (some n) true) L) :
    ∃ F L', signedInvolutionStableGrothendieck gt w n bound fuel L = .ok (F, L') ∧
      CacheEntry (orthogonalKind w.rank (some n) true) L' ∧ IsSym n F ∧
      Enumerates (fun f : List Nat × List Nat => f.1.length + f.2.length) ([], []) (UniProducts (InvolutionHeckeWord w))
        (involutionLength w) n bound F := by
  rw [signedInvolutionStableGrothendieck, if_pos hw]
  have hmem : ∀ fs, fs ∈ UniProducts (InvolutionHeckeWord w) ↔ (∀ y ∈ fs, y ∈ YB.uniPairs w.rank) ∧
      (fs.flatMap (fun f => f.1 ++ f.2)).foldl invAct identity = w := by
    intro fs
    rw [mem_uniProducts (N := w.rank) (fun u h i hi => (letters_of_involution u h i hi).1), InvolutionHeckeWord, invAct_identity]
  refine sumWords_full gt (orthogonalKind w.rank (some n) true) w _ (involutionLength w) n invAct (fun f => f.1 ++ f.2)
    (YB.uniPairs w.rank) (YB.nodup_uniPairs _) (mem_uni_nil _) (List.nodup_range (n := w.rank)) ?_ identity w ?_ ?_ ?_ ?_
    (peaks_end (n := n) (N := w.rank) ?_ rfl) hf bound hL _ hmem ?_ (fun f => by rw [List.length_append])
  · intro y hy i hi
    exact List.mem_range.2 ((YB.mem_uniPairs.1 hy).2.2 i hi)
  · intro a ha
    exact YB.unimodalZeta_count _ a (fun i hi => List.mem_range.1 (ha i hi))
  · intro u
    rw [invReach, Option.some.injEq]
    rfl
  · intro α _ hlen u hu hz v hv hne
    exact peak_ok (fun _ => Words.isV_of_unimodal) hlen hu hz hv
  · intro α β hp
    exact YB.cnt_uni_perm grel_invAct _ _ hp _
  · intro i hi; exact List.mem_range.1 hi
  · rintro fs ⟨-, h⟩
    exact Int.ofNat_le.2 (((C57_length.2 w hw).2.2) _ h)

/-- C59: `symplectic_stable_grothendieck(n, degree_bound)`, for an involution without signs and fixed points. -/
theorem C59_symplectic (gt : PolyVal → PolyVal → Bool) {w : SPerm} (hw : isFpfInvolution w = true) (hu : isUnsigned w = true)
    (n : Nat) (bound : Option Int) {fuel : Nat} (hf : n * w.rank + 1 < fuel) {L : List Level}
    (hL : CacheEntry (symplecticKind w.rank (some n) true) L) :
    ∃ F L', symplecticStableGrothendieck gt w n bound fuel L = .ok (F, L') ∧
      CacheEntry (symplecticKind w.rank (some n) true) L' ∧ IsSym n F ∧
      Enumerates List.length [] (DecProducts (SymplecticHeckeWord w.rank w)) (fpfInvolutionLength w) n bound F := by
  have hF := isFpf_iff.1 ⟨hw, hu⟩
  have hn : w.rank % 2 = 0 := by have := hF.even.2; omega
  obtain ⟨F0, hF0⟩ := (fpf_fpfStart hn).exists_fun
  obtain ⟨Fw, hFw⟩ := hF.exists_fun
  rw [symplecticStableGrothendieck, if_pos ⟨hu, hw⟩, if_pos hn]
  have hmem : ∀ fs, fs ∈ DecProducts (SymplecticHeckeWord w.rank w) ↔ (∀ y ∈ fs, y ∈ YB.decWords 1 (w.rank - 1)) ∧
      (fs.flatMap id).foldl YB.spAct (some F0) = some Fw := by
    intro fs
    rw [mem_decProducts (N := w.rank) (fun u h => ((symplecticHeckeWord_iff hn none w u).1 h).1)]
    refine and_congr_right (fun h => ?_)
    have hl : ∀ i ∈ fs.flatMap id, 1 ≤ i ∧ i < w.rank := by
      intro i hi
      obtain ⟨y, hy, hi⟩ := List.mem_flatMap.1 hi
      have := (YB.mem_decWords.1 (h y hy)).2 i hi
      omega
    rw [symplecticHeckeWord_iff hn none, sp_reach_iff hF hF0 hFw _ hl]
    exact ⟨fun h => h.2, fun h => ⟨hl, h⟩⟩
  refine sumWords_full gt (symplecticKind w.rank (some n) true) w _ (fpfInvolutionLength w) n YB.spAct id
    (YB.decWords 1 (w.rank - 1)) (YB.nodup_decWords _ _) (mem_dec_nil _ _) (nodup_letters w.rank) ?_ (some F0) (some Fw) ?_ ?_ ?_ ?_
    (ascents_end (n := n) (N := w.rank) ?_ rfl) hf bound hL _ hmem ?_ (fun _ => rfl)
  · intro y hy i hi
    have := (YB.mem_decWords.1 hy).2 i hi
    rw [mem_letters]; omega
  · intro a ha
    refine YB.decreasingZeta_count 1 _ a (fun i hi => ?_)
    have := mem_letters.1 (ha i hi)
    omega
  · intro u
    refine and_congr_right (fun h => ?_)
    exact sp_reach_iff hF hF0 hFw u (fun i hi => mem_letters.1 (h i hi))
  · intro α _ hlen u hu hz v hv hne
    exact dec_ok hlen hu hz hv hne
  · intro α β hp
    exact YB.cnt_dec_perm YB.grel_spAct le_rfl _ _ hp _
  · intro i hi; exact (mem_letters.1 hi).2
  · rintro fs ⟨-, h⟩
    rw [List.flatMap_id]
    have h1 := (symplecticHeckeWord_len hn h).2
    have h2 := hF.fpfLength
    omega

/-- C59: in all other cases an assertion fails. -/
theorem C59_assertions (gt : PolyVal → PolyVal → Bool) (w : SPerm) (n : Nat) (bound : Option Int) (fuel : Nat) (L : List Level) :
    (isUnsigned w = false → stableGrothendieckOf gt w n bound fuel L = .error .assertion) ∧
    (isInvolution w = false → signedInvolutionStableGrothendieck gt w n bound fuel L = .error .assertion) ∧
    ((isInvolution w && isUnsigned w) = false → involutionStableGrothendieck gt w n bound fuel L = .error .assertion) ∧
    ((isUnsigned w && isFpfInvolution w) = false → symplecticStableGrothendieck gt w n bound fuel L = .error .assertion) := by
  refine ⟨fun h => ?_, fun h => ?_, fun h => ?_, fun h => ?_⟩
  · rw [stableGrothendieckOf, if_neg (by simp [h])]
  · rw [signedInvolutionStableGrothendieck, if_neg (by simp [h])]
  · rw [involutionStableGrothendieck, if_neg (by rw [← Bool.and_eq_true, h]; simp)]
  · rw [symplecticStableGrothendieck, if_neg (by rw [← Bool.and_eq_true, h]; simp)]

/-- Inputs to which the theorems apply: a permutation, a signed involution and an involution without fixed points; two runs
one after the other, the second with the cache left by the first; and the values for `(2, 1)` in two variables. -/
example : isUnsigned (demazure [2, 1, 3]) = true ∧ isInvolution (demazure [1, 0, 1]) = true ∧
    isUnsigned (demazure [1, 0, 1]) = false ∧ isFpfInvolution (demazure [1, 2, 1, 3, 2, 1]) = true ∧
    isUnsigned (demazure [1, 2, 1, 3, 2, 1]) = true := by decide +kernel

example : (match stableGrothendieckOf (fun _ _ => false) (s 1) 2 (some 1) 6 [] with
    | .ok (_, L) =>
      match stableGrothendieckOf (fun _ _ => false) (s 1) 2 none 6 L with
      | .ok (F, _) => F.dict.keys
      | .error _ => []
    | .error _ => []) = [[1], [1, 1]] := by decide +kernel

example : (match symplecticStableGrothendieck (fun _ _ => false) (demazure [2, 1, 3, 2]) 2 none 10 [] with
    | .ok (F, _) => F.dict.keys
    | .error _ => []) = [[1], [1, 1]] := by decide +kernel

end Verif.Perm
