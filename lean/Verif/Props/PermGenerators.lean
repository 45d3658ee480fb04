import Verif.Lemmas.PermSignedInvolutions

/-! Properties C73, C74 and C75: the generators of permutations and involutions. -/

attribute [-simp] List.getD_eq_getElem?_getD

namespace Verif.Perm

open Verif.PermSpec

/-- C73: `all(n)` raises no exception and yields every permutation of `1, ..., n` exactly once. -/
theorem C73_unsigned (n : Nat) : ∃ L, allPerms? n false = some L ∧ L.Nodup ∧
    ∀ w, w ∈ L ↔ w.rank ≤ n ∧ ∀ x : Int, 0 < x → 0 < w.call x := allPerms?_false n

/-- C73: `all(n, signed=True)` raises no exception and yields every signed permutation of `1, ..., n` exactly once. -/
theorem C73_signed (n : Nat) : ∃ L, allPerms? n true = some L ∧ L.Nodup ∧ ∀ w, w ∈ L ↔ w.rank ≤ n := allPerms?_true n

/-- C74: `involutions(n)` raises no exception and yields every involution of `1, ..., n` exactly once. -/
theorem C74_unsigned (n : Nat) : ∃ N L, (∀ fuel, N ≤ fuel → involutions? fuel n false false = some L) ∧ L.Nodup ∧
    ∀ w, w ∈ L ↔ w.rank ≤ n ∧ (∀ x : Int, 0 < x → 0 < w.call x) ∧ ∀ x, w.call (w.call x) = x := by
  obtain ⟨N, L, h1, h2, h3⟩ := unsignedInvolutions?_spec (n := n) (fpf := false) (by simp)
  refine ⟨N, L, fun fuel hf => ?_, h2, fun w => ?_⟩
  · rw [involutions?, if_neg (by simp), if_neg (by simp)]
    exact h1 fuel hf
  · rw [h3]
    simp [UnsignedInvolution]

/-- C74: `involutions(n, fpf=True)` yields every involution of `1, ..., n` without fixed points exactly once, and for odd `n`
nothing. -/
theorem C74_fpf (n : Nat) : ∃ N L, (∀ fuel, N ≤ fuel → involutions? fuel n false true = some L) ∧ L.Nodup ∧
    ∀ w, w ∈ L ↔ w.rank = n ∧ FpfInvolution w := by
  by_cases hn : n % 2 = 0
  · obtain ⟨N, L, h1, h2, h3⟩ := unsignedInvolutions?_spec (n := n) (fpf := true) (fun _ => hn)
    refine ⟨N, L, fun fuel hf => ?_, h2, fun w => ?_⟩
    · rw [involutions?, if_neg (by omega), if_neg (by simp)]
      exact h1 fuel hf
    · rw [h3, fpf_iff_spec]
      constructor
      · rintro ⟨⟨g1, g2, g3⟩, g4⟩
        have hF : Fpf n w := ⟨g3, (call_odd w).mono g1, g2, fun a ha1 ha2 => by
          have := g4 rfl a.toNat (by omega) (by omega)
          rwa [show ((a.toNat : Nat) : Int) = a by omega] at this⟩
        have hr := hF.rank
        rw [hr]
        exact ⟨rfl, hF⟩
      · rintro ⟨rfl, hF⟩
        exact ⟨⟨le_rfl, hF.pos, hF.inv⟩, fun _ x hx hxn => hF.ne x (by omega) (by omega)⟩
  · refine ⟨0, [], fun fuel _ => ?_, List.nodup_nil, fun w => ?_⟩
    · rw [involutions?, if_pos ⟨hn, rfl⟩]
    · constructor
      · intro h; simp at h
      · rintro ⟨rfl, hF⟩
        have := (fpf_iff_spec.1 hF).even.2
        omega

/-- C74: `involutions(n, signed=True)` yields every signed involution of `1, ..., n` exactly once. -/
theorem C74_signed (n : Nat) : ∃ N L, (∀ fuel, N ≤ fuel → involutions? fuel n true false = some L) ∧ L.Nodup ∧
    ∀ w, w ∈ L ↔ w.rank ≤ n ∧ ∀ x, w.call (w.call x) = x := signedInvolutions?_spec n false (by simp)

/-- C74: with `signed=True` the argument `fpf` has no effect for even `n`, so that there are fixed points: the identity is
among the results. -/
theorem C74_signed_fpf {n : Nat} (hn : n % 2 = 0) : ∃ N L, (∀ fuel, N ≤ fuel → involutions? fuel n true true = some L) ∧ L.Nodup ∧
    (∀ w, w ∈ L ↔ w.rank ≤ n ∧ ∀ x, w.call (w.call x) = x) ∧ identity ∈ L := by
  obtain ⟨N, L, h1, h2, h3⟩ := signedInvolutions?_spec n true (fun _ => hn)
  refine ⟨N, L, h1, h2, h3, (h3 _).2 ⟨?_, fun x => ?_⟩⟩
  · exact Nat.zero_le _
  · rw [call_identity, call_identity]

/-- C75: `fpf_involutions(n)` yields every involution of `1, ..., n` without fixed points exactly once, ordered by
`fpf_involution_length`, for every order in which python lists the elements of a set. -/
theorem C75_levels {ord : List SPerm → List SPerm} (ho : ∀ l, (ord l).Perm l) (n : Nat) :
    ∃ N L, (∀ fuel, N ≤ fuel → fpfInvolutions? ord fuel n = some L) ∧ L.Nodup ∧
      (∀ w, w ∈ L ↔ w.rank = n ∧ FpfInvolution w) ∧
      L.Pairwise (fun v w => fpfInvolutionLength v ≤ fpfInvolutionLength w) := by
  by_cases hn : n % 2 = 0
  · obtain ⟨N, L, h1, h2, h3, h4⟩ := fpfInvolutions?_spec ho hn
    refine ⟨N, L, h1, h2, fun w => ?_, h4.imp_of_mem ?_⟩
    · rw [h3, fpf_iff_spec]
      constructor
      · intro h
        rw [h.rank]
        exact ⟨rfl, h⟩
      · rintro ⟨rfl, h⟩
        exact h
    · intro v w hv hw hle
      have g1 := ((h3 v).1 hv).fpfLength
      have g2 := ((h3 w).1 hw).fpfLength
      omega
  · refine ⟨0, [], fun fuel _ => ?_, List.nodup_nil, fun w => ?_, List.Pairwise.nil⟩
    · rw [fpfInvolutions?, if_pos hn]
    · constructor
      · intro h; simp at h
      · rintro ⟨rfl, hF⟩
        have := (fpf_iff_spec.1 hF).even.2
        omega

/-- C75: `minfpf(n)` is `(2, 1, 4, 3, ..., n, n - 1)` for even `n`, and an AssertionError for odd `n`. -/
theorem C75_minfpf (n : Nat) : if n % 2 = 0 then ∃ w, minfpf? n = some w ∧ w.rank = n ∧
      ∀ x : Int, 0 < x → x ≤ n → w.call x = if x % 2 = 1 then x + 1 else x - 1 else minfpf? n = none := by
  split
  · rename_i hn
    refine ⟨_, minfpf?_eq hn, (fpf_fpfStart hn).rank, fun x h1 h2 => ?_⟩
    rw [fpfStart_call hn x h1, if_pos h2]
  · rename_i hn
    rw [minfpf?, if_neg hn]

/-- C75: `fpf_involutions(n)` and `involutions(n, fpf=True)` yield the same permutations. -/
theorem C75_same {ord : List SPerm → List SPerm} (ho : ∀ l, (ord l).Perm l) (n : Nat) :
    ∃ N L L', (∀ fuel, N ≤ fuel → fpfInvolutions? ord fuel n = some L ∧ involutions? fuel n false true = some L') ∧ L.Perm L' := by
  obtain ⟨N, L, h1, h2, h3, _⟩ := C75_levels ho n
  obtain ⟨N', L', h1', h2', h3'⟩ := C74_fpf n
  refine ⟨max N N', L, L', fun fuel hf => ⟨h1 fuel (by omega), h1' fuel (by omega)⟩, ?_⟩
  rw [List.perm_ext_iff_of_nodup h2 h2']
  intro w
  rw [h3, h3']

example : (allPerms? 3 false).map (fun L => L.map SPerm.oneline) =
      some [[], [1, 3, 2], [2, 1], [2, 3, 1], [3, 1, 2], [3, 2, 1]] ∧
    (allPerms? 2 true).map (fun L => L.map SPerm.oneline) =
      some [[], [-1], [1, -2], [-1, -2], [2, 1], [-2, 1], [2, -1], [-2, -1]] ∧
    (involutions? 10 3 false false).map (fun L => L.map SPerm.oneline) = some [[], [1, 3, 2], [3, 2, 1], [2, 1]] ∧
    (involutions? 10 4 false true).map (fun L => L.map SPerm.oneline) = some [[4, 3, 2, 1], [3, 4, 1, 2], [2, 1, 4, 3]] ∧
    (involutions? 10 2 true false).map (fun L => L.map SPerm.oneline) =
      some [[], [-1], [1, -2], [-1, -2], [2, 1], [-2, -1]] ∧
    (fpfInvolutions? id 10 4).map (fun L => L.map SPerm.oneline) = some [[2, 1, 4, 3], [3, 4, 1, 2], [4, 3, 2, 1]] := by
  decide +kernel

end Verif.Perm
