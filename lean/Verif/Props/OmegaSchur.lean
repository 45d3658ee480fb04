import Verif.Model.OmegaSchur
import Verif.Props.Expansion

/-! # C126: the expansion of the image under the involution omega -/

namespace Verif.Symm

open Verif.Part Partition Tableaux

/-- `lam` and `mu` are partitions and their diagrams are reflections of each other. -/
def IsConjugate (lam mu : List Nat) : Prop :=
  IsPartition lam ∧ IsPartition mu ∧ ∀ i j, (i, j) ∈ Diagram lam ↔ (j, i) ∈ Diagram mu

theorem isConjugate_iff {lam mu : List Nat} : IsConjugate lam mu ↔ IsPartition mu ∧ lam = transpose mu := by
  constructor
  · rintro ⟨h1, h2, h3⟩
    refine ⟨h2, diagram_inj h1.2 (transpose_pos h2) ?_⟩
    ext ⟨i, j⟩
    rw [h3, transpose_diagram h2]
  · rintro ⟨h, rfl⟩
    exact ⟨transpose_isPartition h, h, transpose_diagram h⟩

theorem expansion_noZero (function : List Nat → Option SymPoly) (getTerm : SymPoly → Option (List Nat)) :
    ∀ (fuel : Nat) (f : SymPoly) (ans), expansion function getTerm fuel f = some ans → Vec.NoZero ans := by
  intro fuel
  induction fuel with
  | zero => intro f ans h; simp [expansion] at h
  | succ fuel ih =>
    intro f ans h
    rw [expansion] at h
    split at h
    · obtain rfl := Option.some.inj h
      exact Vec.noZero_mk' _ _
    · simp only [Option.bind_eq_bind, Option.bind_eq_some_iff] at h
      obtain ⟨t, _, g, _, cdeg, _, h⟩ := h
      split at h
      · simp only [Option.bind_eq_some_iff] at h
        obtain ⟨r, _, h⟩ := h
        split at h
        · simp only [Option.bind_eq_some_iff] at h
          obtain ⟨q, _, b, _, a, ha, ok, _, h⟩ := h
          split at h
          · obtain rfl := Option.some.inj h
            exact Vec.noZero_add (ih _ _ ha)
          · simp at h
        · simp at h
      · simp at h

theorem getD_transposeItems (l : List (List Nat × PolyVal)) : ∀ d : Dict (List Nat) PolyVal,
    (l.map Prod.fst).Nodup → (∀ p ∈ l, IsPartition p.1) → ∀ lam,
      (transposeItems l d).get? lam =
        match l.find? (fun p => decide (transpose p.1 = lam)) with
        | some p => some p.2
        | none => d.get? lam := by
  induction l with
  | nil => intro d _ _ lam; rfl
  | cons p l ih =>
    intro d hn hp lam
    rw [List.map_cons, List.nodup_cons] at hn
    rw [transposeItems, List.foldl_cons]
    change (transposeItems l _).get? lam = _
    rw [ih _ hn.2 (fun q hq => hp q (List.mem_cons_of_mem _ hq)), List.find?_cons]
    by_cases h : transpose p.1 = lam
    · have : l.find? (fun p => decide (transpose p.1 = lam)) = none := by
        rw [List.find?_eq_none]
        intro q hq hc
        have hc := of_decide_eq_true hc
        apply hn.1
        rw [← transpose_transpose (hp p List.mem_cons_self), h, ← hc,
          transpose_transpose (hp q (List.mem_cons_of_mem _ hq))]
        exact List.mem_map_of_mem hq
      rw [this, decide_eq_true h]
      simp [h]
    · rw [decide_eq_false h, Dict.get?_set, if_neg h]

/-- C126: for a symmetric polynomial `f` with coefficients in `ℤ[β, β⁻¹]`, `omega_schur_expansion(f)` terminates, none
of the assertions fails, and the coefficient it returns at `lam` is that of the Schur polynomial of the conjugate of
`lam` in `f`; every key is a partition with parts at most `n`, so the call loses or merges no term. -/
theorem C126_omega (n : Nat) {f : SymPoly} (hf : IsSym n f) (hz : Vec.NoZero f) (hb : ∀ mu, BetaOnly (f.get mu).den) :
    ∃ N ans u, (∀ fuel ≥ N, omegaSchurExpansion n fuel f = some ans) ∧
      Expands n (tableauSum false 1 n) (polynomial Poly.x n f).den u ∧
      (∀ u', Expands n (tableauSum false 1 n) (polynomial Poly.x n f).den u' → u' = u) ∧
      (∀ lam mu, IsConjugate lam mu → ans.get lam = u mu) ∧
      ∀ lam ∈ ans.dict.keys, IsPartition lam ∧ (∀ a ∈ lam, a ≤ n) ∧ ans.get lam ≠ 0 := by
  obtain ⟨N, u, h1, h2, h3⟩ := C44_schur n hf hz hb
  have hu : Vec.NoZero u := expansion_noZero _ _ N f u (h1 N le_rfl)
  have hk : ∀ p ∈ u.dict.items, IsPartition p.1 ∧ p.1.length ≤ n := by
    intro p hp
    apply h2.partitions
    rw [Vec.den_apply]
    exact (Vec.mem_keys_iff hu p.1).1 (List.mem_map_of_mem hp)
  have hg := getD_transposeItems u.dict.items Dict.empty u.dict.nodup (fun p hp => (hk p hp).1)
  refine ⟨N, Vec.mk' (transposeItems u.dict.items Dict.empty) none, u.den, ?_, h2, h3, ?_, ?_⟩
  · intro fuel hfuel
    rw [omegaSchurExpansion, h1 fuel hfuel]
  · intro lam mu h
    obtain ⟨hm, rfl⟩ := isConjugate_iff.1 h
    rw [Vec.get_mk', Vec.den_apply, Dict.getD, hg, Vec.get, Dict.getD]
    cases hfd : u.dict.items.find? (fun p => decide (transpose p.1 = transpose mu)) with
    | some p =>
      have hp := List.mem_of_find?_eq_some hfd
      have he : transpose p.1 = transpose mu := by simpa using List.find?_some hfd
      have hpm : p.1 = mu := by rw [← transpose_transpose (hk p hp).1, he, transpose_transpose hm]
      rw [Dict.get?_eq_some.2 (show (mu, p.2) ∈ u.dict.items by rw [← hpm]; exact hp)]
    | none =>
      rw [List.find?_eq_none] at hfd
      have : u.dict.get? mu = none := by
        refine Dict.get?_eq_none.2 (fun hmem => ?_)
        obtain ⟨p, hp, rfl⟩ := List.mem_map.1 hmem
        exact hfd p hp (by simp)
      rw [this]
      rfl
  · intro lam hlam
    have hne := (Vec.mem_keys_iff (Vec.noZero_mk' _ _) lam).1 hlam
    have hne' := hne
    rw [Vec.get_mk', Dict.getD, hg] at hne'
    cases hfd : u.dict.items.find? (fun p => decide (transpose p.1 = lam)) with
    | none => rw [hfd] at hne'; exact absurd rfl hne'
    | some p =>
      have hp := hk p (List.mem_of_find?_eq_some hfd)
      obtain rfl : transpose p.1 = lam := by simpa using List.find?_some hfd
      refine ⟨transpose_isPartition hp.1, fun a ha => ?_, hne⟩
      obtain ⟨j, hj, rfl⟩ := List.mem_iff_getElem.1 ha
      by_contra hlt
      have := (lt_getD_transpose hp.1.1 n j).1 (by rw [List.getD_eq_getElem _ 0 hj]; omega)
      rw [List.getD_eq_default _ _ hp.2] at this
      omega

/-- The conjugates of `(3, 1)` and `(2, 1, 1)` are each other. -/
example : IsConjugate [3, 1] [2, 1, 1] := isConjugate_iff.2 ⟨⟨by decide, by decide⟩, by decide⟩

/-- `s_3 + 2 s_21` in three variables goes to `s_111 + 2 s_21`; its hypotheses hold by `C44_closed`. -/
example : ((do
    let s ← schur 3 [3] []
    let t ← schur 3 [2, 1] []
    let v ← omegaSchurExpansion 3 5 (Vec.add s (Vec.smul t 2))
    some (decide (v.get [1, 1, 1] = 1), decide (v.get [2, 1] = 2), decide (v.get [3] = 0), v.len)) : Option _) =
    some (true, true, true, 2) := by decide +kernel

end Verif.Symm
