import Verif.Props.Insertion
import Verif.Spec.Tableau

/-! Property C72: the tableaux of Hecke insertion with a record (insertion.py). -/

namespace Verif.Insertion

open Tab Verif.Part

attribute [-simp] List.getD_eq_getElem?_getD

variable {N : Nat} {Q : Tab} {β : Nat → Nat × Nat}

theorem semistandard_apply {D : Set (Nat × Nat)} {G : Int → Int} {n : Nat} {m : Bool} (hstd : Std Q β N)
    (hD : ∀ b, Q.has b = true ↔ b ∈ D)
    (hrow : ∀ k k', k < N → k' < N → ∀ i j, β k = (i, j) → β k' = (i, j + 1) → k < k')
    (hcol : ∀ k k', k < N → k' < N → ∀ i j, β k = (i, j) → β k' = (i + 1, j) → k < k')
    (hc : Compat β (fun k : Nat => G ((k : Int) + 1)) N) (hn : ∀ k : Nat, k < N → G ((k : Int) + 1) ≤ n)
    (hs : m = false → ∀ k k' : Nat, k < k' → k' < N → G ((k : Int) + 1) = G ((k' : Int) + 1) → (β k).2 < (β k').2) :
    IsMultiTableauOf m D (IsSemistandard n D) (Q.apply G).get? := by
  have hshape : ∀ b, ((Q.apply G).get? b).isSome ↔ b ∈ D := by
    intro b
    rw [← hD, has, get?_apply, Option.isSome_map]
  have hle : ∀ k k' : Nat, k < k' → k' < N → G ((k : Int) + 1) ≤ G ((k' : Int) + 1) := by
    intro k k' h1 h2
    rcases hc.2 k k' h1 h2 with h | h
    · exact le_of_lt h
    · exact le_of_eq h.1
  have hget : ∀ b s, (Q.apply G).get? b = some s →
      s = (boxNums β N b).map G ∧ boxNums β N b ≠ [] := by
    intro b s h
    rw [apply_ent hstd hc, hstd b] at h
    split at h
    · cases h
    · rename_i h0
      cases h
      exact ⟨rfl, h0⟩
  refine ⟨hshape, ?_, ?_⟩
  · intro b s h
    obtain ⟨rfl, h0⟩ := hget b s h
    refine ⟨by simpa using h0, ?_, ?_⟩
    · rw [List.pairwise_map]
      apply (boxNums_sorted N b).imp_of_mem
      intro x y hx hy hxy
      obtain ⟨k, hk, _, rfl⟩ := mem_boxNums.1 hx
      obtain ⟨k', hk', _, rfl⟩ := mem_boxNums.1 hy
      exact hle k k' (by omega) hk'
    · intro hm
      rw [List.pairwise_map]
      apply (boxNums_sorted N b).imp_of_mem
      intro x y hx hy hxy
      obtain ⟨k, hk, hb, rfl⟩ := mem_boxNums.1 hx
      obtain ⟨k', hk', hb', rfl⟩ := mem_boxNums.1 hy
      rcases lt_or_eq_of_le (hle k k' (by omega) hk') with h1 | h1
      · exact h1
      · have := hs hm k k' (by omega) hk' h1
        rw [hb, hb'] at this
        omega
  · intro g hg
    have hnum : ∀ b, b ∈ D → ∃ k : Nat, k < N ∧ β k = b ∧ g b = G ((k : Int) + 1) := by
      intro b hb
      rw [← hshape] at hb
      obtain ⟨s, h⟩ := Option.isSome_iff_exists.1 hb
      obtain ⟨rfl, h0⟩ := hget b s h
      have := hg b _ h
      rw [List.mem_map] at this
      obtain ⟨x, hx, hxg⟩ := this
      obtain ⟨k, hk, hb, rfl⟩ := mem_boxNums.1 hx
      exact ⟨k, hk, hb, hxg.symm⟩
    refine ⟨?_, ?_, ?_⟩
    · intro b hb
      obtain ⟨k, hk, _, e⟩ := hnum b hb
      have h1 := hc.1 k hk
      have h2 := hn k hk
      simp only at h1
      rw [e]
      omega
    · intro i j hb hb'
      obtain ⟨k, hk, e1, e⟩ := hnum _ hb
      obtain ⟨k', hk', e1', e'⟩ := hnum _ hb'
      rw [e, e']
      exact hle k k' (hrow k k' hk hk' i j e1 e1') hk'
    · intro i j hb hb'
      obtain ⟨k, hk, e1, e⟩ := hnum _ hb
      obtain ⟨k', hk', e1', e'⟩ := hnum _ hb'
      rw [e, e']
      rcases hc.2 k k' (hcol k k' hk hk' i j e1 e1') hk' with h1 | ⟨_, h1 | h1⟩
      · exact h1
      · rw [e1, e1'] at h1
        simp only at h1
        omega
      · rw [e1, e1'] at h1
        have := congrArg Prod.fst h1
        simp only at this
        omega

theorem Done.order {w : List Int} {p q : Tab} {lam : Nat → Nat} {f : Nat → Nat → Int} (hd : Done w p q lam f β) {k k' : Nat}
    (hk : k < w.length) (hk' : k' < w.length) :
    (∀ i j, β k = (i, j) → β k' = (i, j + 1) → k < k') ∧ (∀ i j, β k = (i, j) → β k' = (i + 1, j) → k < k') := by
  have hmem : ∀ k b, k < w.length → β k = b → (k : Int) + 1 ∈ q.ent b := by
    intro k b hk hb
    rw [hd.std.ent, mem_boxNums]
    exact ⟨k, hk, hb, rfl⟩
  constructor
  · intro i j h1 h2
    have := hd.qinv.row i j _ _ (hmem k _ hk h1) (hmem k' _ hk' h2)
    omega
  · intro i j h1 h2
    have := hd.qinv.col i j _ _ (hmem k _ hk h1) (hmem k' _ hk' h2)
    omega

theorem values_std (hstd : Std Q β N) (G : Int → Int) :
    (Q.apply G).values.Perm ((List.range N).map (fun k : Nat => G ((k : Int) + 1))) := by
  have hv : ∀ T : Tab, T.values = (boxed T).map Prod.fst := by
    intro T
    simp [Tab.values, boxed, List.map_flatMap, List.map_map, Function.comp_def]
  have hb : (boxed Q).Perm ((List.range N).map (fun k : Nat => ((k : Int) + 1, β k))) := by
    rw [List.perm_ext_iff_of_nodup]
    · rintro ⟨v, b⟩
      rw [mem_boxed, hstd.ent, mem_boxNums, List.mem_map]
      constructor
      · rintro ⟨k, h1, rfl, rfl⟩; exact ⟨k, by simpa using h1, rfl⟩
      · rintro ⟨k, h1, h2⟩
        cases h2
        exact ⟨k, by simpa using h1, rfl, rfl⟩
    · apply boxed_nodup
      intro b
      rw [hstd.ent]
      exact (boxNums_sorted N b).imp (fun h => ne_of_lt h)
    · apply List.Nodup.map _ List.nodup_range
      intro x y hxy
      have := congrArg Prod.fst hxy
      simp only at this
      omega
  rw [hv]
  have := ((boxed_apply Q G).trans (hb.map _)).map Prod.fst
  rw [List.map_map, List.map_map] at this
  exact this

/-- C72: for every word in positive integers, every admissible record in `1..n` and both versions, Hecke insertion returns an
increasing tableau with positive entries and a semistandard tableau of the same partition shape, multiset-valued in the first and
set-valued in the second version, whose entries are those of the record. -/
theorem C72_tableaux {C : HCache} (hC : Sound C) (w rec : List Int) (m : Bool) (n : Nat) (hw : ∀ a ∈ w, 0 < a)
    (hr : ∀ x ∈ rec, 0 < x ∧ x ≤ n) (hrec : IsRecord w rec m) :
    ∃ p q mu g, (hecke C w (some rec) m).1 = some (p, q) ∧ IsPartition mu ∧
      (∀ b ∈ Diagram mu, p.get? b = some [g b] ∧ 0 < g b) ∧ (∀ b ∉ Diagram mu, p.get? b = none) ∧
      IsIncreasing (Diagram mu) g ∧
      IsMultiTableauOf m (Diagram mu) (IsSemistandard n (Diagram mu)) q.get? ∧ q.values.Perm rec := by
  obtain ⟨p, q, lam, f, β, hd⟩ := done_exists w hw
  have hpos : ∀ x ∈ rec, 0 < x := fun x hx => (hr x hx).1
  have hpart := shapeList_isPartition hd.inc
  have hmem : ∀ i j, (i, j) ∈ Diagram (shapeList p lam) ↔ 1 ≤ i ∧ 1 ≤ j ∧ j ≤ lam i := by
    intro i j
    rw [Partition.mem_diagram]
    constructor
    · rintro ⟨h1, h2, h3⟩; rw [shapeList_getD hd.inc h1] at h3; exact ⟨h1, h2, h3⟩
    · rintro ⟨h1, h2, h3⟩; rw [shapeList_getD hd.inc h1]; exact ⟨h1, h2, h3⟩
  have hlen := hrec.1
  have hi := insertAll_spec w hC Tab.empty Tab.empty
  rw [hd.run, ← insertionTableaux] at hi
  rcases hins : insertionTableaux C w with ⟨o, C'⟩
  rw [hins] at hi
  simp only at hi
  have e : ∀ k : Nat, ((k : Int) + 1).toNat - 1 = k := by intro k; omega
  have hn : ∀ k : Nat, k < w.length → (fun x : Int => rec.getD (x.toNat - 1) 0) ((k : Int) + 1) ≤ n := by
    intro k hk
    have hk' : k < rec.length := by omega
    simp only [e]
    rw [List.getD_eq_getElem?_getD, List.getElem?_eq_getElem hk']
    exact (hr _ (List.getElem_mem hk')).2
  have hperm : (List.range w.length).map (fun k : Nat => rec.getD (((k : Int) + 1).toNat - 1) 0) = rec := by
    rw [hlen]; exact map_range_getD rec
  cases m with
  | true =>
    have hc := compat_true hrec hpos hd
    refine ⟨p, q.apply (fun x => rec.getD (x.toNat - 1) 0), shapeList p lam, fun b => f b.1 b.2, ?_, hpart, ?_, ?_, ⟨?_, ?_⟩, ?_, ?_⟩
    · rw [hecke, (checkRecord_eq w rec true).1 hrec]
      simp only
      rw [hins, hi.1]
      simp only [if_true]
      rw [apply?_eq hd.std hlen.symm]
      rfl
    · rintro ⟨i, j⟩ hb
      obtain ⟨h1, h2, h3⟩ := (hmem i j).1 hb
      exact ⟨hd.inc.get_some h1 h2 h3, hd.inc.pos i j h1 h2 h3⟩
    · rintro ⟨i, j⟩ hb
      rw [hmem] at hb
      exact hd.inc.get_none hb
    · intro i j h1 h2
      rw [hmem] at h1 h2
      exact hd.inc.row i j h1.1 h1.2.1 h2.2.2
    · intro i j h1 h2
      rw [hmem] at h1 h2
      exact hd.inc.col i j h1.1 h1.2.1 h2.2.2
    · apply semistandard_apply hd.std
      · rintro ⟨i, j⟩; rw [hmem, hd.qinv.shape]
      · intro k k' hk hk'; exact (hd.order hk hk').1
      · intro k k' hk hk'; exact (hd.order hk hk').2
      · exact hc
      · exact hn
      · intro h; cases h
    · have := values_std hd.std (fun x => rec.getD (x.toNat - 1) 0)
      rw [hperm] at this
      exact this
  | false =>
    have hc := compat_false hrec hpos hd
    have hmem' : ∀ i j, (i, j) ∈ Diagram (Partition.transpose (shapeList p lam)) ↔ 1 ≤ i ∧ 1 ≤ j ∧ i ≤ lam j := by
      intro i j
      rw [Partition.transpose_diagram hpart, hmem]
      tauto
    refine ⟨p.transpose, q.transpose.apply (fun x => rec.getD (x.toNat - 1) 0), Partition.transpose (shapeList p lam),
      fun b => f b.2 b.1, ?_, Partition.transpose_isPartition hpart, ?_, ?_, ⟨?_, ?_⟩, ?_, ?_⟩
    · rw [hecke, (checkRecord_eq w rec false).1 hrec]
      simp only
      rw [hins, hi.1]
      simp only [Bool.false_eq_true, if_false]
      rw [apply?_eq hd.std.transpose hlen.symm]
      rfl
    · rintro ⟨i, j⟩ hb
      obtain ⟨h1, h2, h3⟩ := (hmem' i j).1 hb
      rw [get?_transpose]
      exact ⟨hd.inc.get_some h2 h1 h3, hd.inc.pos j i h2 h1 h3⟩
    · rintro ⟨i, j⟩ hb
      rw [hmem'] at hb
      rw [get?_transpose]
      exact hd.inc.get_none (by tauto)
    · intro i j h1 h2
      rw [hmem'] at h1 h2
      exact hd.inc.col j i h1.2.1 h1.1 h2.2.2
    · intro i j h1 h2
      rw [hmem'] at h1 h2
      exact hd.inc.row j i h1.2.1 h1.1 h2.2.2
    · apply semistandard_apply hd.std.transpose
      · rintro ⟨i, j⟩
        rw [hmem', has, get?_transpose, ← has, hd.qinv.shape]
        tauto
      · intro k k' hk hk' i j h1 h2
        simp only [Prod.mk.injEq] at h1 h2
        exact (hd.order hk hk').2 j i (Prod.ext h1.2 h1.1) (Prod.ext h2.2 h2.1)
      · intro k k' hk hk' i j h1 h2
        simp only [Prod.mk.injEq] at h1 h2
        exact (hd.order hk hk').1 j i (Prod.ext h1.2 h1.1) (Prod.ext h2.2 h2.1)
      · exact hc
      · exact hn
      · intro _ k k' hkk hk' heq
        simp only [e] at heq
        have hget' : ∀ (l : List Int) i, i < l.length → l[i]? = some (l.getD i 0) := by
          intro l i h; rw [List.getD_eq_getElem?_getD, List.getElem?_eq_getElem h]; rfl
        have hstep := fun i (hi : i + 1 < w.length) => hrec.2 i _ _ _ _ (hget' w i (by omega)) (hget' w (i + 1) (by omega))
          (hget' rec i (by omega)) (hget' rec (i + 1) (by omega))
        have key : rec.getD k 0 < rec.getD k' 0 ∨ (rec.getD k 0 = rec.getD k' 0 ∧ (β k).1 < (β k').1) := by
          apply steps_trans (P := fun k k' => rec.getD k 0 < rec.getD k' 0 ∨
            (rec.getD k 0 = rec.getD k' 0 ∧ (β k).1 < (β k').1)) _ hkk
          · intro i _ h2
            have h3 := hstep i (by omega)
            rcases eq_or_lt_of_le h3.1 with h4 | h4
            · refine Or.inr ⟨h4, hd.gt i (by omega) ?_⟩
              by_contra hcon
              have := h3.2 (by simpa using hcon)
              omega
            · exact Or.inl h4
          · rintro a b c (h1 | ⟨h1, h2⟩) (h3 | ⟨h3, h4⟩)
            · left; omega
            · left; omega
            · left; omega
            · right; exact ⟨by omega, by omega⟩
        rcases key with h1 | h1
        · omega
        · exact h1.2
    · have := values_std hd.std.transpose (fun x => rec.getD (x.toNat - 1) 0)
      rw [hperm] at this
      exact this

example : (hecke Dict.empty [2, 1, 2, 2, 1, 3] (some [1, 2, 2, 2, 4, 4]) true).1.map (fun r => (r.1.items, r.2.items)) =
    some ([((1, 1), [1]), ((1, 2), [2]), ((1, 3), [3]), ((2, 1), [2])],
      [((1, 1), [1]), ((1, 2), [2, 2]), ((1, 3), [4]), ((2, 1), [2, 4])]) := by decide +kernel
example : (hecke Dict.empty [3, 2, 1, 2, 2, 1] (some [1, 1, 1, 3, 4, 4]) false).1.map (fun r => (r.1.items, r.2.items)) =
    some ([((1, 1), [1]), ((1, 2), [2]), ((1, 3), [3]), ((2, 1), [2])],
      [((1, 1), [1]), ((1, 2), [1]), ((1, 3), [1, 4]), ((2, 1), [3, 4])]) := by decide +kernel

end Verif.Insertion
