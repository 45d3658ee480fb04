import Verif.Lemmas.InsertionPush
import Verif.Lemmas.ShiftedRun

/-! The signed recording tableau of `FState`. -/

namespace Verif.FInsertion

open Tab
open Insertion (has_of_mem_ent values_eq nodup_filter_eq)

variable {E E1 : Nat → Nat} {N : Nat} {Q : Tab}

/-- The number `n` with a sign. -/
def sgn (neg : Bool) (n : Nat) : Int := if neg then -(n : Int) else n

theorem sgn_natAbs (neg : Bool) (n : Nat) : (sgn neg n).natAbs = n := by unfold sgn; split <;> omega

/-- `Q` is a standard shifted set-valued tableau with entries `1, ..., N` up to signs. -/
structure SQInv (Q : Tab) (E : Nat → Nat) (N : Nat) : Prop where
  shape : ∀ i j, Q.has (i, j) = true ↔ 1 ≤ i ∧ i ≤ j ∧ j < E i
  sorted : ∀ b, (Q.ent b).Pairwise (· < ·)
  nonempty : ∀ b s, Q.get? b = some s → s ≠ []
  range : ∀ b x, x ∈ Q.ent b → 1 ≤ x.natAbs ∧ x.natAbs ≤ N
  mem : ∀ n, 1 ≤ n → n ≤ N → ∃ b x, x ∈ Q.ent b ∧ x.natAbs = n
  uniq : ∀ b b' x x', x ∈ Q.ent b → x' ∈ Q.ent b' → x.natAbs = x'.natAbs → b = b' ∧ x = x'
  row : ∀ i j x y, x ∈ Q.ent (i, j) → y ∈ Q.ent (i, j + 1) → x.natAbs < y.natAbs
  col : ∀ i j x y, x ∈ Q.ent (i, j) → y ∈ Q.ent (i + 1, j) → x.natAbs < y.natAbs
  diag : ∀ i x, x ∈ Q.ent (i, i) → 0 < x

theorem SQInv.last (h : SQInv Q E N) (hN : 0 < N) {b : Nat × Nat} {v : Int} (hv : v ∈ Q.ent b) (hvN : v.natAbs = N) :
    Q.last = some v := by
  have hmem : ∀ x, x ∈ Q.values ↔ ∃ b, x ∈ Q.ent b := by
    intro x; rw [values_eq, mem_entries]
  have hmax : Q.values.foldl (fun m x => max m x.natAbs) 0 = N := by
    apply le_antisymm
    · rcases foldl_max_mem Int.natAbs Q.values 0 with h0 | ⟨x, hx, h0⟩
      · omega
      · obtain ⟨c, hc⟩ := (hmem x).1 hx
        have := (h.range c x hc).2
        omega
    · have := (le_foldl_max Int.natAbs Q.values 0).2 v ((hmem _).2 ⟨b, hv⟩)
      omega
  have huniq : ∀ x, x ∈ Q.values → x.natAbs = N → x = v := by
    intro x hx hxN
    obtain ⟨c, hc⟩ := (hmem x).1 hx
    exact (h.uniq _ _ _ _ hc hv (by omega)).2
  have hvv : v ∈ Q.values := (hmem v).2 ⟨b, hv⟩
  rw [Tab.last, hmax]
  rcases Int.natAbs_eq v with h1 | h1
  · rw [hvN] at h1
    rw [if_neg, if_pos (h1 ▸ hvv), h1]
    rintro ⟨_, h3⟩
    have := huniq _ h3 (by simp)
    omega
  · rw [hvN] at h1
    have hn : ¬ (N : Int) ∈ Q.values := by
      intro h3
      have := huniq _ h3 (by simp)
      omega
    rw [if_neg (by tauto), if_neg hn, h1]

theorem mem_ent_add (Q : Tab) (b c : Nat × Nat) (v x : Int) :
    x ∈ (Q.add b v).ent c ↔ x ∈ Q.ent c ∨ (c = b ∧ x = v) := by
  rw [Insertion.ent_add]
  by_cases hc : c = b
  · subst hc
    rw [if_pos rfl, sortInts, (List.perm_insertionSort _ _).mem_iff, List.mem_append, List.mem_singleton]
    simp
  · rw [if_neg hc]; simp [hc]

/-- What is needed for the box `b` of the next number. -/
structure Corner (E E1 : Nat → Nat) (b : Nat × Nat) : Prop where
  shape : ∀ i j, (1 ≤ i ∧ i ≤ j ∧ j < E1 i) ↔ (i, j) = b ∨ (1 ≤ i ∧ i ≤ j ∧ j < E i)
  right : ¬ b.2 + 1 < E1 b.1
  below : ¬ (b.1 + 1 ≤ b.2 ∧ b.2 < E1 (b.1 + 1))

theorem SQInv.add (h : SQInv Q E N) {b : Nat × Nat} {neg : Bool} (hc : Corner E E1 b) (hd : neg = true → b.1 ≠ b.2) :
    SQInv (Q.add b (sgn neg (N + 1))) E1 (N + 1) := by
  obtain ⟨hshape, hright, hbelow⟩ := hc
  have hv := sgn_natAbs neg (N + 1)
  obtain ⟨v, hvdef⟩ : ∃ v, sgn neg (N + 1) = v := ⟨_, rfl⟩
  rw [hvdef] at hv ⊢
  have hbox : ∀ i j x, x ∈ Q.ent (i, j) → 1 ≤ i ∧ i ≤ j ∧ j < E1 i := by
    intro i j x hx
    exact (hshape i j).2 (Or.inr ((h.shape i j).1 (has_of_mem_ent hx)))
  constructor
  · intro i j
    rw [hshape, has, get?_add]
    by_cases hc : (i, j) = b
    · simp [hc]
    · rw [if_neg hc, ← h.shape, has]; simp [hc]
  · intro c
    rw [Insertion.ent_add]
    split
    · have h1 : (sortInts (Q.ent b ++ [v])).Pairwise (· ≤ ·) := List.pairwise_insertionSort _ _
      have h2 : (sortInts (Q.ent b ++ [v])).Nodup := by
        rw [sortInts, (List.perm_insertionSort _ _).nodup_iff, List.nodup_append]
        refine ⟨(h.sorted b).imp (fun h => ne_of_lt h), by simp, ?_⟩
        intro x hx y hy
        have := (h.range b x hx).2
        simp only [List.mem_singleton] at hy
        subst hy
        rintro rfl
        omega
      exact (h1.and h2).imp (fun h => lt_of_le_of_ne h.1 h.2)
    · exact h.sorted c
  · intro c s hs
    rw [get?_add] at hs
    split at hs
    · cases hs
      intro hc
      have := congrArg List.length hc
      simp [sortInts, List.length_insertionSort] at this
    · exact h.nonempty c s hs
  · intro c x hx
    rw [mem_ent_add] at hx
    rcases hx with hx | ⟨_, rfl⟩
    · have := h.range c x hx
      omega
    · omega
  · intro n h1 h2
    rcases Nat.eq_or_lt_of_le h2 with rfl | h2
    · exact ⟨b, v, by rw [mem_ent_add]; exact Or.inr ⟨rfl, rfl⟩, hv⟩
    · obtain ⟨c, x, hx, hn⟩ := h.mem n h1 (by omega)
      exact ⟨c, x, by rw [mem_ent_add]; exact Or.inl hx, hn⟩
  · intro c c' x x' hx hx' he
    rw [mem_ent_add] at hx hx'
    rcases hx with hx | ⟨rfl, rfl⟩
    · rcases hx' with hx' | ⟨rfl, rfl⟩
      · exact h.uniq _ _ _ _ hx hx' he
      · have := h.range c x hx
        omega
    · rcases hx' with hx' | ⟨rfl, rfl⟩
      · have := h.range c' x' hx'
        omega
      · exact ⟨rfl, rfl⟩
  · intro i j x y hx hy
    rw [mem_ent_add] at hx hy
    rcases hy with hy | ⟨hy, rfl⟩
    · rcases hx with hx | ⟨rfl, rfl⟩
      · exact h.row i j x y hx hy
      · exact absurd (hbox _ _ _ hy).2.2 hright
    · rcases hx with hx | ⟨hx, rfl⟩
      · have := h.range _ _ hx
        omega
      · rw [← hx] at hy
        have := congrArg Prod.snd hy
        simp only at this
        omega
  · intro i j x y hx hy
    rw [mem_ent_add] at hx hy
    rcases hy with hy | ⟨hy, rfl⟩
    · rcases hx with hx | ⟨rfl, rfl⟩
      · exact h.col i j x y hx hy
      · exact absurd (hbox _ _ _ hy).2 hbelow
    · rcases hx with hx | ⟨hx, rfl⟩
      · have := h.range _ _ hx
        omega
      · rw [← hx] at hy
        have := congrArg Prod.fst hy
        simp only at this
        omega
  · intro i x hx
    rw [mem_ent_add] at hx
    rcases hx with hx | ⟨rfl, rfl⟩
    · exact h.diag i x hx
    · cases neg
      · rw [← hvdef, sgn]; simp
      · exact absurd rfl (hd rfl)

theorem SQInv.isRec (h : SQInv Q E N) (b : Nat × Nat) (neg : Bool) : Rec neg (sortInts (Q.ent b ++ [sgn neg (N + 1)])) := by
  have hm : ∀ x, x ∈ sortInts (Q.ent b ++ [sgn neg (N + 1)]) ↔ x ∈ Q.ent b ∨ x = sgn neg (N + 1) := by
    intro x
    rw [sortInts, (List.perm_insertionSort _ _).mem_iff, List.mem_append, List.mem_singleton]
  refine ⟨N + 1, by omega, ?_, ?_, ?_⟩
  · rw [hm]; right; rfl
  · rw [hm]
    rintro (h1 | h1)
    · have := h.range b _ h1
      split at this <;> omega
    · unfold sgn at h1
      split at h1 <;> omega
  · intro v hv
    rw [hm] at hv
    rcases hv with hv | rfl
    · have := h.range b _ hv
      omega
    · rw [sgn_natAbs]

theorem SQInv.rec_length (h : SQInv Q E N) (b : Nat × Nat) (neg : Bool) :
    (sortInts (Q.ent b ++ [sgn neg (N + 1)])).dedup.length = (Q.ent b).length + 1 := by
  have h2 : (sortInts (Q.ent b ++ [sgn neg (N + 1)])).Nodup := by
    rw [sortInts, (List.perm_insertionSort _ _).nodup_iff, List.nodup_append]
    refine ⟨(h.sorted b).imp (fun h => ne_of_lt h), by simp, ?_⟩
    intro x hx y hy
    have := (h.range b x hx).2
    simp only [List.mem_singleton] at hy
    subst hy
    rintro rfl
    rw [sgn_natAbs] at this
    omega
  rw [h2.dedup, sortInts, List.length_insertionSort]
  simp

theorem SQInv.ent_ne_nil (h : SQInv Q E N) {b : Nat × Nat} (hb : Q.has b = true) : Q.ent b ≠ [] := by
  obtain ⟨s, hs⟩ := Tab.has_iff.1 hb
  rw [ent, hs]
  exact h.nonempty _ _ hs

theorem SQInv.ent_eq_nil {b : Nat × Nat} (hb : ¬ Q.has b = true) : Q.ent b = [] := by
  rw [has] at hb
  rw [ent]
  cases hg : Q.get? b with
  | none => rfl
  | some s => simp [hg] at hb

theorem SQInv.pop_add (h : SQInv Q E N) {b : Nat × Nat} {neg : Bool}
    (h' : SQInv (Q.add b (sgn neg (N + 1))) E1 (N + 1)) :
    (Q.add b (sgn neg (N + 1))).pop = some (Q, b, sortInts (Q.ent b ++ [sgn neg (N + 1)])) := by
  have hv := sgn_natAbs neg (N + 1)
  obtain ⟨v, hvdef⟩ : ∃ v, sgn neg (N + 1) = v := ⟨_, rfl⟩
  rw [hvdef] at hv h' ⊢
  have hb1 : v ∈ (Q.add b v).ent b := by rw [mem_ent_add]; exact Or.inr ⟨rfl, rfl⟩
  have hlast : (Q.add b v).last = some v := h'.last (by omega) hb1 hv
  have hgetb : (Q.add b v).get? b = some (sortInts (Q.ent b ++ [v])) := by rw [get?_add, if_pos rfl]
  have hfind : (Q.add b v).find v = [b] := by
    apply nodup_filter_eq
    · rw [find]
      exact (Tab.keys_nodup _).sublist ((List.filter_sublist).map _)
    · intro c
      rw [find, List.mem_map]
      constructor
      · rintro ⟨⟨c', s⟩, hcs, rfl⟩
        rw [List.mem_filter, decide_eq_true_eq] at hcs
        have hs := Tab.get?_eq_some.2 hcs.1
        exact (h'.uniq _ _ _ _ (by rw [ent, hs]; exact hcs.2) hb1 rfl).1
      · rintro rfl
        refine ⟨(c, sortInts (Q.ent c ++ [v])), ?_, rfl⟩
        rw [List.mem_filter, decide_eq_true_eq]
        refine ⟨Tab.get?_eq_some.1 hgetb, ?_⟩
        rw [sortInts, (List.perm_insertionSort _ _).mem_iff]; simp
  have hget : ((Q.add b v).get? b).getD [] = sortInts (Q.ent b ++ [v]) := by rw [hgetb]; rfl
  simp only [pop, hlast, hfind, hget]
  have hlen : (sortInts (Q.ent b ++ [v])).length = (Q.ent b).length + 1 := by
    rw [sortInts, List.length_insertionSort]; simp
  cases hg : Q.get? b with
  | none =>
    have he : Q.ent b = [] := by rw [ent, hg]; rfl
    have h1 : sortInts [v] = [v] := rfl
    rw [he, List.nil_append, h1, if_pos (Or.inl rfl), add_of_none hg, del_set hg]
  | some s =>
    have he : Q.ent b = s := by rw [ent, hg]; rfl
    have hne := h.nonempty b s hg
    rw [if_neg]
    · have hsorted : (Q.ent b).Pairwise (· ≤ ·) := (h.sorted b).imp (fun h => le_of_lt h)
      have hf : sortInts ((sortInts (Q.ent b ++ [v])).dedup.filter (fun x => decide (x ≠ v ∧ x ≠ -v))) = Q.ent b := by
        have hnd : (Q.ent b ++ [v]).Nodup := by
          rw [List.nodup_append]
          refine ⟨(h.sorted b).imp (fun h => ne_of_lt h), by simp, ?_⟩
          intro x hx y hy
          have := (h.range b x hx).2
          simp only [List.mem_singleton] at hy
          subst hy
          rintro rfl
          omega
        have hnd2 : (sortInts (Q.ent b ++ [v])).Nodup := by
          rw [sortInts, (List.perm_insertionSort _ _).nodup_iff]; exact hnd
        have hperm : ((sortInts (Q.ent b ++ [v])).dedup.filter (fun x => decide (x ≠ v ∧ x ≠ -v))).Perm (Q.ent b) := by
          rw [hnd2.dedup]
          have h1 := (List.perm_insertionSort (· ≤ ·) (Q.ent b ++ [v])).filter (fun x => decide (x ≠ v ∧ x ≠ -v))
          refine h1.trans ?_
          rw [List.filter_append, List.filter_eq_self.2]
          · simp
          · intro x hx
            have := (h.range b x hx).2
            simp only [decide_eq_true_eq]
            constructor
            · rintro rfl; omega
            · rintro rfl; omega
        have h1 : (sortInts ((sortInts (Q.ent b ++ [v])).dedup.filter (fun x => decide (x ≠ v ∧ x ≠ -v)))).Pairwise (· ≤ ·) :=
          List.pairwise_insertionSort _ _
        exact ((List.perm_insertionSort _ _).trans hperm).eq_of_pairwise (fun a b _ _ h1 h2 => le_antisymm h1 h2) h1 hsorted
      rw [hf]
      congr 2
      apply Tab.ext_get?
      intro c
      rw [Tab.get?_set, Tab.get?_del, get?_add]
      by_cases hc : c = b
      · rw [if_pos hc, hc, hg, he]
      · simp [hc]
    · obtain ⟨x, s', rfl⟩ := List.exists_cons_of_ne_nil hne
      rintro (hc | hc)
      · have := congrArg List.length hc
        rw [hlen, he] at this
        simp at this
      · have := congrArg List.length hc
        rw [hlen, he] at this
        simp at this

end Verif.FInsertion
