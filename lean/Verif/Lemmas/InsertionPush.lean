import Verif.Lemmas.InsertionTrace

/-! `HState.push`, its inverse, and the recording tableau. -/

namespace Verif.Insertion

open Tab

variable {lam : Nat → Nat} {N : Nat} {Q : Tab}

/-- `Q` is a standard set-valued tableau with row lengths `lam` and entries `1, ..., N`. -/
structure QInv (Q : Tab) (lam : Nat → Nat) (N : Nat) : Prop where
  shape : ∀ i j, Q.has (i, j) = true ↔ 1 ≤ i ∧ 1 ≤ j ∧ j ≤ lam i
  sorted : ∀ b, (Q.ent b).Pairwise (· < ·)
  nonempty : ∀ b s, Q.get? b = some s → s ≠ []
  mem : ∀ x, (∃ b, x ∈ Q.ent b) ↔ 1 ≤ x ∧ x ≤ (N : Int)
  uniq : ∀ b b' x, x ∈ Q.ent b → x ∈ Q.ent b' → b = b'
  row : ∀ i j x y, x ∈ Q.ent (i, j) → y ∈ Q.ent (i, j + 1) → x < y
  col : ∀ i j x y, x ∈ Q.ent (i, j) → y ∈ Q.ent (i + 1, j) → x < y

theorem has_of_mem_ent {b : Nat × Nat} {x : Int} (h : x ∈ Q.ent b) : Q.has b = true := by
  unfold ent at h
  rw [has]
  cases hg : Q.get? b with
  | none => simp [hg] at h
  | some s => rfl

theorem values_eq (Q : Tab) : Q.values = Q.entries := rfl

theorem QInv.last (h : QInv Q lam N) : Q.last = some (N : Int) := by
  have hmem : ∀ x, x ∈ Q.values ↔ 1 ≤ x ∧ x ≤ (N : Int) := by
    intro x; rw [values_eq, mem_entries, h.mem]
  have hmax : Q.values.foldl (fun m x => max m x.natAbs) 0 = N := by
    apply le_antisymm
    · rcases foldl_max_mem Int.natAbs Q.values 0 with h0 | ⟨x, hx, h0⟩
      · omega
      · have := (hmem x).1 hx
        omega
    · rcases Nat.eq_zero_or_pos N with h0 | h0
      · omega
      · have := (le_foldl_max Int.natAbs Q.values 0).2 (N : Int) ((hmem _).2 (by omega))
        simpa using this
  rw [Tab.last, hmax]
  simp only [hmem]
  rcases Nat.eq_zero_or_pos N with h0 | h0
  · subst h0; simp
  · rw [if_neg (by omega), if_pos (by omega)]

theorem ent_add (Q : Tab) (b c : Nat × Nat) (v : Int) :
    (Q.add b v).ent c = if c = b then sortInts (Q.ent b ++ [v]) else Q.ent c := by
  rw [ent, get?_add]
  by_cases h : c = b <;> simp [h, ent]

theorem QInv.ent_add (h : QInv Q lam N) (b c : Nat × Nat) :
    (Q.add b ((N : Int) + 1)).ent c = Q.ent c ++ if c = b then [(N : Int) + 1] else [] := by
  rw [Insertion.ent_add]
  by_cases hc : c = b
  · subst hc
    rw [if_pos rfl, if_pos rfl, sortInts_append (h.sorted c)]
    intro x hx
    have := (h.mem x).1 ⟨c, hx⟩
    omega
  · rw [if_neg hc, if_neg hc, List.append_nil]

theorem QInv.get?_add (h : QInv Q lam N) (b c : Nat × Nat) :
    (Q.add b ((N : Int) + 1)).get? c = if c = b then some (Q.ent b ++ [(N : Int) + 1]) else Q.get? c := by
  rw [Tab.get?_add]
  by_cases hc : c = b
  · rw [if_pos hc, if_pos hc, sortInts_append (h.sorted b)]
    intro x hx
    have := (h.mem x).1 ⟨b, hx⟩
    omega
  · rw [if_neg hc, if_neg hc]

/-- Adding the next number in a corner. -/
theorem QInv.add (h : QInv Q lam N) {lam' : Nat → Nat} {b : Nat × Nat}
    (hshape : ∀ i j, (1 ≤ i ∧ 1 ≤ j ∧ j ≤ lam' i) ↔ (i, j) = b ∨ (1 ≤ i ∧ 1 ≤ j ∧ j ≤ lam i))
    (hright : ¬ b.2 + 1 ≤ lam' b.1) (hbelow : ¬ b.2 ≤ lam' (b.1 + 1)) : QInv (Q.add b ((N : Int) + 1)) lam' (N + 1) := by
  obtain ⟨bi, bj⟩ := b
  have hbb := (hshape bi bj).2 (Or.inl rfl)
  have hltN : ∀ c x, x ∈ Q.ent c → x ≤ (N : Int) := fun c x hx => ((h.mem x).1 ⟨c, hx⟩).2
  have hbox : ∀ i j x, x ∈ Q.ent (i, j) → 1 ≤ i ∧ 1 ≤ j ∧ j ≤ lam' i := by
    intro i j x hx
    exact (hshape i j).2 (Or.inr ((h.shape i j).1 (has_of_mem_ent hx)))
  constructor
  · intro i j
    rw [hshape, has, h.get?_add]
    by_cases hc : (i, j) = (bi, bj)
    · simp [hc]
    · rw [if_neg hc, ← h.shape, has]; simp [hc]
  · intro c
    rw [h.ent_add]
    split
    · rw [List.pairwise_append]
      refine ⟨h.sorted c, by simp, ?_⟩
      intro x hx y hy
      have := hltN c x hx
      simp only [List.mem_singleton] at hy
      omega
    · rw [List.append_nil]; exact h.sorted c
  · intro c s hs
    rw [h.get?_add] at hs
    split at hs
    · cases hs; simp
    · exact h.nonempty c s hs
  · intro x
    constructor
    · rintro ⟨c, hx⟩
      rw [h.ent_add, List.mem_append] at hx
      rcases hx with hx | hx
      · have := (h.mem x).1 ⟨c, hx⟩
        push_cast; omega
      · split at hx
        · simp only [List.mem_singleton] at hx; push_cast; omega
        · simp at hx
    · intro hx
      push_cast at hx
      by_cases hN : x ≤ (N : Int)
      · obtain ⟨c, hc⟩ := (h.mem x).2 ⟨hx.1, hN⟩
        exact ⟨c, by rw [h.ent_add]; simp [hc]⟩
      · exact ⟨(bi, bj), by rw [h.ent_add]; simp; right; omega⟩
  · intro c c' x hx hx'
    rw [h.ent_add, List.mem_append] at hx hx'
    have key : ∀ d, x ∈ (if d = (bi, bj) then [(N : Int) + 1] else []) → x = (N : Int) + 1 ∧ d = (bi, bj) := by
      intro d hd
      split at hd
      · rename_i h1; exact ⟨by simpa using hd, h1⟩
      · simp at hd
    rcases hx with hx | hx
    · rcases hx' with hx' | hx'
      · exact h.uniq _ _ _ hx hx'
      · have h1 := (key _ hx').1
        have := hltN _ _ hx
        omega
    · rcases hx' with hx' | hx'
      · have h1 := (key _ hx).1
        have := hltN _ _ hx'
        omega
      · rw [(key _ hx).2, (key _ hx').2]
  · intro i j x y hx hy
    rw [h.ent_add, List.mem_append] at hx hy
    rcases hy with hy | hy
    · rcases hx with hx | hx
      · exact h.row i j x y hx hy
      · split at hx
        · rename_i hb
          cases hb
          exact absurd (hbox _ _ _ hy).2.2 hright
        · simp at hx
    · rcases hx with hx | hx
      · have := hltN _ _ hx
        split at hy
        · simp only [List.mem_singleton] at hy; omega
        · simp at hy
      · split at hx
        · rename_i hb
          cases hb
          split at hy
          · rename_i hb
            have := congrArg Prod.snd hb
            simp only at this
            omega
          · simp at hy
        · simp at hx
  · intro i j x y hx hy
    rw [h.ent_add, List.mem_append] at hx hy
    rcases hy with hy | hy
    · rcases hx with hx | hx
      · exact h.col i j x y hx hy
      · split at hx
        · rename_i hb
          cases hb
          exact absurd (hbox _ _ _ hy).2.2 hbelow
        · simp at hx
    · rcases hx with hx | hx
      · have := hltN _ _ hx
        split at hy
        · simp only [List.mem_singleton] at hy; omega
        · simp at hy
      · split at hx
        · rename_i hb
          cases hb
          split at hy
          · rename_i hb
            have := congrArg Prod.fst hb
            simp only at this
            omega
          · simp at hy
        · simp at hx

theorem nodup_filter_eq {α : Type*} {l : List α} (hl : l.Nodup) {b : α} (h : ∀ x, x ∈ l ↔ x = b) : l = [b] := by
  have : l.Perm [b] := (List.perm_ext_iff_of_nodup hl (List.nodup_singleton b)).2 (by simpa using h)
  exact List.perm_singleton.1 this

theorem QInv.pop_add (h : QInv Q lam N) {lam' : Nat → Nat} {b : Nat × Nat}
    (h' : QInv (Q.add b ((N : Int) + 1)) lam' (N + 1)) :
    (Q.add b ((N : Int) + 1)).pop = some (Q, b, Q.ent b ++ [(N : Int) + 1]) := by
  have hlast : (Q.add b ((N : Int) + 1)).last = some ((N : Int) + 1) := by
    rw [h'.last]; push_cast; rfl
  have hb1 : (N : Int) + 1 ∈ (Q.add b ((N : Int) + 1)).ent b := by rw [h.ent_add]; simp
  have hfind : (Q.add b ((N : Int) + 1)).find ((N : Int) + 1) = [b] := by
    apply nodup_filter_eq
    · rw [find]
      exact (Tab.keys_nodup _).sublist ((List.filter_sublist).map _)
    · intro c
      rw [find, List.mem_map]
      constructor
      · rintro ⟨⟨c', s⟩, hcs, rfl⟩
        rw [List.mem_filter, decide_eq_true_eq] at hcs
        have hs := Tab.get?_eq_some.2 hcs.1
        exact h'.uniq _ _ _ (by rw [ent, hs]; exact hcs.2) hb1
      · rintro rfl
        refine ⟨(c, Q.ent c ++ [(N : Int) + 1]), ?_, rfl⟩
        rw [List.mem_filter, decide_eq_true_eq]
        refine ⟨Tab.get?_eq_some.1 (by rw [h.get?_add, if_pos rfl]), by simp⟩
  have hget : ((Q.add b ((N : Int) + 1)).get? b).getD [] = Q.ent b ++ [(N : Int) + 1] := by
    rw [h.get?_add, if_pos rfl]; rfl
  simp only [pop, hlast, hfind, hget]
  cases hg : Q.get? b with
  | none =>
    have he : Q.ent b = [] := by rw [ent, hg]; rfl
    rw [he, List.nil_append, if_pos (Or.inl rfl), add_of_none hg, del_set hg]
  | some s =>
    have he : Q.ent b = s := by rw [ent, hg]; rfl
    have hne := h.nonempty b s hg
    rw [he, if_neg]
    · have hnd : (s ++ [(N : Int) + 1]).Nodup := by
        rw [← he, List.nodup_append]
        refine ⟨(h.sorted b).imp (fun h => ne_of_lt h), by simp, ?_⟩
        intro x hx y hy
        have := (h.mem x).1 ⟨b, hx⟩
        simp only [List.mem_singleton] at hy
        omega
      have hf : (s ++ [(N : Int) + 1]).dedup.filter (fun x => decide (x ≠ (N : Int) + 1 ∧ x ≠ -((N : Int) + 1))) = s := by
        rw [hnd.dedup, List.filter_append, List.filter_eq_self.2]
        · simp
        · intro x hx
          rw [← he] at hx
          have := (h.mem x).1 ⟨b, hx⟩
          simp only [decide_eq_true_eq]
          omega
      have hs : sortInts s = s := by
        apply List.Pairwise.insertionSort_eq
        rw [← he]
        exact (h.sorted b).imp (fun h => le_of_lt h)
      rw [hf, hs]
      congr 2
      apply Tab.ext_get?
      intro c
      rw [Tab.get?_set, Tab.get?_del, h.get?_add]
      by_cases hc : c = b
      · rw [if_pos hc, hc, hg]
      · simp [hc]
    · obtain ⟨x, s', rfl⟩ := List.exists_cons_of_ne_nil hne
      rintro (hc | hc)
      · have := congrArg List.length hc
        simp at this
      · have := congrArg List.length hc
        simp at this

/-- The invariant of the insertion algorithm. -/
def Good (p q : Tab) (N : Nat) : Prop := ∃ lam f, Inc p lam f ∧ QInv q lam N

theorem good_empty : Good Tab.empty Tab.empty 0 := by
  refine ⟨fun _ => 0, fun _ _ => 1, ?_, ?_⟩
  · constructor
    · intro i j; rw [if_neg (by omega)]; rfl
    · intro i _; exact le_refl _
    · intro i j _ _ h; simp at h
    · intro i j _ h1 h2; omega
    · intro i j _ _ _; omega
  · constructor
    · intro i j
      constructor
      · intro h; simp [has, get?_empty] at h
      · intro h; omega
    · intro b; simp [ent, get?_empty]
    · intro b s h; simp [get?_empty] at h
    · intro x
      constructor
      · rintro ⟨b, hb⟩; simp [ent, get?_empty] at hb
      · intro h; simp only [Nat.cast_zero] at h; omega
    · intro b b' x h; simp [ent, get?_empty] at h
    · intro i j x y h; simp [ent, get?_empty] at h
    · intro i j x y h; simp [ent, get?_empty] at h

theorem items_ne_nil {T : Tab} {b : Nat × Nat} (h : T.has b = true) : T.items ≠ [] := by
  intro hc
  rw [has, get?, hc] at h
  simp [Dict.lookup] at h

/-- What the box of the recording tableau and the new row lengths are, in terms of the bumping path. -/
def BoxRel (lam : Nat → Nat) (f F : Nat → Nat → Int) (A : Nat → Int) (K : Nat → Nat) (R : Nat) (lam' : Nat → Nat)
    (b : Nat × Nat) : Prop :=
  (Fits f F R (K R) (A R) ∧ b = (R + 1, lam (R + 1) + 1) ∧ ∀ i, lam' i = if i = R + 1 then lam (R + 1) + 1 else lam i) ∨
  (¬ Fits f F R (K R) (A R) ∧ (∀ i, lam' i = lam i) ∧ 1 ≤ lam (R + 1) ∧
    ∃ M, R + 1 ≤ M ∧ b = (M, lam (R + 1)) ∧ lam M = lam (R + 1) ∧ lam (M + 1) < lam (R + 1))

/-- One insertion step and its inverse. -/
theorem push_trace {p q : Tab} {f : Nat → Nat → Int} (hp : Inc p lam f) (hq : QInv q lam N) {a : Int} (ha : 0 < a) :
    ∃ p' b lam' F A K R, push p q a = some (p', q.add b ((N : Int) + 1)) ∧ Inc p' lam' F ∧
      QInv (q.add b ((N : Int) + 1)) lam' (N + 1) ∧ unpush p' (q.add b ((N : Int) + 1)) = some (p, q, a) ∧ p'.items ≠ [] ∧
      A 0 = a ∧ Trace lam f F A K 0 R ∧ BoxRel lam f F A K R lam' b := by
  have hready : Ready lam f 0 a := ⟨ha, by omega, by omega⟩
  obtain ⟨Tc, fc, R, c, A, K, h1, h2, h3, h4, h5, ⟨pre, h6⟩, h7, h8, h9, h10, h11⟩ :=
    trace_exists p.maxRow hp hready (hp.lam_zero (by omega))
  rw [Nat.sub_zero] at h6 h7
  have hinc := finInc h3 h4 h5
  have hmk : mkState p none = some ⟨p, none⟩ := rfl
  have hadd : (⟨p, none⟩ : HState).add a = some (st p lam 0 a) := by
    simp only [HState.add]
    rw [hp.maxColumn, add_of_none (hp.outer_none 0)]
    exact mkState_st hp (Or.inl rfl)
  have hpath : path (p.maxRow + 3) (st p lam 0 a) =
      some (pre ++ [(⟨nextT Tc fc R (lam (R + 1)) c, none⟩, (R + 1, lam (R + 1) + 1))]) := by
    rw [show p.maxRow + 3 = ((p.maxRow + 1 - R) + 2) + R by omega, h6, path_final h3 h4 h5]
    rfl
  have hins : (⟨p, none⟩ : HState).insert (p.maxRow + 3) a = some (⟨nextT Tc fc R (lam (R + 1)) c, none⟩,
      pre.map Prod.snd ++ [(R + 1, lam (R + 1) + 1)]) := by
    rw [HState.insert, hadd]
    simp only
    rw [hpath]
    simp
  -- the recording box
  have hbox : ∃ b, recordBox (nextT Tc fc R (lam (R + 1)) c) (R + 1, lam (R + 1) + 1) = some b ∧
      QInv (q.add b ((N : Int) + 1)) (finLam lam fc R c) (N + 1) ∧
      inverseTerminal ⟨nextT Tc fc R (lam (R + 1)) c, none⟩ (b, q.ent b ++ [(N : Int) + 1]) = some (st Tc lam R c) ∧
      BoxRel lam f (nextF fc R (lam (R + 1)) c) A K R (finLam lam fc R c) b ∧
      1 ≤ b.1 ∧ 1 ≤ b.2 ∧ b.2 ≤ finLam lam fc R c b.1 := by
    by_cases hi : Insertable fc R (lam (R + 1)) c
    · have hl : finLam lam fc R c = fun i => if i = R + 1 then lam (R + 1) + 1 else lam i := by
        funext i; simp [finLam, hi]
      have hhas : (nextT Tc fc R (lam (R + 1)) c).has (R + 1, lam (R + 1) + 1) = true := by
        rw [hinc.has_iff, hl]; simp
      refine ⟨_, recordBox_new hhas, ?_, ?_, Or.inl ⟨h11.1 hi, rfl, by rw [hl]; exact fun i => rfl⟩, by simp, by simp,
        by rw [hl]; simp⟩
      · apply hq.add
        · intro i j
          rw [hl, Prod.mk.injEq]
          dsimp only
          split
          · rename_i hc; subst hc; omega
          · omega
        · rw [hl]; simp
        · rw [hl]
          have := h3.anti (R + 1) (by omega)
          simp only [Nat.add_eq_left, one_ne_zero, if_false]
          omega
      · have hent : q.ent (R + 1, lam (R + 1) + 1) = [] := by
          have : q.has (R + 1, lam (R + 1) + 1) ≠ true := by rw [Ne, hq.shape]; omega
          rw [has] at this
          rw [ent]
          cases hg : q.get? (R + 1, lam (R + 1) + 1) with
          | none => rfl
          | some s => simp [hg] at this
        rw [hent, List.nil_append]
        exact inverseTerminal_new h3 h4 hi
    · have hl : finLam lam fc R c = lam := by funext i; simp [finLam, hi]
      have hk1 := lam_of_not_insertable h4 hi
      obtain ⟨M, hM1, hM2, hM3⟩ := exists_bottom (r := R) h3 hk1 (le_refl _)
      have hlM : lam M = lam (R + 1) := le_antisymm (h3.anti' (by omega) hM1) hM2
      rw [hl] at hinc
      have hhas : q.has (M, lam (R + 1)) = true := by rw [hq.shape]; omega
      have hrec : recordBox (nextT Tc fc R (lam (R + 1)) c) (R + 1, lam (R + 1) + 1) = some (M, lam (R + 1)) :=
        recordBox_old hinc rfl hk1 hM1 hM2 hM3
      refine ⟨_, hrec, ?_, ?_, Or.inr ⟨fun hc => hi (h11.2 hc), by rw [hl]; exact fun i => rfl, hk1, M, hM1, rfl, hlM, hM3⟩,
        by simp only; omega, by simp only; omega, by rw [hl]; simp only; omega⟩
      · rw [hl]
        apply hq.add
        · intro i j
          rw [Prod.mk.injEq]
          constructor
          · intro h; exact Or.inr h
          · rintro (⟨rfl, rfl⟩ | h)
            · omega
            · exact h
        · simp only; omega
        · simp only; omega
      · apply inverseTerminal_old h3 h4 h5 hi hM1 hM2
        obtain ⟨s, hs⟩ := has_iff.1 hhas
        have hent : q.ent (M, lam (R + 1)) = s := by rw [ent, hs]; rfl
        have hne := hq.nonempty _ _ hs
        have hnd : (q.ent (M, lam (R + 1)) ++ [(N : Int) + 1]).Nodup := by
          rw [List.nodup_append]
          refine ⟨(hq.sorted _).imp (fun h => ne_of_lt h), by simp, ?_⟩
          intro x hx y hy
          have := (hq.mem x).1 ⟨_, hx⟩
          simp only [List.mem_singleton] at hy
          omega
        rw [hnd.dedup, hent]
        obtain ⟨x, s', rfl⟩ := List.exists_cons_of_ne_nil hne
        simp
  obtain ⟨b, hb1, hb2, hb3, hb5, hb4⟩ := hbox
  have hhasb : (nextT Tc fc R (lam (R + 1)) c).has b = true := by
    obtain ⟨bi, bj⟩ := b
    rw [hinc.has_iff]; exact hb4
  refine ⟨nextT Tc fc R (lam (R + 1)) c, b, _, _, A, K, R, ?_, hinc, hb2, ?_, items_ne_nil hhasb, h8, h10, hb5⟩
  · rw [push, hq.last, hmk]
    simp only
    rw [hins]
    simp only [List.getLast?_append, List.getLast?_singleton, Option.some_or]
    rw [hb1]
    simp only [Option.map_some, Int.natAbs_natCast]
    rw [Int.add_comm]
  · rw [unpush, hq.pop_add hb2]
    simp only
    have hprev : (mkState (nextT Tc fc R (lam (R + 1)) c) none).bind
        (fun s => s.previous (some (b, q.ent b ++ [(N : Int) + 1]))) = some (st Tc lam R c) := by
      have : mkState (nextT Tc fc R (lam (R + 1)) c) none = some ⟨nextT Tc fc R (lam (R + 1)) c, none⟩ := rfl
      rw [this]
      simp only [Option.bind_some]
      rw [HState.previous, outerInLastColumn_none]
      exact hb3
    rw [hprev]
    simp only
    have hR : R ≤ (nextT Tc fc R (lam (R + 1)) c).maxRow + 2 := by
      rcases h4.row_pos with h0 | h0
      · omega
      · rcases Nat.eq_zero_or_pos R with h00 | h00
        · omega
        · have := hinc.le_maxRow h00 (by rw [finLam, if_neg (by omega)]; exact h0)
          omega
    have hrew : rewind ((nextT Tc fc R (lam (R + 1)) c).maxRow + 2) (st Tc lam R c) = some (st p lam 0 a) := by
      obtain ⟨g, hg⟩ := Nat.exists_eq_add_of_le hR
      rw [hg, Nat.add_comm R g, h7 g]
      cases g <;> simp [rewind, isInitial_st]
    rw [hrew]
    simp only [Option.bind_some]
    have e1 : (p.set (0 + 1, lam 1 + 2) [a]).remove? (0 + 1, lam 1 + 2) = some p := by
      rw [remove?, if_pos (by rw [has_set]; simp), del_set (hp.outer_none 0)]
    have e2 : (p.set (0 + 1, lam 1 + 2) [a]).entry (0 + 1, lam 1 + 2) = some a := entry_of_get? (by rw [Tab.get?_set]; simp)
    simp only [HState.pop, st, e1, e2]

theorem push_spec {p q : Tab} (hg : Good p q N) {a : Int} (ha : 0 < a) :
    ∃ p' q', push p q a = some (p', q') ∧ Good p' q' (N + 1) ∧ unpush p' q' = some (p, q, a) ∧ p'.items ≠ [] := by
  obtain ⟨lam, f, hp, hq⟩ := hg
  obtain ⟨p', b, lam', F, A, K, R, h1, h2, h3, h4, h5, -⟩ := push_trace hp hq ha
  exact ⟨p', _, h1, ⟨lam', F, h2, h3⟩, h4, h5⟩

end Verif.Insertion
