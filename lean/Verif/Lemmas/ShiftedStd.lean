import Verif.Lemmas.InsertionPieri
import Verif.Lemmas.ShiftedRecord

/-! Standardization of signed recording tableaux, and the record. -/

namespace Verif.FInsertion

open Tab
open Insertion (values_eq mem_boxed boxed_nodup boxed_apply get?_apply values_length_apply recordList recordEntry mappingAt
  foldlM_some foldl_range_getD steps_trans has_of_mem_ent)

attribute [-simp] List.getD_eq_getElem?_getD

variable {N : Nat} {Q : Tab} {β : Nat → Nat × Nat} {ε : Nat → Bool} {E : Nat → Nat}

/-- A positive number with a sign. -/
def sg (neg : Bool) (x : Int) : Int := if neg then -x else x

theorem sg_natAbs (neg : Bool) (x : Int) : (sg neg x).natAbs = x.natAbs := by unfold sg; split <;> omega

/-- The number `k + 1` with its sign. -/
def val (ε : Nat → Bool) (k : Nat) : Int := sg (ε k) ((k : Int) + 1)

theorem val_natAbs (ε : Nat → Bool) (k : Nat) : (val ε k).natAbs = k + 1 := by
  rw [val, sg_natAbs]; omega

theorem val_inj {k k' : Nat} (h : (val ε k).natAbs = (val ε k').natAbs) : k = k' := by
  rw [val_natAbs, val_natAbs] at h; omega

/-- The signed numbers of the box `b`, unsorted. -/
def rawList (β : Nat → Nat × Nat) (ε : Nat → Bool) (n : Nat) (b : Nat × Nat) : List Int :=
  ((List.range n).filter (fun k => decide (β k = b))).map (val ε)

/-- `Q` has the numbers `1, ..., N` up to signs, with `k + 1` in box `β k`, negative if `ε k`. -/
def SStd (Q : Tab) (β : Nat → Nat × Nat) (ε : Nat → Bool) (N : Nat) : Prop :=
  ∀ b, Q.get? b = if rawList β ε N b = [] then none else some (sortInts (rawList β ε N b))

theorem mem_rawList {n : Nat} {b : Nat × Nat} {x : Int} : x ∈ rawList β ε n b ↔ ∃ k, k < n ∧ β k = b ∧ x = val ε k := by
  simp only [rawList, List.mem_map, List.mem_filter, List.mem_range, decide_eq_true_eq]
  constructor
  · rintro ⟨k, ⟨h1, h2⟩, h3⟩; exact ⟨k, h1, h2, h3.symm⟩
  · rintro ⟨k, h1, h2, h3⟩; exact ⟨k, ⟨h1, h2⟩, h3.symm⟩

theorem rawList_nodup (n : Nat) (b : Nat × Nat) : (rawList β ε n b).Nodup := by
  apply List.Nodup.map
  · intro k k' h; exact val_inj (congrArg Int.natAbs h)
  · exact List.nodup_range.filter _

theorem rawList_succ (n : Nat) (b : Nat × Nat) :
    rawList β ε (n + 1) b = rawList β ε n b ++ if β n = b then [val ε n] else [] := by
  unfold rawList
  rw [List.range_succ, List.filter_append, List.map_append]
  congr 1
  by_cases h : β n = b <;> simp [h]

theorem mem_sortInts {l : List Int} {x : Int} : x ∈ sortInts l ↔ x ∈ l := (List.perm_insertionSort _ _).mem_iff

theorem sortInts_perm {l l' : List Int} (h : l.Perm l') : sortInts l = sortInts l' :=
  ((List.perm_insertionSort _ l).trans (h.trans (List.perm_insertionSort _ l').symm)).eq_of_pairwise
    (fun _ _ _ _ h1 h2 => le_antisymm h1 h2) (List.pairwise_insertionSort _ _) (List.pairwise_insertionSort _ _)

theorem sortInts_nodup {l : List Int} (h : l.Nodup) : (sortInts l).Nodup := by
  rw [sortInts, (List.perm_insertionSort _ _).nodup_iff]; exact h

theorem sortInts_sorted (l : List Int) : (sortInts l).Pairwise (· ≤ ·) := List.pairwise_insertionSort _ _

theorem SStd.ent (h : SStd Q β ε N) (b : Nat × Nat) : Q.ent b = sortInts (rawList β ε N b) := by
  rw [Tab.ent, h b]
  split
  · rename_i h0; rw [h0]; rfl
  · rfl

theorem sstd_empty : SStd Tab.empty β ε 0 := by intro b; simp [rawList, Tab.get?_empty]

theorem sstd_unique {Q' : Tab} (h : SStd Q β ε N) (h' : SStd Q' β ε N) : Q = Q' :=
  Tab.ext_get? fun b => by rw [h b, h' b]

theorem rawList_congr {β' : Nat → Nat × Nat} {ε' : Nat → Bool} {n : Nat} (h : ∀ k, k < n → β k = β' k ∧ ε k = ε' k)
    (b : Nat × Nat) : rawList β ε n b = rawList β' ε' n b := by
  unfold rawList
  have : (List.range n).filter (fun k => decide (β k = b)) = (List.range n).filter (fun k => decide (β' k = b)) := by
    apply List.filter_congr
    intro k hk
    rw [List.mem_range] at hk
    rw [(h k hk).1]
  rw [this]
  apply List.map_congr_left
  intro k hk
  rw [List.mem_filter, List.mem_range] at hk
  rw [val, val, (h k hk.1).2]

theorem SStd.congr {β' : Nat → Nat × Nat} {ε' : Nat → Bool} (hs : SStd Q β ε N) (h : ∀ k, k < N → β k = β' k ∧ ε k = ε' k) :
    SStd Q β' ε' N := by
  intro b
  rw [hs b, rawList_congr h]

/-- The next number. -/
theorem SStd.step (h : SStd Q β ε N) : SStd (Q.add (β N) (val ε N)) β ε (N + 1) := by
  intro c
  rw [Tab.get?_add, rawList_succ]
  by_cases hb : c = β N
  · subst hb
    rw [if_pos rfl, if_pos rfl, if_neg (by simp), h.ent]
    congr 1
    exact sortInts_perm ((List.perm_insertionSort _ _).append_right _)
  · have e : (if β N = c then [val ε N] else []) = [] := if_neg (fun hc => hb hc.symm)
    rw [if_neg hb, e, List.append_nil]
    exact h c

theorem SStd.add (h : SStd Q β ε N) (b : Nat × Nat) (neg : Bool) :
    SStd (Q.add b (sgn neg (N + 1))) (fun k => if k = N then b else β k) (fun k => if k = N then neg else ε k) (N + 1) := by
  have h1 : SStd Q (fun k => if k = N then b else β k) (fun k => if k = N then neg else ε k) N := by
    apply h.congr
    intro k hk
    simp only [if_neg (show k ≠ N by omega)]
    exact ⟨trivial, trivial⟩
  have h2 := h1.step
  have e : val (fun k => if k = N then neg else ε k) N = sgn neg (N + 1) := by
    simp only [val, if_true, sg, sgn]
    push_cast
    rfl
  rw [e] at h2
  simpa using h2

theorem SStd.boxed (h : SStd Q β ε N) : (Insertion.boxed Q).Perm ((List.range N).map (fun k => (val ε k, β k))) := by
  rw [List.perm_ext_iff_of_nodup]
  · rintro ⟨v, b⟩
    rw [mem_boxed, h.ent, mem_sortInts, mem_rawList, List.mem_map]
    constructor
    · rintro ⟨k, h1, rfl, rfl⟩; exact ⟨k, by simpa using h1, rfl⟩
    · rintro ⟨k, h1, h2⟩
      cases h2
      exact ⟨k, by simpa using h1, rfl, rfl⟩
  · apply boxed_nodup
    intro b
    rw [h.ent]
    exact sortInts_nodup (rawList_nodup N b)
  · apply List.Nodup.map _ List.nodup_range
    intro x y hxy
    exact val_inj (congrArg Int.natAbs (congrArg Prod.fst hxy))

theorem SStd.len (h : SStd Q β ε N) : Q.len = N := by
  have h1 : Q.len = (Insertion.boxed Q).length := by simp [Tab.len, Tab.values, Insertion.boxed, List.length_flatMap]
  rw [h1, h.boxed.length_eq]; simp

/-- The comparison of the boxes of two numbers with the same record: negative numbers come first, in increasing rows (or one
box), then positive ones, in increasing columns (or one box). -/
def SRel (n n' : Bool) (b b' : Nat × Nat) : Prop :=
  match n, n' with
  | true, false => True
  | true, true => b.1 < b'.1 ∨ b = b'
  | false, false => b.2 < b'.2 ∨ b = b'
  | false, true => False

theorem SRel.trans {n n' n'' : Bool} {b b' b'' : Nat × Nat} (h : SRel n n' b b') (h' : SRel n' n'' b' b'') : SRel n n'' b b'' := by
  cases n <;> cases n' <;> cases n'' <;> simp only [SRel] at h h' ⊢
  · rcases h with h | rfl
    · rcases h' with h' | rfl
      · left; omega
      · exact Or.inl h
    · exact h'
  · rcases h with h | rfl
    · rcases h' with h' | rfl
      · left; omega
      · exact Or.inl h
    · exact h'

/-- The strict version of `SRel`. -/
def SRelS (n n' : Bool) (b b' : Nat × Nat) : Prop :=
  match n, n' with
  | true, false => True
  | true, true => b.1 < b'.1
  | false, false => b.2 < b'.2
  | false, true => False

theorem SRelS.rel {n n' : Bool} {b b' : Nat × Nat} (h : SRelS n n' b b') : SRel n n' b b' := by
  cases n <;> cases n' <;> simp only [SRel, SRelS] at h ⊢
  · exact Or.inl h
  · exact Or.inl h

theorem SRelS.trans {n n' n'' : Bool} {b b' b'' : Nat × Nat} (h : SRelS n n' b b') (h' : SRelS n' n'' b' b'') :
    SRelS n n'' b b'' := by
  cases n <;> cases n' <;> cases n'' <;> simp only [SRelS] at h h' ⊢ <;> omega

/-- The record `g` is compatible with the boxes. -/
def SCompat (β : Nat → Nat × Nat) (ε : Nat → Bool) (g : Nat → Int) (N : Nat) : Prop :=
  (∀ k, k < N → 0 < g k) ∧
  ∀ k k', k < k' → k' < N → g k < g k' ∨ (g k = g k' ∧ SRel (ε k) (ε k') (β k) (β k'))

theorem scompat_of_steps {g : Nat → Int} (hpos : ∀ k, k < N → 0 < g k) (hle : ∀ k, k + 1 < N → g k ≤ g (k + 1))
    (hstep : ∀ k, k + 1 < N → g k = g (k + 1) → SRel (ε k) (ε (k + 1)) (β k) (β (k + 1))) : SCompat β ε g N := by
  refine ⟨hpos, ?_⟩
  intro m n hmn hn
  apply steps_trans (P := fun k k' => g k < g k' ∨ (g k = g k' ∧ SRel (ε k) (ε k') (β k) (β k'))) _ hmn
  · intro k _ h2
    have h3 := hle k (by omega)
    rcases eq_or_lt_of_le h3 with h4 | h4
    · exact Or.inr ⟨h4, hstep k (by omega) h4⟩
    · exact Or.inl h4
  · rintro a b c (h1 | ⟨h1, h2⟩) (h3 | ⟨h3, h4⟩)
    · left; omega
    · left; omega
    · left; omega
    · right; exact ⟨by omega, h2.trans h4⟩

/-- `G` maps the signed numbers to the signed record. -/
def Maps (G : Int → Int) (ε : Nat → Bool) (g : Nat → Int) (N : Nat) : Prop := ∀ k, k < N → G (val ε k) = sg (ε k) (g k)

variable {G : Int → Int} {g : Nat → Int}

theorem stdKey_sg {v : Int} {b : Nat × Nat} {neg : Bool} (h : 0 < v) :
    stdKey (sg neg v, b) = if neg then (2 * v - 1, b.1) else (2 * v, b.2) := by
  cases neg
  · rw [stdKey, sg]; simp only [Bool.false_eq_true, if_false]; rw [if_neg (by omega)]
  · rw [stdKey, sg]; simp only [if_true]; rw [if_pos (by omega)]
    congr 1; omega

theorem stdLe_of_compat (hc : SCompat β ε g N) {k k' : Nat} (hlt : k < k') (hk' : k' < N) :
    stdLe (sg (ε k) (g k), β k) (sg (ε k') (g k'), β k') = true ∧
      (stdLe (sg (ε k') (g k'), β k') (sg (ε k) (g k), β k) = true → (sg (ε k) (g k), β k) = (sg (ε k') (g k'), β k')) := by
  have h1 := hc.1 k (by omega)
  have h2 := hc.1 k' hk'
  have h3 := hc.2 k k' hlt hk'
  rw [stdLe, stdLe, decide_eq_true_eq, decide_eq_true_eq, stdKey_sg h1, stdKey_sg h2]
  cases he : ε k <;> cases he' : ε k' <;> simp only [he, he', SRel, if_true, Bool.false_eq_true, if_false] at h3 ⊢
  · rcases h3 with h3 | ⟨h3, h4 | h4⟩
    · omega
    · omega
    · rw [h3, h4]; exact ⟨by omega, fun _ => rfl⟩
  · rcases h3 with h3 | ⟨_, h3⟩
    · omega
    · exact h3.elim
  · omega
  · rcases h3 with h3 | ⟨h3, h4 | h4⟩
    · omega
    · omega
    · rw [h3, h4]; exact ⟨by omega, fun _ => rfl⟩

theorem stdEntries_sapply (h : SStd Q β ε N) (hG : Maps G ε g N) (hc : SCompat β ε g N) :
    (Q.apply G).stdEntries = (List.range N).map (fun k => (sg (ε k) (g k), β k)) := by
  have hp : ((Q.apply G).stdEntries).Perm ((List.range N).map (fun k => (sg (ε k) (g k), β k))) := by
    refine (List.perm_insertionSort _ _).trans ((boxed_apply Q G).trans ?_)
    have := h.boxed.map (fun e => (G e.1, e.2))
    rw [List.map_map] at this
    refine this.trans (List.Perm.of_eq ?_)
    apply List.map_congr_left
    intro k hk
    rw [List.mem_range] at hk
    simp only [Function.comp_apply, hG k hk]
  have hs1 : ((Q.apply G).stdEntries).Pairwise (fun e e' => stdLe e e' = true) := List.pairwise_insertionSort _ _
  have hs2 : ((List.range N).map (fun k => (sg (ε k) (g k), β k))).Pairwise (fun e e' => stdLe e e' = true) := by
    rw [List.pairwise_map]
    apply (List.pairwise_lt_range (n := N)).imp_of_mem
    intro k k' hk hk' hlt
    rw [List.mem_range] at hk hk'
    exact (stdLe_of_compat hc hlt hk').1
  apply hp.eq_of_pairwise _ hs1 hs2
  intro e e' he he' h1 h2
  rw [hp.mem_iff] at he
  rw [List.mem_map] at he he'
  obtain ⟨k, hk, rfl⟩ := he
  obtain ⟨k', hk', rfl⟩ := he'
  rw [List.mem_range] at hk hk'
  rcases Nat.lt_trichotomy k k' with hlt | rfl | hlt
  · exact (stdLe_of_compat hc hlt hk').2 h2
  · rfl
  · exact ((stdLe_of_compat hc hlt hk).2 h1).symm

theorem stdLoop_sstd {v : Nat → Int} (hv : ∀ k, 0 < v k) : ∀ (m n : Nat) (T : Tab), SStd T β ε n →
    SStd (stdLoop n ((List.range' n m).map (fun k => (sg (ε k) (v k), β k))) T) β ε (n + m) := by
  intro m
  induction m with
  | zero => intro n T h; exact h
  | succ m ih =>
    intro n T h
    rw [List.range'_succ, List.map_cons, stdLoop]
    simp only
    have e : (if sg (ε n) (v n) > 0 then (n : Int) + 1 else -(n : Int) - 1) = val ε n := by
      have := hv n
      unfold val sg
      cases ε n <;> simp <;> omega
    rw [e, show n + (m + 1) = (n + 1) + m by omega]
    exact ih (n + 1) _ h.step

theorem standardize_sapply (h : SStd Q β ε N) (hG : Maps G ε g N) (hc : SCompat β ε g N) : (Q.apply G).standardize = Q := by
  rw [standardize, stdEntries_sapply h hG hc]
  have e : (List.range N).map (fun k => (sg (ε k) (g k), β k)) =
      (List.range' 0 N).map (fun k => (sg (ε k) (if k < N then g k else 1), β k)) := by
    rw [← List.range_eq_range']
    apply List.map_congr_left
    intro k hk
    rw [List.mem_range] at hk
    rw [if_pos hk]
  rw [e]
  have := stdLoop_sstd (β := β) (ε := ε) (v := fun k => if k < N then g k else 1)
    (by intro k
        split
        · rename_i hk; exact hc.1 k hk
        · decide) N 0 Tab.empty sstd_empty
  rw [Nat.zero_add] at this
  exact sstd_unique this h

theorem apply_sent (h : SStd Q β ε N) (hG : Maps G ε g N) (hc : SCompat β ε g N) (b : Nat × Nat) :
    (Q.apply G).get? b = (Q.get? b).map (fun s => s.map G) := by
  rw [get?_apply, h b]
  split
  · rfl
  · rw [Option.map_some, Option.map_some]
    congr 1
    apply List.Pairwise.insertionSort_eq
    rw [List.pairwise_map]
    apply (sortInts_sorted _).imp_of_mem
    intro x y hx hy hxy
    rw [mem_sortInts] at hx hy
    obtain ⟨k, hk, _, rfl⟩ := mem_rawList.1 hx
    obtain ⟨k', hk', _, rfl⟩ := mem_rawList.1 hy
    rw [hG k hk, hG k' hk']
    have h1 := hc.1 k hk
    have h2 := hc.1 k' hk'
    have h3 : k < k' → g k ≤ g k' := fun hlt => by have := hc.2 k k' hlt hk'; omega
    have h4 : k' < k → g k' ≤ g k := fun hlt => by have := hc.2 k' k hlt hk; omega
    unfold val sg at hxy
    unfold sg
    rcases Nat.lt_trichotomy k k' with hlt | heq | hlt
    · have := h3 hlt
      revert hxy
      cases ε k <;> cases ε k' <;> simp <;> omega
    · subst heq; exact le_refl _
    · have := h4 hlt
      revert hxy
      cases ε k <;> cases ε k' <;> simp <;> omega

theorem foldl_set_sget (u : Nat → Int) : ∀ (l : List Int) (acc : List Int), (∀ x ∈ l, 1 ≤ x.natAbs) → ∀ i : Nat,
    (l.foldl (fun acc x => acc.set (x.natAbs - 1) (u (x.natAbs - 1))) acc)[i]? =
      if i < acc.length ∧ (∃ x ∈ l, x.natAbs = i + 1) then some (u i) else acc[i]? := by
  intro l
  induction l with
  | nil => intro acc _ i; simp
  | cons x l ih =>
    intro acc hl i
    have hx := hl x (by simp)
    rw [List.foldl_cons, ih _ (fun y hy => hl y (by simp [hy]))]
    simp only [List.length_set, List.mem_cons, exists_eq_or_imp]
    by_cases h1 : i < acc.length ∧ ∃ x ∈ l, x.natAbs = i + 1
    · rw [if_pos h1, if_pos ⟨h1.1, Or.inr h1.2⟩]
    · rw [if_neg h1]
      by_cases h2 : x.natAbs = i + 1
      · by_cases h3 : i < acc.length
        · rw [if_pos ⟨h3, Or.inl h2⟩, h2]
          simp [h3]
        · rw [if_neg (by tauto), List.getElem?_eq_none (by simp; omega), List.getElem?_eq_none (by omega)]
      · rw [if_neg (by rintro ⟨h3, h4 | h4⟩; exacts [h2 h4, h1 ⟨h3, h4⟩]), List.getElem?_set_ne (by omega)]

theorem recordList_sapply (h : SStd Q β ε N) (hG : Maps G ε g N) (hc : SCompat β ε g N) :
    recordList (Q.apply G) Q = some ((List.range N).map g) := by
  unfold recordList
  have hitem : ∀ p ∈ Q.items, (∀ x ∈ p.2, ∃ k, k < N ∧ x = val ε k) ∧ (Q.apply G).get? p.1 = some (p.2.map G) := by
    intro p hp
    have hg := Tab.get?_eq_some.2 (show (p.1, p.2) ∈ Q.items from hp)
    refine ⟨?_, by rw [apply_sent h hG hc, hg]; rfl⟩
    intro x hx
    have h1 : x ∈ Q.ent p.1 := by rw [Tab.ent, hg]; exact hx
    rw [h.ent, mem_sortInts] at h1
    obtain ⟨k, hk, _, e⟩ := mem_rawList.1 h1
    exact ⟨k, hk, e⟩
  have hmem : ∀ x, x ∈ Q.values ↔ ∃ k, k < N ∧ x = val ε k := by
    intro x
    rw [values_eq, mem_entries]
    constructor
    · rintro ⟨b, hb⟩
      rw [h.ent, mem_sortInts] at hb
      obtain ⟨k, hk, _, e⟩ := mem_rawList.1 hb
      exact ⟨k, hk, e⟩
    · rintro ⟨k, hk, e⟩
      refine ⟨β k, ?_⟩
      rw [h.ent, mem_sortInts, mem_rawList]
      exact ⟨k, hk, rfl, e⟩
  have key := foldlM_some (γ := List Int) (I := fun acc => acc.length = N)
    (F := fun (rec : List Int) (p : (Nat × Nat) × List Int) =>
      (List.range p.2.length).foldlM (recordEntry (Q.apply G) p.1 p.2) rec)
    (G := fun acc p => p.2.foldl (fun acc x => acc.set (x.natAbs - 1) (g (x.natAbs - 1))) acc) Q.items (by
      intro acc hacc p hp
      obtain ⟨hp1, hp2⟩ := hitem p hp
      have := foldlM_some (γ := List Int) (I := fun acc => acc.length = N) (F := recordEntry (Q.apply G) p.1 p.2)
        (G := fun acc k => acc.set ((p.2.getD k 0).natAbs - 1) (g ((p.2.getD k 0).natAbs - 1))) (List.range p.2.length) (by
          intro acc hacc k hk
          rw [List.mem_range] at hk
          have e1 : p.2.getD k 0 = p.2[k] := by rw [List.getD_eq_getElem?_getD, List.getElem?_eq_getElem hk]; rfl
          have e2 : (p.2.map G)[k]? = some (G p.2[k]) := by rw [List.getElem?_map, List.getElem?_eq_getElem hk]; rfl
          obtain ⟨m, hm1, hm3⟩ := hp1 _ (List.getElem_mem hk)
          have hpos := hc.1 m hm1
          have e3 := val_natAbs ε m
          simp only [recordEntry, hp2, e2, e1, hm3, e3, hG m hm1, sg_natAbs, Nat.add_sub_cancel]
          rw [if_pos (by rw [hacc]; omega), List.length_set]
          refine ⟨?_, hacc⟩
          congr 2
          omega) acc hacc
      rw [foldl_range_getD (fun (acc : List Int) (x : Int) => acc.set (x.natAbs - 1) (g (x.natAbs - 1))) p.2 acc] at this
      exact this) (List.replicate (Q.apply G).len 0)
      (by rw [List.length_replicate, values_length_apply, h.len])
  rw [key.1]
  congr 1
  have hflat : ∀ acc : List Int, Q.items.foldl (fun acc p => p.2.foldl (fun acc x => acc.set (x.natAbs - 1) (g (x.natAbs - 1))) acc) acc =
      Q.values.foldl (fun acc x => acc.set (x.natAbs - 1) (g (x.natAbs - 1))) acc := by
    intro acc
    rw [Tab.values, List.foldl_flatMap]
  rw [hflat]
  apply List.ext_getElem?
  intro i
  rw [foldl_set_sget g _ _ (fun x hx => by obtain ⟨k, _, rfl⟩ := (hmem x).1 hx; rw [val_natAbs]; omega)]
  rw [List.length_replicate, values_length_apply, h.len, List.getElem?_map]
  by_cases hi : i < N
  · rw [if_pos ⟨hi, val ε i, (hmem _).2 ⟨i, hi, rfl⟩, val_natAbs _ _⟩, List.getElem?_range hi]; rfl
  · rw [if_neg (by omega), List.getElem?_eq_none (by rw [List.length_replicate]; omega),
      List.getElem?_eq_none (by rw [List.length_range]; omega)]; rfl

/-- The signed record. -/
def recMap (rec : List Int) (x : Int) : Int := sg (decide (x < 0)) (rec.getD (x.natAbs - 1) 0)

theorem maps_recMap (rec : List Int) : Maps (recMap rec) ε (fun k => rec.getD k 0) N := by
  intro k _
  rw [recMap, val_natAbs]
  have : decide (val ε k < 0) = ε k := by
    unfold val sg
    cases ε k <;> simp <;> omega
  rw [this]; rfl

theorem sapply?_eq (h : SStd Q β ε N) {rec : List Int} (hl : rec.length = N) :
    Q.apply? (mappingAt rec) = some (Q.apply (recMap rec)) := by
  have hval : ∀ x ∈ Q.values, mappingAt rec x = some (recMap rec x) := by
    intro x hx
    rw [values_eq, mem_entries] at hx
    obtain ⟨b, hb⟩ := hx
    rw [h.ent, mem_sortInts] at hb
    obtain ⟨k, hk, _, rfl⟩ := mem_rawList.1 hb
    have hna := val_natAbs ε k
    have e : rec[k]? = some (rec.getD k 0) := by
      rw [List.getD_eq_getElem?_getD, List.getElem?_eq_getElem (by omega)]; rfl
    rw [mappingAt, recMap, hna, Nat.add_sub_cancel, e]
    by_cases hpos : val ε k > 0
    · rw [if_pos hpos, show (val ε k).toNat - 1 = k by omega, e, sg, if_neg (by simp; omega)]
    · rw [if_neg hpos, if_pos (by omega), sg, if_pos (by simp; omega)]; rfl
  rw [Tab.apply?, if_pos]
  · congr 1
    apply Tab.ext_get?
    intro b
    rw [get?_apply, get?_apply]
    cases hg : Q.get? b with
    | none => rfl
    | some s =>
      rw [Option.map_some, Option.map_some]
      congr 2
      apply List.map_congr_left
      intro x hx
      rw [hval x (by rw [values_eq, mem_entries]; exact ⟨b, by rw [Tab.ent, hg]; exact hx⟩)]
      rfl
  · rw [List.all_eq_true]
    intro x hx
    rw [hval x hx]; rfl

/-! ## Negation -/

/-- The signs after `negate`. -/
def flip (β : Nat → Nat × Nat) (ε : Nat → Bool) (k : Nat) : Bool := if (β k).1 = (β k).2 then ε k else !ε k

theorem flip_flip : flip β (flip β ε) = ε := by
  funext k
  unfold flip
  split <;> simp

theorem get?_negate (T : Tab) (b : Nat × Nat) :
    (negate T).get? b = (T.get? b).map (fun s => sortInts (s.map (fun v => if b.1 ≠ b.2 then -v else v))) :=
  Dict.lookup_map (fun (c : Nat × Nat) (s : List Int) => sortInts (s.map (fun v => if c.1 ≠ c.2 then -v else v))) b T.items

theorem SStd.negate (h : SStd Q β ε N) : SStd (FInsertion.negate Q) β (flip β ε) N := by
  intro b
  have e : rawList β (flip β ε) N b = (rawList β ε N b).map (fun v => if b.1 ≠ b.2 then -v else v) := by
    unfold rawList
    rw [List.map_map]
    apply List.map_congr_left
    intro k hk
    rw [List.mem_filter, decide_eq_true_eq] at hk
    simp only [Function.comp_apply, val, flip, hk.2]
    by_cases hb : b.1 = b.2
    · simp [hb]
    · simp only [ne_eq, hb, not_false_eq_true, if_true]
      unfold sg
      cases ε k <;> simp
  rw [get?_negate, h b]
  by_cases h0 : rawList β ε N b = []
  · rw [if_pos h0, e, h0]; rfl
  · rw [if_neg h0, e, if_neg (by simpa using h0), Option.map_some]
    congr 1
    exact sortInts_perm ((List.perm_insertionSort _ _).map _)

theorem negate_negate (h : SStd Q β ε N) : FInsertion.negate (FInsertion.negate Q) = Q := by
  have := h.negate.negate
  rw [flip_flip] at this
  exact sstd_unique this h

/-! ## Shapes -/

theorem keys_eq {T T' : Tab} (h : ∀ b, T.has b = true ↔ T'.has b = true) : T.items.map Prod.fst = T'.items.map Prod.fst := by
  have hm : ∀ (T : Tab) b, b ∈ T.items.map Prod.fst ↔ T.has b = true := by
    intro T b
    rw [has_iff]
    constructor
    · intro hb
      rw [List.mem_map] at hb
      obtain ⟨⟨c, s⟩, hc, rfl⟩ := hb
      exact ⟨s, Tab.get?_eq_some.2 hc⟩
    · rintro ⟨s, hs⟩
      exact List.mem_map.2 ⟨(b, s), Tab.get?_eq_some.1 hs, rfl⟩
  have hp : (T.items.map Prod.fst).Perm (T'.items.map Prod.fst) := by
    rw [List.perm_ext_iff_of_nodup T.keys_nodup T'.keys_nodup]
    intro b
    rw [hm, hm, h]
  apply hp.eq_of_pairwise _ T.sorted T'.sorted
  intro a b _ _ h1 h2
  unfold boxLt at h1 h2
  omega

theorem has_apply (T : Tab) (u : Int → Int) (b : Nat × Nat) : (T.apply u).has b = T.has b := by
  rw [has, has, get?_apply]
  cases T.get? b <;> rfl

theorem has_negate (T : Tab) (b : Nat × Nat) : (negate T).has b = T.has b := by
  rw [has, has, get?_negate]
  cases T.get? b <;> rfl

end Verif.FInsertion
