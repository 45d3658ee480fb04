import Verif.Lemmas.InsertionPush

/-! Standardization of recording tableaux, and the record. -/

namespace Verif.Insertion

open Tab

attribute [-simp] List.getD_eq_getElem?_getD

variable {N : Nat} {Q : Tab} {β : Nat → Nat × Nat}

/-- The numbers `k + 1` with `k < n` and `β k = b`. -/
def boxNums (β : Nat → Nat × Nat) (n : Nat) (b : Nat × Nat) : List Int :=
  ((List.range n).filter (fun k => decide (β k = b))).map (fun k : Nat => (k : Int) + 1)

/-- `Q` has the numbers `1, ..., N`, with `k + 1` in box `β k`. -/
def Std (Q : Tab) (β : Nat → Nat × Nat) (N : Nat) : Prop :=
  ∀ b, Q.get? b = if boxNums β N b = [] then none else some (boxNums β N b)

theorem mem_boxNums {n : Nat} {b : Nat × Nat} {x : Int} :
    x ∈ boxNums β n b ↔ ∃ k : Nat, k < n ∧ β k = b ∧ x = (k : Int) + 1 := by
  simp only [boxNums, List.mem_map, List.mem_filter, List.mem_range, decide_eq_true_eq]
  constructor
  · rintro ⟨k, ⟨h1, h2⟩, h3⟩; exact ⟨k, h1, h2, h3.symm⟩
  · rintro ⟨k, h1, h2, h3⟩; exact ⟨k, ⟨h1, h2⟩, h3.symm⟩

theorem boxNums_sorted (n : Nat) (b : Nat × Nat) : (boxNums β n b).Pairwise (· < ·) := by
  unfold boxNums
  rw [List.pairwise_map]
  apply ((List.pairwise_lt_range (n := n)).sublist List.filter_sublist).imp
  intro x y hxy
  omega

theorem boxNums_succ (n : Nat) (b : Nat × Nat) :
    boxNums β (n + 1) b = boxNums β n b ++ if β n = b then [(n : Int) + 1] else [] := by
  unfold boxNums
  rw [List.range_succ, List.filter_append, List.map_append]
  congr 1
  by_cases h : β n = b <;> simp [h]

theorem Std.ent (h : Std Q β N) (b : Nat × Nat) : Q.ent b = boxNums β N b := by
  rw [Tab.ent, h b]
  split
  · rename_i h0; rw [h0]; rfl
  · rfl

theorem sorted_ext {l l' : List Int} (h : l.Pairwise (· < ·)) (h' : l'.Pairwise (· < ·)) (hm : ∀ x, x ∈ l ↔ x ∈ l') : l = l' := by
  have hp : l.Perm l' := (List.perm_ext_iff_of_nodup (h.imp fun h => ne_of_lt h) (h'.imp fun h => ne_of_lt h)).2 hm
  exact hp.eq_of_pairwise (fun a b _ _ h1 h2 => absurd h1 (not_lt_of_gt h2)) h h'

theorem QInv.std {lam : Nat → Nat} (h : QInv Q lam N) : ∃ β, Std Q β N := by
  have : ∀ k : Nat, ∃ b, k < N → (k : Int) + 1 ∈ Q.ent b := by
    intro k
    by_cases hk : k < N
    · obtain ⟨b, hb⟩ := (h.mem ((k : Int) + 1)).2 (by omega)
      exact ⟨b, fun _ => hb⟩
    · exact ⟨(0, 0), fun h => absurd h hk⟩
  choose β hβ using this
  refine ⟨β, ?_⟩
  have he : ∀ b, Q.ent b = boxNums β N b := by
    intro b
    apply sorted_ext (h.sorted b) (boxNums_sorted N b)
    intro x
    rw [mem_boxNums]
    constructor
    · intro hx
      have := (h.mem x).1 ⟨b, hx⟩
      have hk : (((x - 1).toNat : Nat) : Int) + 1 = x := by omega
      refine ⟨(x - 1).toNat, by omega, ?_, hk.symm⟩
      apply h.uniq _ _ x _ hx
      have := hβ (x - 1).toNat (by omega)
      rwa [hk] at this
    · rintro ⟨k, h1, rfl, rfl⟩
      exact hβ k h1
  intro b
  rw [← he b]
  cases hg : Q.get? b with
  | none =>
    have : Q.ent b = [] := by rw [Tab.ent, hg]; rfl
    rw [if_pos this]
  | some s =>
    have : Q.ent b = s := by rw [Tab.ent, hg]; rfl
    rw [this, if_neg (h.nonempty b s hg)]

theorem get?_apply (T : Tab) (g : Int → Int) (b : Nat × Nat) :
    (T.apply g).get? b = (T.get? b).map (fun s => sortInts (s.map g)) :=
  Dict.lookup_map (fun (_ : Nat × Nat) (s : List Int) => sortInts (s.map g)) b T.items

/-- The list of entries with their boxes. -/
def boxed (T : Tab) : List (Int × Nat × Nat) := T.items.flatMap (fun p => p.2.map (fun v => (v, p.1)))

theorem mem_boxed {T : Tab} {v : Int} {b : Nat × Nat} : (v, b) ∈ boxed T ↔ v ∈ T.ent b := by
  unfold boxed
  rw [List.mem_flatMap]
  constructor
  · rintro ⟨⟨c, s⟩, hp, hv⟩
    simp only [List.mem_map, Prod.mk.injEq] at hv
    obtain ⟨x, hx, rfl, rfl⟩ := hv
    rw [Tab.ent, Tab.get?_eq_some.2 hp]
    exact hx
  · intro hv
    rw [Tab.ent] at hv
    cases hg : T.get? b with
    | none => simp [hg] at hv
    | some s =>
      rw [hg] at hv
      refine ⟨(b, s), Tab.get?_eq_some.1 hg, ?_⟩
      rw [List.mem_map]
      exact ⟨v, hv, rfl⟩

theorem boxed_nodup {T : Tab} (h : ∀ b, (T.ent b).Nodup) : (boxed T).Nodup := by
  unfold boxed
  rw [List.nodup_flatMap]
  constructor
  · rintro ⟨c, s⟩ hp
    have := h c
    rw [Tab.ent, Tab.get?_eq_some.2 hp] at this
    exact List.Nodup.map (fun x y hxy => (Prod.mk.injEq _ _ _ _ ▸ hxy).1) this
  · have := T.keys_nodup
    rw [List.Nodup, List.pairwise_map] at this
    apply this.imp
    rintro ⟨c, s⟩ ⟨c', s'⟩ hne
    rw [Function.onFun, List.disjoint_left]
    rintro ⟨v, b⟩ h1 h2
    simp only [List.mem_map, Prod.mk.injEq] at h1 h2
    obtain ⟨_, _, _, h1⟩ := h1
    obtain ⟨_, _, _, h2⟩ := h2
    exact hne (h1.trans h2.symm)

theorem Std.boxed (h : Std Q β N) : (boxed Q).Perm ((List.range N).map (fun k : Nat => ((k : Int) + 1, β k))) := by
  rw [List.perm_ext_iff_of_nodup]
  · rintro ⟨v, b⟩
    rw [mem_boxed, h.ent, mem_boxNums, List.mem_map]
    constructor
    · rintro ⟨k, h1, rfl, rfl⟩; exact ⟨k, by simpa using h1, rfl⟩
    · rintro ⟨k, h1, h2⟩
      cases h2
      exact ⟨k, by simpa using h1, rfl, rfl⟩
  · apply boxed_nodup
    intro b
    rw [h.ent]
    exact (boxNums_sorted N b).imp fun h => ne_of_lt h
  · apply List.Nodup.map _ List.nodup_range
    intro x y hxy
    have := congrArg Prod.fst hxy
    simp only at this
    omega

theorem boxed_apply (T : Tab) (g : Int → Int) : (boxed (T.apply g)).Perm ((boxed T).map (fun e => (g e.1, e.2))) := by
  unfold boxed Tab.apply
  simp only [List.flatMap_map, List.map_flatMap, List.map_map]
  apply List.Perm.flatMap_left
  rintro ⟨c, s⟩ _
  have h1 : (sortInts (s.map g)).Perm (s.map g) := List.perm_insertionSort _ _
  have h2 := h1.map (fun v => (v, c))
  rw [List.map_map] at h2
  exact h2

instance : Std.Total (fun e e' : Int × Nat × Nat => stdLe e e' = true) := ⟨by
  intro e e'
  simp only [stdLe, decide_eq_true_eq]
  omega⟩

instance : IsTrans (Int × Nat × Nat) (fun e e' => stdLe e e' = true) := ⟨by
  intro e e' e''
  simp only [stdLe, decide_eq_true_eq]
  omega⟩

/-- The record `g` is compatible with the boxes: the keys increase weakly, and equal keys occur only in equal boxes. -/
def Compat (β : Nat → Nat × Nat) (g : Nat → Int) (N : Nat) : Prop :=
  (∀ k, k < N → 0 < g k) ∧
  ∀ k k', k < k' → k' < N → g k < g k' ∨ (g k = g k' ∧ ((β k).2 < (β k').2 ∨ β k = β k'))

theorem stdKey_pos {v : Int} {b : Nat × Nat} (h : 0 < v) : stdKey (v, b) = (2 * v, b.2) := by
  rw [stdKey, if_neg (by simp only; omega)]

theorem stdEntries_apply (h : Std Q β N) {g : Int → Int} (hc : Compat β (fun k : Nat => g ((k : Int) + 1)) N) :
    (Q.apply g).stdEntries = (List.range N).map (fun k : Nat => (g ((k : Int) + 1), β k)) := by
  have hp : ((Q.apply g).stdEntries).Perm ((List.range N).map (fun k : Nat => (g ((k : Int) + 1), β k))) := by
    refine (List.perm_insertionSort _ _).trans ((boxed_apply Q g).trans ?_)
    have := h.boxed.map (fun e => (g e.1, e.2))
    rw [List.map_map] at this
    exact this
  have hs1 : ((Q.apply g).stdEntries).Pairwise (fun e e' => stdLe e e' = true) := List.pairwise_insertionSort _ _
  have hs2 : ((List.range N).map (fun k : Nat => (g ((k : Int) + 1), β k))).Pairwise (fun e e' => stdLe e e' = true) := by
    rw [List.pairwise_map]
    apply (List.pairwise_lt_range (n := N)).imp_of_mem
    intro k k' hk hk' hlt
    rw [List.mem_range] at hk hk'
    have h1 := hc.1 k hk
    have h2 := hc.1 k' hk'
    have h3 := hc.2 k k' hlt hk'
    simp only at h1 h2 h3
    rw [stdLe, decide_eq_true_eq, stdKey_pos h1, stdKey_pos h2]
    simp only
    rcases h3 with h3 | ⟨h3, h4 | h4⟩
    · omega
    · omega
    · rw [h4]; omega
  apply hp.eq_of_pairwise _ hs1 hs2
  intro e e' he he' h1 h2
  rw [hp.mem_iff] at he
  rw [List.mem_map] at he he'
  obtain ⟨k, hk, rfl⟩ := he
  obtain ⟨k', hk', rfl⟩ := he'
  rw [List.mem_range] at hk hk'
  have hp1 := hc.1 k hk
  have hp2 := hc.1 k' hk'
  simp only at hp1 hp2
  rw [stdLe, decide_eq_true_eq, stdKey_pos hp1, stdKey_pos hp2] at h1
  rw [stdLe, decide_eq_true_eq, stdKey_pos hp1, stdKey_pos hp2] at h2
  simp only at h1 h2
  rcases Nat.lt_trichotomy k k' with hlt | rfl | hlt
  · rcases hc.2 k k' hlt hk' with h3 | ⟨h3, h4 | h4⟩
    · simp only at h3; omega
    · simp only at h3; omega
    · simp only at h3; rw [h3, h4]
  · rfl
  · rcases hc.2 k' k hlt hk with h3 | ⟨h3, h4 | h4⟩
    · simp only at h3; omega
    · simp only at h3; omega
    · simp only at h3; rw [h3, h4]

theorem stdLoop_std {v : Nat → Int} (hv : ∀ k, 0 < v k) : ∀ (m n : Nat) (T : Tab), Std T β n →
    Std (stdLoop n ((List.range' n m).map (fun k => (v k, β k))) T) β (n + m) := by
  intro m
  induction m with
  | zero => intro n T h; exact h
  | succ m ih =>
    intro n T h
    rw [List.range'_succ, List.map_cons, stdLoop]
    simp only
    rw [if_pos (hv n), show n + (m + 1) = (n + 1) + m by omega]
    apply ih
    intro b
    rw [Tab.get?_add, boxNums_succ]
    by_cases hb : b = β n
    · subst hb
      rw [if_pos rfl, if_pos rfl, if_neg (by simp)]
      have := h.ent (β n)
      rw [this, sortInts_append (boxNums_sorted n _)]
      intro x hx
      obtain ⟨k, hk, _, rfl⟩ := mem_boxNums.1 hx
      omega
    · have e : (if β n = b then [(n : Int) + 1] else []) = [] := if_neg (fun hc => hb hc.symm)
      rw [if_neg hb, e, List.append_nil]
      exact h b

theorem std_unique {Q' : Tab} (h : Std Q β N) (h' : Std Q' β N) : Q = Q' :=
  Tab.ext_get? fun b => by rw [h b, h' b]

theorem std_empty : Std Tab.empty β 0 := by intro b; simp [boxNums, Tab.get?_empty]

theorem standardize_apply (h : Std Q β N) {g : Int → Int} (hc : Compat β (fun k : Nat => g ((k : Int) + 1)) N) :
    (Q.apply g).standardize = Q := by
  rw [standardize, stdEntries_apply h hc]
  have e : (List.range N).map (fun k : Nat => (g ((k : Int) + 1), β k)) =
      (List.range' 0 N).map (fun k : Nat => ((if k < N then g ((k : Int) + 1) else 1), β k)) := by
    rw [← List.range_eq_range']
    apply List.map_congr_left
    intro k hk
    rw [List.mem_range] at hk
    rw [if_pos hk]
  rw [e]
  have := stdLoop_std (β := β) (v := fun k : Nat => if k < N then g ((k : Int) + 1) else 1)
    (by intro k; split
        · rename_i hk; exact hc.1 k hk
        · decide) N 0 Tab.empty std_empty
  rw [Nat.zero_add] at this
  exact std_unique this h

theorem apply_ent (h : Std Q β N) {g : Int → Int} (hc : Compat β (fun k : Nat => g ((k : Int) + 1)) N) (b : Nat × Nat) :
    (Q.apply g).get? b = (Q.get? b).map (fun s => s.map g) := by
  rw [get?_apply, h b]
  split
  · rfl
  · rw [Option.map_some, Option.map_some]
    congr 1
    apply List.Pairwise.insertionSort_eq
    rw [List.pairwise_map]
    apply (boxNums_sorted N b).imp_of_mem
    intro x y hx hy hxy
    obtain ⟨k, hk, _, rfl⟩ := mem_boxNums.1 hx
    obtain ⟨k', hk', _, rfl⟩ := mem_boxNums.1 hy
    have := hc.2 k k' (by omega) hk'
    simp only at this
    omega

theorem values_length_apply (T : Tab) (g : Int → Int) : (T.apply g).len = T.len := by
  have h1 : ∀ T : Tab, T.len = (boxed T).length := by
    intro T; simp [Tab.len, Tab.values, boxed, List.length_flatMap]
  rw [h1, h1, (boxed_apply T g).length_eq, List.length_map]

theorem Std.len (h : Std Q β N) : Q.len = N := by
  have h1 : Q.len = (Insertion.boxed Q).length := by simp [Tab.len, Tab.values, Insertion.boxed, List.length_flatMap]
  rw [h1, h.boxed.length_eq]; simp

theorem foldl_set_get (g : Int → Int) : ∀ (l : List Int) (acc : List Int), (∀ x ∈ l, 1 ≤ x) → ∀ i : Nat,
    (l.foldl (fun acc x => acc.set (x.natAbs - 1) (g x)) acc)[i]? =
      if i < acc.length ∧ (i : Int) + 1 ∈ l then some (g ((i : Int) + 1)) else acc[i]? := by
  intro l
  induction l with
  | nil => intro acc _ i; simp
  | cons x l ih =>
    intro acc hl i
    have hx := hl x (by simp)
    rw [List.foldl_cons, ih _ (fun y hy => hl y (by simp [hy]))]
    simp only [List.length_set, List.mem_cons]
    by_cases h1 : i < acc.length ∧ (i : Int) + 1 ∈ l
    · rw [if_pos h1, if_pos ⟨h1.1, Or.inr h1.2⟩]
    · rw [if_neg h1]
      by_cases h2 : (i : Int) + 1 = x
      · by_cases h3 : i < acc.length
        · rw [if_pos ⟨h3, Or.inl h2⟩, show x.natAbs - 1 = i by omega, h2]
          simp [h3]
        · rw [if_neg (by tauto), List.getElem?_eq_none (by simp; omega), List.getElem?_eq_none (by omega)]
      · rw [if_neg (by tauto), List.getElem?_set_ne (by omega)]

theorem foldlM_some {α γ : Type*} {F : γ → α → Option γ} {G : γ → α → γ} (I : γ → Prop) : ∀ (l : List α),
    (∀ acc, I acc → ∀ x ∈ l, F acc x = some (G acc x) ∧ I (G acc x)) → ∀ acc, I acc →
      l.foldlM F acc = some (l.foldl G acc) ∧ I (l.foldl G acc) := by
  intro l
  induction l with
  | nil => intro _ acc hI; exact ⟨rfl, hI⟩
  | cons x l ih =>
    intro h acc hI
    obtain ⟨h1, h2⟩ := h acc hI x (by simp)
    rw [List.foldlM_cons, h1, List.foldl_cons]
    exact ih (fun acc hI y hy => h acc hI y (by simp [hy])) _ h2

theorem foldl_range_getD {γ : Type*} (G : γ → Int → γ) (s : List Int) (acc : γ) :
    (List.range s.length).foldl (fun acc k => G acc (s.getD k 0)) acc = s.foldl G acc := by
  have : s = (List.range s.length).map (fun k => s.getD k 0) := by
    apply List.ext_getElem?
    intro i
    rw [List.getElem?_map]
    by_cases hi : i < s.length
    · rw [List.getElem?_range hi, Option.map_some, List.getElem?_eq_getElem hi, List.getD_eq_getElem?_getD,
        List.getElem?_eq_getElem hi]; rfl
    · rw [List.getElem?_eq_none (by omega), List.getElem?_eq_none (by simp; omega)]; rfl
  conv_rhs => rw [this, List.foldl_map]

theorem recordList_apply (h : Std Q β N) {g : Int → Int} (hc : Compat β (fun k : Nat => g ((k : Int) + 1)) N) :
    recordList (Q.apply g) Q = some ((List.range N).map (fun k : Nat => g ((k : Int) + 1))) := by
  unfold recordList
  have hitem : ∀ p ∈ Q.items, p.2 = boxNums β N p.1 ∧ (Q.apply g).get? p.1 = some (p.2.map g) := by
    intro p hp
    have hg := Tab.get?_eq_some.2 (show (p.1, p.2) ∈ Q.items from hp)
    refine ⟨?_, by rw [apply_ent h hc, hg]; rfl⟩
    rw [← h.ent, Tab.ent, hg]; rfl
  have hmem : ∀ x, x ∈ Q.values ↔ 1 ≤ x ∧ x ≤ (N : Int) := by
    intro x
    rw [values_eq, mem_entries]
    constructor
    · rintro ⟨b, hb⟩
      rw [h.ent] at hb
      obtain ⟨k, hk, _, rfl⟩ := mem_boxNums.1 hb
      omega
    · intro hx
      refine ⟨β (x - 1).toNat, ?_⟩
      rw [h.ent, mem_boxNums]
      exact ⟨(x - 1).toNat, by omega, rfl, by omega⟩
  have key := foldlM_some (γ := List Int) (I := fun acc => acc.length = N)
    (F := fun (rec : List Int) (p : (Nat × Nat) × List Int) =>
      (List.range p.2.length).foldlM (recordEntry (Q.apply g) p.1 p.2) rec)
    (G := fun acc p => p.2.foldl (fun acc x => acc.set (x.natAbs - 1) (g x)) acc) Q.items (by
      intro acc hacc p hp
      obtain ⟨hp1, hp2⟩ := hitem p hp
      have := foldlM_some (γ := List Int) (I := fun acc => acc.length = N) (F := recordEntry (Q.apply g) p.1 p.2)
        (G := fun acc k => acc.set ((p.2.getD k 0).natAbs - 1) (g (p.2.getD k 0))) (List.range p.2.length) (by
          intro acc hacc k hk
          rw [List.mem_range] at hk
          have e1 : p.2.getD k 0 = p.2[k] := by rw [List.getD_eq_getElem?_getD, List.getElem?_eq_getElem hk]; rfl
          have e2 : (p.2.map g)[k]? = some (g p.2[k]) := by rw [List.getElem?_map, List.getElem?_eq_getElem hk]; rfl
          have hm : p.2[k] ∈ boxNums β N p.1 := by
            have : ∀ x ∈ p.2, x ∈ boxNums β N p.1 := by rw [← hp1]; exact fun x hx => hx
            exact this _ (List.getElem_mem hk)
          obtain ⟨m, hm1, _, hm3⟩ := mem_boxNums.1 hm
          have hpos := hc.1 m hm1
          simp only at hpos
          simp only [recordEntry, hp2, e2, e1, hm3]
          rw [if_pos (by rw [hacc]; omega), List.length_set]
          refine ⟨?_, hacc⟩
          congr 2
          omega) acc hacc
      rw [foldl_range_getD (fun (acc : List Int) (x : Int) => acc.set (x.natAbs - 1) (g x)) p.2 acc] at this
      exact this) (List.replicate (Q.apply g).len 0)
      (by rw [List.length_replicate, values_length_apply, h.len])
  rw [key.1]
  congr 1
  have hflat : ∀ acc : List Int, Q.items.foldl (fun acc p => p.2.foldl (fun acc x => acc.set (x.natAbs - 1) (g x)) acc) acc =
      Q.values.foldl (fun acc x => acc.set (x.natAbs - 1) (g x)) acc := by
    intro acc
    rw [Tab.values, List.foldl_flatMap]
  rw [hflat]
  apply List.ext_getElem?
  intro i
  rw [foldl_set_get g _ _ (fun x hx => ((hmem x).1 hx).1)]
  rw [List.length_replicate, values_length_apply, h.len, List.getElem?_map]
  by_cases hi : i < N
  · rw [if_pos (by rw [hmem]; omega), List.getElem?_range hi]; rfl
  · rw [if_neg (by omega), List.getElem?_eq_none (by rw [List.length_replicate]; omega),
      List.getElem?_eq_none (by rw [List.length_range]; omega)]; rfl

theorem get?_foldl_set (e : Nat × Nat → Nat × Nat) (he : Function.Injective e) : ∀ (l : List ((Nat × Nat) × List Int)),
    (l.map Prod.fst).Nodup → ∀ (U : Tab) (b : Nat × Nat),
    (l.foldl (fun U p => U.set (e p.1) p.2) U).get? (e b) = match Dict.lookup b l with
      | some s => some s
      | none => U.get? (e b) := by
  intro l
  induction l with
  | nil => intro _ U b; rfl
  | cons p l ih =>
    intro hn U b
    obtain ⟨c, s⟩ := p
    rw [List.map_cons, List.nodup_cons] at hn
    rw [List.foldl_cons, ih hn.2, Dict.lookup, Tab.get?_set]
    by_cases hb : c = b
    · subst hb
      rw [if_pos rfl, if_pos rfl, Dict.lookup_eq_none.2 hn.1]
    · rw [if_neg hb, if_neg (fun hc => hb (he hc).symm)]

theorem get?_transpose (T : Tab) (i j : Nat) : T.transpose.get? (j, i) = T.get? (i, j) := by
  have := get?_foldl_set (fun b => (b.2, b.1)) (by rintro ⟨a, b⟩ ⟨c, d⟩ h; simp_all) T.items T.keys_nodup Tab.empty (i, j)
  rw [Tab.transpose]
  refine this.trans ?_
  rw [Tab.get?_empty, Tab.get?]
  cases Dict.lookup (i, j) T.items <;> rfl

theorem transpose_transpose (T : Tab) : T.transpose.transpose = T := by
  apply Tab.ext_get?
  rintro ⟨i, j⟩
  rw [get?_transpose, get?_transpose]

theorem Std.transpose (h : Std Q β N) : Std Q.transpose (fun k => ((β k).2, (β k).1)) N := by
  rintro ⟨i, j⟩
  rw [get?_transpose, h (j, i)]
  have : boxNums (fun k => ((β k).2, (β k).1)) N (i, j) = boxNums β N (j, i) := by
    unfold boxNums
    congr 1
    apply List.filter_congr
    intro k _
    rw [decide_eq_decide, Prod.mk.injEq, Prod.ext_iff]
    tauto
  rw [this]

theorem apply?_eq (h : Std Q β N) {rec : List Int} (hl : rec.length = N) :
    Q.apply? (mappingAt rec) = some (Q.apply (fun x => rec.getD (x.toNat - 1) 0)) := by
  have hval : ∀ x ∈ Q.values, mappingAt rec x = some (rec.getD (x.toNat - 1) 0) := by
    intro x hx
    rw [values_eq, mem_entries] at hx
    obtain ⟨b, hb⟩ := hx
    rw [h.ent] at hb
    obtain ⟨k, hk, _, rfl⟩ := mem_boxNums.1 hb
    rw [mappingAt, if_pos (by omega), List.getD_eq_getElem?_getD, List.getElem?_eq_getElem (by omega)]
    rfl
  rw [Tab.apply?, if_pos]
  · congr 1
    apply Tab.ext_get?
    intro b
    rw [get?_apply, get?_apply]
    cases hg : Q.get? b with
    | none => rfl
    | some s =>
      rw [Option.map_some, Option.map_some]
      congr 2
      apply List.map_congr_left
      intro x hx
      rw [hval x (by rw [values_eq, mem_entries]; exact ⟨b, by rw [Tab.ent, hg]; exact hx⟩)]
      rfl
  · rw [List.all_eq_true]
    intro x hx
    rw [hval x hx]; rfl

end Verif.Insertion
