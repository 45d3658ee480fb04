import Verif.Model.HeckeLevels
import Verif.Spec.Permutations
import Verif.Lemmas.PermHecke

/-! `hecke_levels`: the levels, and the shared cache. -/

namespace Verif.Perm

open Verif.PermSpec

attribute [-simp] List.getD_eq_getElem?_getD
attribute [local irreducible] mul s inverse identity len mod

theorem mem_level_add {l : Level} {p q : SPerm × List Nat} : q ∈ l.add p ↔ q ∈ l ∨ q = p := by
  unfold Level.add
  split
  · rename_i h
    constructor
    · exact Or.inl
    · rintro (h' | rfl)
      · exact h'
      · exact h
  · simp

theorem nodup_level_add {l : Level} {p : SPerm × List Nat} (h : l.Nodup) : (l.add p).Nodup := by
  unfold Level.add
  split
  · exact h
  · rename_i hp
    simpa [List.nodup_append] using ⟨h, fun a b hab he => hp (he ▸ hab)⟩

theorem inner_spec (ab : Option Int) (p : SPerm × List Nat) (ls : List Nat) (nl : Level) :
    (∀ q, q ∈ ls.foldl (fun (nl : Level) i =>
        if ascentOk ab (p.2 ++ [i]) then nl.add (mod p.1 (s i), p.2 ++ [i]) else nl) nl ↔
      q ∈ nl ∨ ∃ i ∈ ls, ascentOk ab (p.2 ++ [i]) = true ∧ q = (mod p.1 (s i), p.2 ++ [i])) ∧
    (nl.Nodup → (ls.foldl (fun (nl : Level) i =>
        if ascentOk ab (p.2 ++ [i]) then nl.add (mod p.1 (s i), p.2 ++ [i]) else nl) nl).Nodup) := by
  induction ls generalizing nl with
  | nil => simp
  | cons i ls ih =>
    simp only [List.foldl_cons]
    refine ⟨fun q => ?_, fun h => (ih _).2 ?_⟩
    · rw [(ih _).1]
      by_cases h : ascentOk ab (p.2 ++ [i]) = true
      · simp only [h, if_true, mem_level_add, List.mem_cons, exists_eq_or_imp, true_and, or_assoc]
      · simp only [h, if_false, Bool.false_eq_true, List.mem_cons, exists_eq_or_imp, false_and, false_or]
    · split
      · exact nodup_level_add h
      · exact h

theorem nextLevel_spec (n : Nat) (ab : Option Int) (level : Level) :
    (∀ q, q ∈ nextLevel n ab level ↔
      ∃ p ∈ level, ∃ i ∈ letters n, ascentOk ab (p.2 ++ [i]) = true ∧ q = (mod p.1 (s i), p.2 ++ [i])) ∧
    (nextLevel n ab level).Nodup := by
  have key : ∀ nl : Level, (∀ q, q ∈ level.foldl (fun nl p =>
      (letters n).foldl (fun (nl : Level) i =>
        if ascentOk ab (p.2 ++ [i]) then nl.add (mod p.1 (s i), p.2 ++ [i]) else nl) nl) nl ↔ q ∈ nl ∨
      ∃ p ∈ level, ∃ i ∈ letters n, ascentOk ab (p.2 ++ [i]) = true ∧ q = (mod p.1 (s i), p.2 ++ [i])) ∧
      (nl.Nodup → (level.foldl (fun nl p =>
      (letters n).foldl (fun (nl : Level) i =>
        if ascentOk ab (p.2 ++ [i]) then nl.add (mod p.1 (s i), p.2 ++ [i]) else nl) nl) nl).Nodup) := by
    induction level with
    | nil => simp
    | cons p level ih =>
      intro nl
      simp only [List.foldl_cons]
      refine ⟨fun q => ?_, fun h => (ih _).2 ((inner_spec ab p _ nl).2 h)⟩
      rw [(ih _).1, (inner_spec ab p _ nl).1]
      simp only [List.mem_cons, exists_eq_or_imp, or_assoc]
  refine ⟨fun q => ?_, (key []).2 List.nodup_nil⟩
  rw [nextLevel, (key []).1]
  simp

theorem mem_letters {n i : Nat} : i ∈ letters n ↔ 1 ≤ i ∧ i < n := by
  unfold letters
  simp only [List.mem_map, List.mem_range]
  constructor
  · rintro ⟨a, h, rfl⟩; omega
  · intro h; exact ⟨i - 1, by omega, by omega⟩

theorem weakAscents_cons (a b : Nat) (l : List Nat) :
    weakAscents (a :: b :: l) = weakAscents (b :: l) + if a ≤ b then 1 else 0 := by
  simp [weakAscents, List.countP_cons]

theorem ascents_cons (a b : Int) (l : List Int) :
    Words.ascents (a :: b :: l) = Words.ascents (b :: l) + if a ≤ b then 1 else 0 := by
  unfold Words.ascents
  simp only [List.length_cons, Nat.add_sub_cancel]
  rw [List.range_succ_eq_map, List.filter_cons]
  simp only [List.getD_cons_zero, List.getD_cons_succ, List.filter_map, zero_add]
  by_cases h : a ≤ b
  · simp [h, Function.comp_def, List.getD_cons_succ]
  · simp [h, Function.comp_def, List.getD_cons_succ]

theorem ascents_eq (w : List Nat) : Words.ascents (w.map (fun a : Nat => (a : Int))) = weakAscents w := by
  induction w with
  | nil => rfl
  | cons a w ih =>
    cases w with
    | nil => rfl
    | cons b w =>
      rw [weakAscents_cons, List.map_cons, List.map_cons, ascents_cons, ← ih]
      simp

theorem weakAscents_concat (w : List Nat) (i : Nat) : weakAscents w ≤ weakAscents (w ++ [i]) := by
  induction w with
  | nil => simp [weakAscents]
  | cons a w ih =>
    cases w with
    | nil => simp [weakAscents]
    | cons b w =>
      rw [List.cons_append, List.cons_append, weakAscents_cons, weakAscents_cons]
      have : weakAscents (b :: w) ≤ weakAscents (b :: (w ++ [i])) := ih
      omega

theorem demazure_concat (w : List Nat) (i : Nat) : demazure (w ++ [i]) = mod (demazure w) (s i) := by
  rw [demazure, List.foldl_append]
  change (if _ then _ else _) = _
  rw [mod_s]
  change (if len (demazure w) < len (mul (demazure w) (s i)) then mul (demazure w) (s i) else demazure w) = _
  by_cases h : Desc (demazure w).call i
  · rw [act_of_desc h, if_neg]
    have := len_mul_s_of_desc h
    omega
  · rw [act_of_not h, if_pos]
    have := len_mul_s_of_not h
    omega

/-- The `t`-th level. -/
def trueLevel (n : Nat) (ab : Option Int) : Nat → Level
  | 0 => [(identity, [])]
  | t + 1 => nextLevel n ab (trueLevel n ab t)

theorem ascentOk_iff {ab : Option Int} {w : List Nat} : ascentOk ab w = true ↔ ∀ b, ab = some b → (weakAscents w : Int) < b := by
  unfold ascentOk
  cases ab with
  | none => simp
  | some b => simp [ascents_eq]

theorem trueLevel_spec (n : Nat) (ab : Option Int) (t : Nat) :
    (trueLevel n ab t).Nodup ∧ ∀ p w, (p, w) ∈ trueLevel n ab t ↔ LevelWord n ab t w ∧ p = demazure w := by
  induction t with
  | zero =>
    refine ⟨by simp [trueLevel], fun p w => ?_⟩
    simp only [trueLevel, List.mem_singleton, Prod.mk.injEq, LevelWord]
    constructor
    · rintro ⟨rfl, rfl⟩; simp [demazure]
    · rintro ⟨⟨h, -⟩, rfl⟩
      have := List.eq_nil_of_length_eq_zero h
      subst this
      exact ⟨rfl, rfl⟩
  | succ t ih =>
    refine ⟨(nextLevel_spec n ab _).2, fun p w => ?_⟩
    rw [trueLevel, (nextLevel_spec n ab _).1]
    constructor
    · rintro ⟨⟨q, v⟩, hq, i, hi, hok, he⟩
      simp only [Prod.mk.injEq] at he
      obtain ⟨rfl, rfl⟩ := he
      obtain ⟨⟨h1, h2, h3⟩, rfl⟩ := (ih.2 q v).1 hq
      rw [mem_letters] at hi
      refine ⟨⟨by simp [h1], ?_, Or.inr (ascentOk_iff.1 hok)⟩, (demazure_concat v i).symm⟩
      intro j hj
      rw [List.mem_append, List.mem_singleton] at hj
      rcases hj with hj | rfl
      · exact h2 j hj
      · exact hi
    · rintro ⟨⟨h1, h2, h3⟩, rfl⟩
      rcases List.eq_nil_or_concat w with rfl | ⟨v, i, rfl⟩
      · simp at h1
      · rw [List.concat_eq_append] at *
        have h3' : ∀ b, ab = some b → (weakAscents (v ++ [i]) : Int) < b := by
          rcases h3 with h3 | h3
          · omega
          · exact h3
        refine ⟨(demazure v, v), (ih.2 _ _).2 ⟨⟨by simpa using h1, fun j hj => h2 j (by simp [hj]), Or.inr ?_⟩, rfl⟩, i,
          mem_letters.2 (h2 i (by simp)), ascentOk_iff.2 h3', by rw [demazure_concat]⟩
        intro b hb
        have := h3' b hb
        have := weakAscents_concat v i
        omega

theorem trueLevel_empty {n : Nat} {ab : Option Int} {t : Nat} (h : trueLevel n ab t = []) : trueLevel n ab (t + 1) = [] := by
  rw [trueLevel, h]; rfl

/-- The state of a generator agrees with the cache, which holds `m` levels. -/
def Sync (g : LevelGen) (m : Nat) : Prop :=
  match g.phase with
  | .fresh => g.index = 0
  | .replay rest => 1 ≤ g.index ∧ g.index + rest.length + 1 = m ∧
      rest = (List.range rest.length).map (fun t => trueLevel g.n g.ab (g.index + t))
  | .loop l => 1 ≤ g.index ∧ g.index ≤ m ∧ l = trueLevel g.n g.ab (g.index - 1)
  | .stopped => g.finished = true

/-- The cache entry holds the first levels. -/
def GoodLevels (key : Nat × Option Int) (L : List Level) : Prop :=
  L = (List.range L.length).map (trueLevel key.1 key.2) ∧ ∀ j < L.length, trueLevel key.1 key.2 j ≠ []

theorem afterSlice_spec {key : Nat × Option Int} {L : List Level} (hL : GoodLevels key L) {i : Nat}
    (hi : i = L.length - 1) : afterSlice L = (some (trueLevel key.1 key.2 i), .loop (trueLevel key.1 key.2 i)) := by
  unfold afterSlice
  rcases Nat.eq_zero_or_pos L.length with h | h
  · have h' := List.eq_nil_of_length_eq_zero h
    subst h'
    simp only [List.length_nil] at hi
    subst hi
    simp [trueLevel]
  · have h1 : L.getLast? = some (trueLevel key.1 key.2 i) := by
      rw [List.getLast?_eq_getElem?, ← hi, hL.1, List.getElem?_map, List.getElem?_range (by omega)]
      rfl
    simp only [h1]
    rw [if_pos (hL.2 i (by omega))]

theorem range_map_shift {α : Type*} (f : Nat → α) (k : Nat) :
    (List.range (k + 1)).map f = f 0 :: (List.range k).map (fun t => f (1 + t)) := by
  rw [List.range_succ_eq_map]
  simp [Function.comp_def, Nat.add_comm]

/-- Resuming `generate()` produces the next level. -/
theorem pull_spec {g : LevelGen} {L : List Level} (hL : GoodLevels g.key L) (hs : Sync g L.length) (hf : g.finished = false) :
    g.index ≤ L.length ∧
    ((trueLevel g.n g.ab g.index = [] ∧ pull g.n g.ab L g.phase = (none, .stopped)) ∨
      (trueLevel g.n g.ab g.index ≠ [] ∧ ∃ ph, pull g.n g.ab L g.phase = (some (trueLevel g.n g.ab g.index), ph) ∧
        Sync { g with phase := ph, index := g.index + 1, emitted := g.emitted ++ [trueLevel g.n g.ab g.index] }
          (max L.length (g.index + 1)))) := by
  obtain ⟨n, ab, bound, phase, index, emitted, finished⟩ := g
  simp only [LevelGen.key] at hL
  simp only at hf
  have hne := hL.2
  simp only at hne
  cases phase with
  | fresh =>
    simp only [Sync] at hs
    subst hs
    refine ⟨by simp, Or.inr ⟨by simp [trueLevel], ?_⟩⟩
    simp only [pull]
    rcases Nat.lt_or_ge L.length 2 with h | h
    · have hd : L.dropLast = [] := by
        apply List.eq_nil_of_length_eq_zero; rw [List.length_dropLast]; omega
      rw [hd, afterSlice_spec hL (i := 0) (by omega)]
      refine ⟨_, rfl, ?_⟩
      simp only [Sync]
      exact ⟨by omega, by omega, by simp⟩
    · obtain ⟨k, hk⟩ : ∃ k, L.length = k + 2 := ⟨L.length - 2, by omega⟩
      have hd : L.dropLast = trueLevel n ab 0 :: (List.range k).map (fun t => trueLevel n ab (1 + t)) := by
        rw [hL.1, hk, List.range_succ, List.map_append, List.map_singleton, List.dropLast_concat, range_map_shift]
      rw [hd]
      refine ⟨_, rfl, ?_⟩
      simp only [Sync, List.length_map, List.length_range]
      exact ⟨by omega, by omega, by simp⟩
  | replay rest =>
    simp only [Sync] at hs
    obtain ⟨h1, h2, h3⟩ := hs
    refine ⟨by simp only; omega, Or.inr ⟨hne index (by omega), ?_⟩⟩
    cases rest with
    | nil =>
      simp only [pull]
      rw [afterSlice_spec hL (i := index) (by simp at h2; omega)]
      refine ⟨_, rfl, ?_⟩
      simp only [Sync]
      exact ⟨by omega, by omega, by simp⟩
    | cons x rest =>
      simp only [List.length_cons] at h2 h3
      rw [range_map_shift] at h3
      obtain ⟨hx, hr⟩ := List.cons_eq_cons.1 h3
      simp only [add_zero] at hx
      subst hx
      simp only [pull]
      refine ⟨_, rfl, ?_⟩
      simp only [Sync]
      refine ⟨by omega, by omega, ?_⟩
      rw [hr]
      simp only [List.length_map, List.length_range]
      exact List.map_congr_left (fun t _ => by rw [Nat.add_assoc])
  | loop l =>
    simp only [Sync] at hs
    obtain ⟨h1, h2, rfl⟩ := hs
    have hT : nextLevel n ab (trueLevel n ab (index - 1)) = trueLevel n ab index := by
      conv_rhs => rw [show index = (index - 1) + 1 by omega, trueLevel]
    refine ⟨h2, ?_⟩
    simp only [pull, hT]
    by_cases h : trueLevel n ab index = []
    · exact Or.inl ⟨h, by simp [h]⟩
    · refine Or.inr ⟨h, .loop (trueLevel n ab index), by simp [h], ?_⟩
      simp only [Sync]
      exact ⟨by omega, by omega, by simp⟩
  | stopped => simp only [Sync] at hs; rw [hf] at hs; cases hs

/-- The result of `draw`. -/
theorem draw_spec {g : LevelGen} {c : LevelCache} (hc : ∀ key, GoodLevels key (c key)) (hs : Sync g (c g.key).length)
    (hf : g.finished = false) :
    (trueLevel g.n g.ab g.index = [] ∧ g.draw c = ({ g with phase := .stopped, finished := true }, c)) ∨
    (trueLevel g.n g.ab g.index ≠ [] ∧ ∃ ph c', g.draw c =
      ({ g with phase := ph, index := g.index + 1, emitted := g.emitted ++ [trueLevel g.n g.ab g.index] }, c') ∧
      (∀ key, GoodLevels key (c' key)) ∧ (∀ key, key ≠ g.key → c' key = c key) ∧
      Sync { g with phase := ph, index := g.index + 1, emitted := g.emitted ++ [trueLevel g.n g.ab g.index] }
        (c' g.key).length) := by
  obtain ⟨hle, h⟩ := pull_spec (hc g.key) hs hf
  rcases h with ⟨h1, h2⟩ | ⟨h1, ph, h2, h3⟩
  · exact Or.inl ⟨h1, by rw [LevelGen.draw, h2]⟩
  · refine Or.inr ⟨h1, ph, _, by rw [LevelGen.draw, h2], ?_⟩
    split
    · rename_i hge
      have he : g.index = (c g.key).length := by omega
      refine ⟨?_, fun key hk => by simp [hk], ?_⟩
      · intro key
        by_cases hk : key = g.key
        · subst hk
          simp only [if_true]
          obtain ⟨k1, k2⟩ := hc g.key
          refine ⟨?_, ?_⟩
          · rw [List.length_append, List.length_singleton, List.range_succ, List.map_append, ← k1, List.map_singleton, ← he]
            rfl
          · intro j hj
            rw [List.length_append, List.length_singleton] at hj
            by_cases hj' : j < (c g.key).length
            · exact k2 j hj'
            · have : j = g.index := by omega
              subst this
              exact h1
        · simp only [hk, if_false]; exact hc key
      · simp only [if_true, List.length_append, List.length_singleton]
        rwa [show max (c g.key).length (g.index + 1) = (c g.key).length + 1 by omega] at h3
    · rename_i hge
      refine ⟨hc, fun _ _ => rfl, ?_⟩
      rwa [show max (c g.key).length (g.index + 1) = (c g.key).length by omega] at h3

/-- What is true of a generator with initial bound `B`. -/
structure GoodGen (B : Int) (g : LevelGen) : Prop where
  emitted : g.emitted = (List.range g.index).map (trueLevel g.n g.ab)
  stop : g.finished = true → trueLevel g.n g.ab g.index = [] ∨ (0 ≤ B ∧ (g.index : Int) = B + 1)
  le : 0 ≤ B → (g.index : Int) ≤ B + 1
  bound : g.finished = false → g.bound = if g.index = 0 then B else B - g.index + 1
  fresh : g.finished = false → g.index = 0 → g.phase = .fresh

theorem emitted_succ {g : LevelGen} (h : g.emitted = (List.range g.index).map (trueLevel g.n g.ab)) :
    g.emitted ++ [trueLevel g.n g.ab g.index] = (List.range (g.index + 1)).map (trueLevel g.n g.ab) := by
  rw [List.range_succ, List.map_append, ← h, List.map_singleton]

/-- The result of `next`. -/
theorem next_spec {g : LevelGen} {c : LevelCache} (hc : ∀ key, GoodLevels key (c key)) (hs : Sync g (c g.key).length)
    {B : Int} (hg : GoodGen B g) :
    (g.next c).1.n = g.n ∧ (g.next c).1.ab = g.ab ∧
    (∀ key, GoodLevels key ((g.next c).2 key)) ∧ (∀ key, key ≠ g.key → (g.next c).2 key = c key) ∧
    Sync (g.next c).1 ((g.next c).2 g.key).length ∧ GoodGen B (g.next c).1 ∧
    ((g.next c).1.finished = true ∨ (g.next c).1.index = g.index + 1) := by
  unfold LevelGen.next
  by_cases hf : g.finished = true
  · rw [if_pos hf]; exact ⟨rfl, rfl, hc, fun _ _ => rfl, hs, hg, Or.inl hf⟩
  · rw [if_neg hf]
    replace hf : g.finished = false := by simpa using hf
    have hb := hg.bound hf
    split
    · rename_i hi
      rw [if_pos hi] at hb
      rcases draw_spec hc hs hf with ⟨h1, h2⟩ | ⟨h1, ph, c', h2, h3, h4, h5⟩
      · rw [hi] at h1; simp [trueLevel] at h1
      · rw [h2]
        refine ⟨rfl, rfl, h3, h4, h5, ?_, Or.inr rfl⟩
        refine ⟨emitted_succ hg.emitted, ?_, ?_, ?_, ?_⟩
        · simp [hf]
        · simp only [hi]; intro h; push_cast; omega
        · intro _; simp only [hi]; push_cast; simp [hb]
        · intro _; simp
    · rename_i hi
      rw [if_neg hi] at hb
      split
      · rename_i hb0
        refine ⟨rfl, rfl, hc, fun _ _ => rfl, ?_, ?_, Or.inl rfl⟩
        · unfold Sync at hs ⊢
          simp only
          split
          · rename_i h; simp only [h] at hs; exact hs
          · rename_i h; simp only [h] at hs; exact hs
          · rename_i h; simp only [h] at hs; exact hs
          · trivial
        · exact ⟨hg.emitted, fun _ => Or.inr (by simp only; omega), hg.le, by simp, by simp⟩
      · rename_i hb0
        have hs' : Sync { g with bound := g.bound - 1 } (c { g with bound := g.bound - 1 }.key).length := hs
        rcases draw_spec hc hs' hf with ⟨h1, h2⟩ | ⟨h1, ph, c', h2, h3, h4, h5⟩
        · rw [h2]
          refine ⟨rfl, rfl, hc, fun _ _ => rfl, ?_, ?_, Or.inl rfl⟩
          · simp [Sync]
          · exact ⟨hg.emitted, fun _ => Or.inl h1, hg.le, by simp, by simp⟩
        · rw [h2]
          refine ⟨rfl, rfl, h3, h4, h5, ?_, Or.inr rfl⟩
          refine ⟨emitted_succ hg.emitted, ?_, ?_, ?_, ?_⟩
          · simp [hf]
          · intro h
            have := hg.le h
            simp only; push_cast; omega
          · intro _; simp only [if_neg (Nat.succ_ne_zero g.index)]; push_cast; omega
          · intro _; simp

/-- Generator `k` has been resumed, and after that another generator with the same key. -/
def Stale (h : List LevelAction) (k : Nat) : Prop :=
  ∃ pre mid j n lb lb' ab, h = pre ++ .resume k :: mid ∧ .resume j ∈ mid ∧ j ≠ k ∧
    (createArgs h)[k]? = some (n, lb, ab) ∧ (createArgs h)[j]? = some (n, lb', ab)

structure LevelInv (h : List LevelAction) (st : LevelWorld) : Prop where
  size : st.gens.length = (createArgs h).length
  cache : ∀ key, GoodLevels key (st.cache key)
  gens : ∀ k g, st.gens[k]? = some g → ∃ lb, (createArgs h)[k]? = some (g.n, lb, g.ab) ∧ GoodGen (lb.getD (-1)) g ∧
    ((g.finished = false ∧ g.index = 0) ∨ .resume k ∈ h) ∧ (Sync g (st.cache g.key).length ∨ Stale h k)

theorem createArgs_append (h : List LevelAction) (a : LevelAction) :
    createArgs (h ++ [a]) = createArgs h ++ createArgs [a] := by
  unfold createArgs; rw [List.filterMap_append]

theorem createArgs_get {h : List LevelAction} {a : LevelAction} {k : Nat} {x} (hk : (createArgs h)[k]? = some x) :
    (createArgs (h ++ [a]))[k]? = some x := by
  rw [createArgs_append, List.getElem?_append_left]
  · exact hk
  · exact (List.getElem?_eq_some_iff.1 hk).1

theorem stale_append {h : List LevelAction} {a : LevelAction} {k : Nat} (hs : Stale h k) : Stale (h ++ [a]) k := by
  obtain ⟨pre, mid, j, n, lb, lb', ab, h1, h2, h3, h4, h5⟩ := hs
  refine ⟨pre, mid ++ [a], j, n, lb, lb', ab, ?_, by simp [h2], h3, createArgs_get h4, createArgs_get h5⟩
  rw [h1]; simp

theorem noOverlap_prefix {h : List LevelAction} {a : LevelAction} (hn : NoOverlap (h ++ [a])) : NoOverlap h := by
  intro t1 t2 t3 k j n lb lb' ab h1 h2 e1 e2 e3 hne h4 h5
  have up : ∀ {t : Nat} {x : LevelAction}, h[t]? = some x → (h ++ [a])[t]? = some x := by
    intro t x hx
    rw [List.getElem?_append_left (List.getElem?_eq_some_iff.1 hx).1]; exact hx
  exact hn t1 t2 t3 k j n lb lb' ab h1 h2 (up e1) (up e2) (up e3) hne (createArgs_get h4) (createArgs_get h5)

theorem noOverlap_not_stale {h : List LevelAction} {k : Nat} (hn : NoOverlap (h ++ [.resume k])) : ¬ Stale h k := by
  rintro ⟨pre, mid, j, n, lb, lb', ab, rfl, h2, h3, h4, h5⟩
  obtain ⟨m1, m2, rfl⟩ := List.append_of_mem h2
  refine hn pre.length (pre.length + 1 + m1.length) (pre.length + 1 + m1.length + 1 + m2.length) k j n lb lb' ab
    (by omega) (by omega) ?_ ?_ ?_ h3 (createArgs_get h4) (createArgs_get h5)
  · simp
  · have : ∀ l : List LevelAction, pre ++ .resume k :: (m1 ++ .resume j :: m2) ++ l = (pre ++ [.resume k] ++ m1) ++ (.resume j :: (m2 ++ l)) := by
      intro l; simp
    have h0 : pre.length + 1 + m1.length = (pre ++ [LevelAction.resume k] ++ m1).length := by simp; omega
    rw [this, h0, List.getElem?_append_right (le_refl _), Nat.sub_self]
    rfl
  · rw [List.getElem?_append_right (by simp; omega)]
    have : pre.length + 1 + m1.length + 1 + m2.length - (pre ++ LevelAction.resume k :: (m1 ++ .resume j :: m2)).length = 0 := by
      simp; omega
    rw [this]; rfl

/-- A test for `NoOverlap`. -/
def clash (h : List LevelAction) (a b c : Nat) : Bool :=
  match h[a]?, h[b]?, h[c]? with
  | some (.resume k), some (.resume j), some (.resume k') =>
    decide (k = k') && decide (j ≠ k) &&
      match (createArgs h)[k]?, (createArgs h)[j]? with
      | some (n, _, ab), some (n', _, ab') => decide (n = n') && decide (ab = ab')
      | _, _ => false
  | _, _, _ => false

theorem noOverlap_of_test {h : List LevelAction}
    (ht : ∀ c < h.length, ∀ b < c, ∀ a < b, clash h a b c = false) : NoOverlap h := by
  intro t1 t2 t3 k j n lb lb' ab h1 h2 e1 e2 e3 hne h4 h5
  have := ht t3 (List.getElem?_eq_some_iff.1 e3).1 t2 h2 t1 h1
  simp [clash, e1, e2, e3, h4, h5, hne] at this

theorem levelInv_run (h : List LevelAction) (hn : NoOverlap h) : LevelInv h (LevelWorld.run h) := by
  induction h using List.reverseRecOn with
  | nil =>
    refine ⟨rfl, fun key => ⟨rfl, by intro j hj; simp [LevelWorld.run] at hj⟩, ?_⟩
    intro k g hk
    simp [LevelWorld.run] at hk
  | append_singleton h a ih =>
    have hi := ih (noOverlap_prefix hn)
    have hrun : LevelWorld.run (h ++ [a]) = (LevelWorld.run h).step a := by
      rw [LevelWorld.run, List.foldl_append]; rfl
    rw [hrun]
    generalize LevelWorld.run h = st at hi
    have lift : ∀ k g, st.gens[k]? = some g → ∃ lb, (createArgs (h ++ [a]))[k]? = some (g.n, lb, g.ab) ∧
        GoodGen (lb.getD (-1)) g ∧ ((g.finished = false ∧ g.index = 0) ∨ .resume k ∈ h ++ [a]) ∧
        (Sync g (st.cache g.key).length ∨ Stale (h ++ [a]) k) := by
      intro k g hk
      obtain ⟨lb, h1, h2, h3, h4⟩ := hi.gens k g hk
      refine ⟨lb, createArgs_get h1, h2, ?_, ?_⟩
      · rcases h3 with h3 | h3
        · exact Or.inl h3
        · exact Or.inr (by simp [h3])
      · rcases h4 with h4 | h4
        · exact Or.inl h4
        · exact Or.inr (stale_append h4)
    cases a with
    | create n lb ab =>
      refine ⟨?_, hi.cache, ?_⟩
      · simp only [LevelWorld.step, List.length_append, createArgs_append, hi.size]
        rfl
      · intro k g hk
        simp only [LevelWorld.step] at hk ⊢
        rcases Nat.lt_or_ge k st.gens.length with hlt | hge
        · rw [List.getElem?_append_left hlt] at hk
          exact lift k g hk
        · rw [List.getElem?_append_right hge, List.getElem?_singleton] at hk
          split at hk
          · rename_i h0
            simp only [Option.some.injEq] at hk
            subst hk
            refine ⟨lb, ?_, ?_, Or.inl ⟨rfl, rfl⟩, Or.inl rfl⟩
            · rw [createArgs_append, List.getElem?_append_right (by rw [← hi.size]; exact hge), ← hi.size, h0]
              rfl
            · exact ⟨rfl, by simp [heckeLevels], by simp [heckeLevels]; omega, by simp [heckeLevels], fun _ _ => rfl⟩
          · cases hk
    | resume k =>
      have hargs : createArgs (h ++ [.resume k]) = createArgs h := by
        rw [createArgs_append]; simp [createArgs]
      unfold LevelWorld.step
      simp only
      cases hk : st.gens[k]? with
      | none => exact ⟨by rw [hargs]; exact hi.size, hi.cache, lift⟩
      | some g =>
        simp only
        obtain ⟨lb, h1, h2, h3, h4⟩ := hi.gens k g hk
        have hs : Sync g (st.cache g.key).length := by
          rcases h4 with h4 | h4
          · exact h4
          · exact absurd h4 (noOverlap_not_stale hn)
        obtain ⟨n1, n2, n3, n4, n5, n6, -⟩ := next_spec hi.cache hs h2
        have hlt : k < st.gens.length := (List.getElem?_eq_some_iff.1 hk).1
        refine ⟨by rw [hargs, List.length_set]; exact hi.size, n3, ?_⟩
        intro j g' hj
        by_cases hjk : j = k
        · subst hjk
          rw [List.getElem?_set_self hlt] at hj
          simp only [Option.some.injEq] at hj
          subst hj
          refine ⟨lb, ?_, n6, Or.inr (by simp), Or.inl ?_⟩
          · rw [hargs, n1, n2]; exact h1
          · have : (g.next st.cache).1.key = g.key := by rw [LevelGen.key, LevelGen.key, n1, n2]
            rw [this]; exact n5
        · rw [List.getElem?_set_ne (fun e => hjk e.symm)] at hj
          obtain ⟨lb', m1, m2, m3, m4⟩ := lift j g' hj
          refine ⟨lb', m1, m2, m3, ?_⟩
          by_cases hkey : g'.key = g.key
          · obtain ⟨lb'', q1, q2, q3, q4⟩ := hi.gens j g' hj
            rcases q3 with q3 | q3
            · left
              have := q2.fresh q3.1 q3.2
              unfold Sync; rw [this]; exact q3.2
            · right
              obtain ⟨pre, mid, e⟩ := List.append_of_mem q3
              simp only [LevelGen.key, Prod.mk.injEq] at hkey
              rw [hkey.1, hkey.2] at m1
              refine ⟨pre, mid ++ [.resume k], k, g.n, lb', lb, g.ab, by rw [e]; simp, by simp, fun e => hjk e.symm, m1, ?_⟩
              rw [hargs]; exact h1
          · simp only; rw [n4 _ hkey]; exact m4

end Verif.Perm
