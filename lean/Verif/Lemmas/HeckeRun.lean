import Verif.Model.StableG
import Verif.Lemmas.HeckeLevels

/-! Complete runs of the generators of levels. -/

namespace Verif.Perm

attribute [-simp] List.getD_eq_getElem?_getD
attribute [local irreducible] mul s inverse identity len mod

namespace LevelKind

variable (K : LevelKind)

/-- The `t`-th level. -/
def level : Nat → Level
  | 0 => [(K.start, [])]
  | t + 1 => K.next (level t)

/-- The permutation reached by a word, if the word is allowed. -/
def reach : SPerm → List Nat → Option SPerm
  | p, [] => some p
  | p, i :: w => (K.step p i).bind (fun q => reach q w)

theorem reach_append (p : SPerm) (v w : List Nat) : K.reach p (v ++ w) = (K.reach p v).bind (fun q => K.reach q w) := by
  induction v generalizing p with
  | nil => rfl
  | cons i v ih =>
    rw [List.cons_append, reach, reach]
    cases K.step p i with
    | none => rfl
    | some q => exact ih q

theorem reach_concat (p : SPerm) (v : List Nat) (i : Nat) : K.reach p (v ++ [i]) = (K.reach p v).bind (fun q => K.step q i) := by
  rw [reach_append]
  congr 1
  funext q
  rw [reach]
  cases K.step q i <;> rfl

theorem mem_inner (p : SPerm × List Nat) (ls : List Nat) (nl : Level) :
    (∀ q, q ∈ ls.foldl (fun (nl : Level) i =>
        match K.step p.1 i with
        | some sigma => if K.ok (p.2 ++ [i]) then nl.add (sigma, p.2 ++ [i]) else nl
        | none => nl) nl ↔
      q ∈ nl ∨ ∃ i ∈ ls, K.step p.1 i = some q.1 ∧ q.2 = p.2 ++ [i] ∧ K.ok q.2 = true) ∧
    (nl.Nodup → (ls.foldl (fun (nl : Level) i =>
        match K.step p.1 i with
        | some sigma => if K.ok (p.2 ++ [i]) then nl.add (sigma, p.2 ++ [i]) else nl
        | none => nl) nl).Nodup) := by
  induction ls generalizing nl with
  | nil => simp
  | cons i ls ih =>
    simp only [List.foldl_cons]
    refine ⟨fun q => ?_, fun h => (ih _).2 ?_⟩
    · rw [(ih _).1]
      simp only [List.mem_cons, exists_eq_or_imp, ← or_assoc]
      refine or_congr ?_ Iff.rfl
      cases hs : K.step p.1 i with
      | none => simp
      | some sigma =>
        simp only [Option.some.injEq]
        by_cases h : K.ok (p.2 ++ [i]) = true
        · rw [if_pos h, mem_level_add]
          refine or_congr Iff.rfl ?_
          obtain ⟨q1, q2⟩ := q
          simp only [Prod.mk.injEq]
          constructor
          · rintro ⟨rfl, rfl⟩; exact ⟨rfl, rfl, h⟩
          · rintro ⟨rfl, rfl, -⟩; exact ⟨rfl, rfl⟩
        · rw [if_neg h]
          constructor
          · exact Or.inl
          · rintro (h' | ⟨-, h1, h2⟩)
            · exact h'
            · rw [h1] at h2; exact absurd h2 h
    · cases hs : K.step p.1 i with
      | none => exact h
      | some sigma =>
        simp only
        split
        · exact nodup_level_add h
        · exact h

theorem next_spec (level : Level) :
    (∀ q, q ∈ K.next level ↔
      ∃ p ∈ level, ∃ i ∈ K.letters, K.step p.1 i = some q.1 ∧ q.2 = p.2 ++ [i] ∧ K.ok q.2 = true) ∧
    (K.next level).Nodup := by
  have key : ∀ nl : Level, (∀ q, q ∈ level.foldl (fun nl p =>
      K.letters.foldl (fun (nl : Level) i =>
        match K.step p.1 i with
        | some sigma => if K.ok (p.2 ++ [i]) then nl.add (sigma, p.2 ++ [i]) else nl
        | none => nl) nl) nl ↔ q ∈ nl ∨
      ∃ p ∈ level, ∃ i ∈ K.letters, K.step p.1 i = some q.1 ∧ q.2 = p.2 ++ [i] ∧ K.ok q.2 = true) ∧
      (nl.Nodup → (level.foldl (fun nl p =>
      K.letters.foldl (fun (nl : Level) i =>
        match K.step p.1 i with
        | some sigma => if K.ok (p.2 ++ [i]) then nl.add (sigma, p.2 ++ [i]) else nl
        | none => nl) nl) nl).Nodup) := by
    induction level with
    | nil => simp
    | cons p level ih =>
      intro nl
      simp only [List.foldl_cons]
      refine ⟨fun q => ?_, fun h => (ih _).2 ((K.mem_inner p _ nl).2 h)⟩
      rw [(ih _).1, (K.mem_inner p _ nl).1]
      simp only [List.mem_cons, exists_eq_or_imp, or_assoc]
  refine ⟨fun q => ?_, (key []).2 List.nodup_nil⟩
  exact ((key []).1 q).trans (by simp)

theorem level_spec (t : Nat) :
    (K.level t).Nodup ∧ ∀ p w, (p, w) ∈ K.level t ↔ w.length = t ∧ (∀ i ∈ w, i ∈ K.letters) ∧
      (∀ v, v <+: w → v ≠ [] → K.ok v = true) ∧ K.reach K.start w = some p := by
  induction t with
  | zero =>
    refine ⟨by simp [level], fun p w => ?_⟩
    simp only [level, List.mem_singleton, Prod.mk.injEq]
    constructor
    · rintro ⟨rfl, rfl⟩
      refine ⟨rfl, by simp, ?_, rfl⟩
      intro v hv hn
      exact absurd (List.prefix_nil.1 hv) hn
    · rintro ⟨h, -, -, h1⟩
      have := List.eq_nil_of_length_eq_zero h
      subst this
      rw [reach, Option.some.injEq] at h1
      exact ⟨h1.symm, rfl⟩
  | succ t ih =>
    refine ⟨(K.next_spec _).2, fun p w => ?_⟩
    rw [level, (K.next_spec _).1]
    constructor
    · rintro ⟨⟨q, v⟩, hq, i, hi, hs, he, hok⟩
      simp only at hs he hok
      subst he
      obtain ⟨h1, h2, h3, h4⟩ := (ih.2 q v).1 hq
      refine ⟨by simp [h1], ?_, ?_, by rw [reach_concat, h4]; exact hs⟩
      · intro j hj
        rw [List.mem_append, List.mem_singleton] at hj
        rcases hj with hj | rfl
        · exact h2 j hj
        · exact hi
      · intro u hu hn
        rw [List.prefix_concat_iff] at hu
        rcases hu with rfl | hu
        · exact hok
        · exact h3 u hu hn
    · rintro ⟨h1, h2, h3, h4⟩
      rcases List.eq_nil_or_concat w with rfl | ⟨v, i, rfl⟩
      · simp at h1
      · rw [List.concat_eq_append] at *
        rw [reach_concat] at h4
        cases hr : K.reach K.start v with
        | none => rw [hr] at h4; cases h4
        | some q =>
          rw [hr] at h4
          refine ⟨(q, v), (ih.2 _ _).2 ⟨by simpa using h1, fun j hj => h2 j (by simp [hj]), ?_, hr⟩, i, h2 i (by simp), h4, rfl,
            h3 _ (List.prefix_refl _) (by simp)⟩
          intro u hu hn
          exact h3 u (hu.trans (List.prefix_append _ _)) hn

theorem level_empty {t : Nat} (h : K.level t = []) : K.level (t + 1) = [] := by
  rw [level, h]; rfl

theorem level_empty_le {t u : Nat} (h : K.level t = []) (hu : t ≤ u) : K.level u = [] := by
  induction u, hu using Nat.le_induction with
  | base => exact h
  | succ u _ ih => exact K.level_empty ih

/-- The cache entry holds the first levels. -/
def Good (L : List Level) : Prop := L = (List.range L.length).map K.level ∧ ∀ j < L.length, K.level j ≠ []

theorem good_nil : K.Good [] := ⟨rfl, by simp⟩

/-- The state of the generator agrees with the cache, which holds `m` levels. -/
def InSync (index m : Nat) : Phase → Prop
  | .fresh => index = 0
  | .replay rest => 1 ≤ index ∧ index + rest.length + 1 = m ∧ rest = (List.range rest.length).map (fun t => K.level (index + t))
  | .loop l => 1 ≤ index ∧ index ≤ m ∧ l = K.level (index - 1)
  | .stopped => False

theorem after_spec {L : List Level} (hL : K.Good L) {i : Nat} (hi : i = L.length - 1) :
    K.afterSlice L = (some (K.level i), .loop (K.level i)) := by
  unfold afterSlice
  rcases Nat.eq_zero_or_pos L.length with h | h
  · have h' := List.eq_nil_of_length_eq_zero h
    subst h'
    simp only [List.length_nil] at hi
    subst hi
    simp [level]
  · have h1 : L.getLast? = some (K.level i) := by
      rw [List.getLast?_eq_getElem?, ← hi, hL.1, List.getElem?_map, List.getElem?_range (by omega)]
      rfl
    simp only [h1]
    rw [if_pos (hL.2 i (by omega))]

theorem resume_spec {L : List Level} (hL : K.Good L) {index : Nat} {ph : Phase} (hs : K.InSync index L.length ph) :
    index ≤ L.length ∧
    ((K.level index = [] ∧ K.pull L ph = (none, .stopped)) ∨
      (K.level index ≠ [] ∧ ∃ ph', K.pull L ph = (some (K.level index), ph') ∧
        K.InSync (index + 1) (max L.length (index + 1)) ph')) := by
  have hne := hL.2
  cases ph with
  | fresh =>
    simp only [InSync] at hs
    subst hs
    refine ⟨by simp, Or.inr ⟨by simp [level], ?_⟩⟩
    simp only [pull]
    rcases Nat.lt_or_ge L.length 2 with h | h
    · have hd : L.dropLast = [] := by
        apply List.eq_nil_of_length_eq_zero; rw [List.length_dropLast]; omega
      rw [hd, K.after_spec hL (i := 0) (by omega)]
      refine ⟨_, rfl, ?_⟩
      simp only [InSync]
      exact ⟨by omega, by omega, by simp⟩
    · obtain ⟨k, hk⟩ : ∃ k, L.length = k + 2 := ⟨L.length - 2, by omega⟩
      have hd : L.dropLast = K.level 0 :: (List.range k).map (fun t => K.level (1 + t)) := by
        rw [hL.1, hk, List.range_succ, List.map_append, List.map_singleton, List.dropLast_concat, range_map_shift]
      rw [hd]
      refine ⟨_, rfl, ?_⟩
      simp only [InSync, List.length_map, List.length_range]
      exact ⟨by omega, by omega, by simp⟩
  | replay rest =>
    simp only [InSync] at hs
    obtain ⟨h1, h2, h3⟩ := hs
    refine ⟨by omega, Or.inr ⟨hne index (by omega), ?_⟩⟩
    cases rest with
    | nil =>
      simp only [pull]
      rw [K.after_spec hL (i := index) (by simp at h2; omega)]
      refine ⟨_, rfl, ?_⟩
      simp only [InSync]
      exact ⟨by omega, by omega, by simp⟩
    | cons x rest =>
      simp only [List.length_cons] at h2 h3
      rw [range_map_shift] at h3
      obtain ⟨hx, hr⟩ := List.cons_eq_cons.1 h3
      simp only [add_zero] at hx
      subst hx
      simp only [pull]
      refine ⟨_, rfl, ?_⟩
      simp only [InSync]
      refine ⟨by omega, by omega, ?_⟩
      rw [hr]
      simp only [List.length_map, List.length_range]
      exact List.map_congr_left (fun t _ => by rw [Nat.add_assoc])
  | loop l =>
    simp only [InSync] at hs
    obtain ⟨h1, h2, rfl⟩ := hs
    have hT : K.next (K.level (index - 1)) = K.level index := by
      conv_rhs => rw [show index = (index - 1) + 1 by omega, level]
    refine ⟨h2, ?_⟩
    simp only [pull, hT]
    by_cases h : K.level index = []
    · exact Or.inl ⟨h, by simp [h]⟩
    · refine Or.inr ⟨h, .loop (K.level index), by simp [h], ?_⟩
      simp only [InSync]
      exact ⟨by omega, by omega, by simp⟩
  | stopped => exact hs.elim

theorem good_append {L : List Level} (hL : K.Good L) (h : K.level L.length ≠ []) : K.Good (L ++ [K.level L.length]) := by
  refine ⟨?_, ?_⟩
  · rw [List.length_append, List.length_singleton, List.range_succ, List.map_append, ← hL.1, List.map_singleton]
  · intro j hj
    rw [List.length_append, List.length_singleton] at hj
    by_cases hj' : j < L.length
    · exact hL.2 j hj'
    · have : j = L.length := by omega
      subst this
      exact h

theorem drain_spec (T : Nat) (hT : K.level T = []) (fuel : Nat) : ∀ (ph : Phase) (bound : Int) (index : Nat) (L : List Level),
    K.Good L → K.InSync index L.length ph → index ≤ T → T < index + fuel →
    ∃ m L', K.drain fuel ph bound index L = some ((List.range m).map (fun t => K.level (index + t)), L') ∧ K.Good L' ∧
      (K.level (index + m) = [] ∨ (0 ≤ bound ∧ (m : Int) = bound + 1)) ∧ (0 ≤ bound → (m : Int) ≤ bound + 1) := by
  induction fuel with
  | zero => intro ph bound index L _ _ h1 h2; omega
  | succ fuel ih =>
    intro ph bound index L hL hs h1 h2
    obtain ⟨hle, ⟨he, hp⟩ | ⟨hne, ph', hp, hs'⟩⟩ := K.resume_spec hL hs
    · refine ⟨0, L, by rw [drain, hp]; rfl, hL, Or.inl he, by intro h; push_cast; omega⟩
    · rw [drain, hp]
      simp only
      have hL' : K.Good (if index ≥ L.length then L ++ [K.level index] else L) ∧
          (if index ≥ L.length then L ++ [K.level index] else L).length = max L.length (index + 1) := by
        by_cases hge : index ≥ L.length
        · have : index = L.length := by omega
          rw [if_pos hge]
          subst this
          exact ⟨K.good_append hL hne, by simp⟩
        · rw [if_neg hge]
          exact ⟨hL, by omega⟩
      obtain ⟨L1, hL1⟩ : ∃ L1, (if index ≥ L.length then L ++ [K.level index] else L) = L1 := ⟨_, rfl⟩
      rw [hL1] at hL' ⊢
      by_cases hb : bound = 0
      · refine ⟨1, L1, by rw [if_pos hb]; rfl, hL'.1, Or.inr ⟨by omega, by omega⟩, by intro h; omega⟩
      · rw [if_neg hb]
        have hlt : index < T := by
          rcases Nat.lt_or_ge index T with h | h
          · exact h
          · exact absurd (K.level_empty_le hT h) hne
        obtain ⟨m, L2, e1, e2, e3, e4⟩ := ih ph' (bound - 1) (index + 1) L1 hL'.1 (by rw [hL'.2]; exact hs') hlt (by omega)
        refine ⟨m + 1, L2, ?_, e2, ?_, ?_⟩
        · rw [e1, Option.map_some, range_map_shift]
          simp only [Nat.add_zero, Nat.add_assoc]
        · rw [show index + (m + 1) = index + 1 + m by omega]
          rcases e3 with e3 | e3
          · exact Or.inl e3
          · right
            push_cast
            omega
        · intro h
          have := e4 (by omega)
          push_cast
          omega

/-- A complete run yields the levels in order, up to the bound or the first empty level. -/
theorem run_spec (T : Nat) (hT : K.level T = []) {fuel : Nat} (hf : T < fuel) (lb : Option Int) {L : List Level} (hL : K.Good L) :
    ∃ m L', K.run fuel lb L = some ((List.range m).map K.level, L') ∧ K.Good L' ∧
      ∀ t, t < m ∨ K.level t = [] ↔ ((lb.getD (-1) < 0 ∨ (t : Int) ≤ lb.getD (-1)) ∨ K.level t = []) := by
  obtain ⟨m, L', h1, h2, h3, h4⟩ := K.drain_spec T hT fuel .fresh (lb.getD (-1)) 0 L hL rfl (by omega) (by omega)
  simp only [Nat.zero_add] at h1 h3
  refine ⟨m, L', h1, h2, fun t => ?_⟩
  constructor
  · rintro (h | h)
    · left
      by_cases h0 : lb.getD (-1) < 0
      · exact Or.inl h0
      · have := h4 (by omega)
        right
        omega
    · exact Or.inr h
  · rintro (h | h)
    · rcases h3 with h3 | ⟨h3, h5⟩
      · by_cases ht : t < m
        · exact Or.inl ht
        · exact Or.inr (K.level_empty_le h3 (by omega))
      · left
        omega
    · exact Or.inr h

end LevelKind

end Verif.Perm
