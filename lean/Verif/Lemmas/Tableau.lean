import Verif.Model.Tableau
import Verif.Lemmas.Dict
import Verif.Lemmas.Partitions
import Mathlib.Data.Finset.Card
import Mathlib.Data.List.Perm.Basic
import Mathlib.Order.Basic
import Mathlib.Algebra.Order.Ring.Int

set_option linter.unusedSectionVars false

/-! Lemmas about the dictionary of a tableau. -/

namespace Verif.Tab

theorem boxLt_irrefl (b : Nat × Nat) : ¬ boxLt b b := by unfold boxLt; omega

theorem keys_nodup (T : Tab) : (T.items.map Prod.fst).Nodup :=
  T.sorted.imp (fun h => by rintro rfl; exact boxLt_irrefl _ h)

/-- The entries of a box (none if the box is absent). -/
def ent (T : Tab) (b : Nat × Nat) : List Int := (T.get? b).getD []

theorem get?_eq_some {T : Tab} {b : Nat × Nat} {s : List Int} : T.get? b = some s ↔ (b, s) ∈ T.items :=
  ⟨Dict.lookup_mem, Dict.lookup_of_mem T.keys_nodup⟩

theorem ext_get? {T T' : Tab} (h : ∀ b, T.get? b = T'.get? b) : T = T' := by
  have hmem : ∀ p, p ∈ T.items ↔ p ∈ T'.items := by
    rintro ⟨b, s⟩
    rw [← get?_eq_some, ← get?_eq_some, h]
  have hs : ∀ T : Tab, T.items.Pairwise (fun a b => boxLt a.1 b.1) := fun T => List.pairwise_map.1 T.sorted
  have hnd : ∀ T : Tab, T.items.Nodup := fun T => (T.keys_nodup).of_map
  have hp : T.items.Perm T'.items := (List.perm_ext_iff_of_nodup (hnd T) (hnd T')).2 hmem
  have : T.items = T'.items := hp.eq_of_pairwise (le := fun a b => boxLt a.1 b.1)
    (fun a b _ _ h1 h2 => absurd (boxLt_trans h1 h2) (boxLt_irrefl _)) (hs T) (hs T')
  cases T; cases T'; simp_all

theorem lookup_insertBox (b c : Nat × Nat) (s : List Int) (l : List ((Nat × Nat) × List Int))
    (h : (l.map Prod.fst).Pairwise boxLt) :
    Dict.lookup c (insertBox b s l) = if c = b then some s else Dict.lookup c l := by
  induction l with
  | nil => simp [insertBox, Dict.lookup, eq_comm]
  | cons a t ih =>
    obtain ⟨b', s'⟩ := a
    rw [List.map_cons, List.pairwise_cons] at h
    rw [insertBox]
    split
    · rename_i hb
      subst hb
      simp only [Dict.lookup, eq_comm (a := b')]
      split <;> simp_all
    · split
      · simp only [Dict.lookup, eq_comm (a := b)]
      · rename_i h1 h2
        rw [Dict.lookup, Dict.lookup, ih h.2]
        by_cases hc : b' = c
        · subst hc
          simp [h1]
        · simp [hc]

theorem get?_set (T : Tab) (b c : Nat × Nat) (s : List Int) :
    (T.set b s).get? c = if c = b then some s else T.get? c :=
  lookup_insertBox b c s T.items T.sorted

theorem get?_empty (b : Nat × Nat) : empty.get? b = none := rfl

theorem lookup_filter_ne (b c : Nat × Nat) (l : List ((Nat × Nat) × List Int)) :
    Dict.lookup c (l.filter (fun p => decide (p.1 ≠ b))) = if c = b then none else Dict.lookup c l := by
  induction l with
  | nil => simp [Dict.lookup]
  | cons a t ih =>
    obtain ⟨b', s'⟩ := a
    rw [List.filter_cons]
    by_cases hb : b' = b
    · subst hb
      simp only [ne_eq, not_true_eq_false, decide_false, Bool.false_eq_true, if_false, Dict.lookup]
      rw [ih]
      by_cases hc : c = b'
      · simp [hc]
      · rw [if_neg hc, if_neg hc, if_neg (fun h => hc h.symm)]
    · simp only [ne_eq, hb, not_false_eq_true, decide_true, if_true, Dict.lookup]
      rw [ih]
      by_cases hc : b' = c
      · subst hc; simp [hb]
      · simp [hc]

theorem get?_del (T : Tab) (b c : Nat × Nat) : (T.del b).get? c = if c = b then none else T.get? c :=
  lookup_filter_ne b c T.items

theorem get?_add (T : Tab) (b c : Nat × Nat) (v : Int) :
    (T.add b v).get? c = if c = b then some (sortInts (T.ent b ++ [v])) else T.get? c := by
  unfold add ent
  cases h : T.get? b with
  | none => simp [get?_set, sortInts]
  | some s => simp [get?_set]

theorem sortInts_append {l : List Int} {v : Int} (h : l.Pairwise (· < ·)) (hv : ∀ x ∈ l, x < v) :
    sortInts (l ++ [v]) = l ++ [v] := by
  apply List.Pairwise.insertionSort_eq
  rw [List.pairwise_append]
  refine ⟨h.imp (fun h => le_of_lt h), by simp, ?_⟩
  intro a ha b hb
  simp at hb; subst hb
  exact le_of_lt (hv a ha)

/-! ### entries -/

/-- All entries, box by box. -/
def entries (T : Tab) : List Int := T.items.flatMap Prod.snd

theorem mem_entries {T : Tab} {x : Int} : x ∈ T.entries ↔ ∃ b, x ∈ T.ent b := by
  simp only [entries, List.mem_flatMap]
  constructor
  · rintro ⟨⟨b, s⟩, h, hx⟩
    refine ⟨b, ?_⟩
    rw [ent, get?_eq_some.2 h]
    exact hx
  · rintro ⟨b, h⟩
    unfold ent at h
    cases hg : T.get? b with
    | none => simp [hg] at h
    | some s => exact ⟨(b, s), get?_eq_some.1 hg, by simpa [hg] using h⟩

end Verif.Tab

namespace Verif.Tableaux

open Tab

theorem get?_addAll (aug : List (Nat × Nat)) (hnd : aug.Nodup) (v : Int) (T : Tab)
    (hs : ∀ b, (T.ent b).Pairwise (· < ·)) (hv : ∀ b, ∀ x ∈ T.ent b, x < v) (c : Nat × Nat) :
    (addAll aug v T).get? c = if c ∈ aug then some (T.ent c ++ [v]) else T.get? c := by
  unfold addAll
  suffices h : ∀ (done : List (Nat × Nat)) (T' : Tab), (done ++ aug).Nodup →
      (∀ c, T'.get? c = if c ∈ done then some (T.ent c ++ [v]) else T.get? c) →
      ∀ c, (aug.foldl (fun T b => T.add b v) T').get? c =
        if c ∈ done ++ aug then some (T.ent c ++ [v]) else T.get? c by
    have := h [] T (by simpa using hnd) (by simp) c
    simpa using this
  clear hnd
  induction aug with
  | nil => intro done T' _ h c; simpa using h c
  | cons b aug ih =>
    intro done T' hnd h c
    rw [List.foldl_cons]
    have := ih (done ++ [b]) (T'.add b v) (by simpa using hnd) (by
      intro c
      rw [get?_add]
      have hb : b ∉ done := by
        rw [List.nodup_append] at hnd
        intro hb
        exact hnd.2.2 b hb b (by simp) rfl
      have he : T'.ent b = T.ent b := by rw [ent, h b, if_neg hb]; rfl
      rw [he, sortInts_append (hs b) (hv b)]
      by_cases hc : c = b
      · subst hc; simp
      · simp [hc, h c]) c
    rw [this]
    simp

theorem ent_addAll (aug : List (Nat × Nat)) (hnd : aug.Nodup) (v : Int) (T : Tab)
    (hs : ∀ b, (T.ent b).Pairwise (· < ·)) (hv : ∀ b, ∀ x ∈ T.ent b, x < v) (c : Nat × Nat) :
    (addAll aug v T).ent c = T.ent c ++ (if c ∈ aug then [v] else []) := by
  rw [ent, get?_addAll aug hnd v T hs hv]
  by_cases h : c ∈ aug <;> simp [h, ent]

end Verif.Tableaux
