import Verif.Model.SlowPoly
import Verif.Lemmas.MarkedPoly

/-! `_slow_vectorize` and `_vectorize` give the same. -/

attribute [-simp] List.getD_eq_getElem?_getD

namespace Verif.Symm

open Tableaux Verif.Part Partition

/-- The tableaux of `S` in some order. -/
def ListsSet (tabs : List Tab) (S : Finset Tab) : Prop := tabs.Nodup ∧ ∀ T, T ∈ tabs ↔ T ∈ S

theorem slowDictionary_getD {tabs : List Tab} {S : Finset Tab} (h : ListsSet tabs S) (W : Tab → List Nat)
    (alpha : List Nat) : (slowDictionary W tabs).getD alpha 0 = ((S.filter (fun T => W T = alpha)).card : Nat) := by
  rw [slowDictionary, foldl_getD _ _ _ (fun T => if W T = alpha then 1 else 0) (fun T _ ans => getD_bump _ _ _ _),
    Dict.getD_empty, zero_add]
  have hS : S = tabs.toFinset := by ext T; rw [List.mem_toFinset, h.2]
  rw [hS, ← List.sum_toFinset _ h.1, Finset.card_filter]
  push_cast
  rfl

theorem slowDictionary_keys {tabs : List Tab} {S : Finset Tab} (h : ListsSet tabs S) (W : Tab → List Nat) :
    ∀ alpha ∈ (slowDictionary W tabs).keys, ∃ T ∈ S, W T = alpha := by
  rw [slowDictionary]
  refine foldl_inv (fun d : Dict (List Nat) Int => ∀ alpha ∈ d.keys, ∃ T ∈ S, W T = alpha) tabs _ (fun T hT d hd alpha ha => ?_) _
    (by simp [Dict.keys, Dict.empty])
  rcases mem_keys_bump ha with rfl | ha
  · exact ⟨T, (h.2 T).1 hT, rfl⟩
  · exact hd alpha ha

theorem sortDown_perm (u : List Nat) : u.Perm (sortDown u) :=
  ((List.perm_insertionSort _ u).symm).trans (List.reverse_perm _).symm

theorem slowCheck_spec {tabs : List Tab} {S : Finset Tab} (h : ListsSet tabs S) {n : Nat} {W : Tab → List Nat}
    (hW : ∀ T ∈ S, (W T).length = n)
    (hsym : ∀ u v : List Nat, u.length = n → u.Perm v →
      (S.filter (fun T => W T = u)).card = (S.filter (fun T => W T = v)).card) :
    slowCheck (slowDictionary W tabs) = true := by
  rw [slowCheck, List.all_eq_true]
  intro alpha ha
  obtain ⟨T, hT, rfl⟩ := slowDictionary_keys h W alpha ha
  rw [decide_eq_true_eq, slowDictionary_getD h, slowDictionary_getD h, hsym _ _ (hW T hT) (sortDown_perm _)]

theorem sortTrim_of_sorted {u : List Nat} (h : u.Pairwise (· ≥ ·)) : sortTrim u = trim u := by
  have : (u.insertionSort (· ≤ ·)).reverse = u :=
    List.Perm.eq_of_pairwise (le := (· ≥ ·)) (fun _ _ _ _ h1 h2 => le_antisymm h2 h1) (by
      rw [List.pairwise_reverse]
      exact List.pairwise_insertionSort _ u) h (sortDown_perm u).symm
  rw [sortTrim, this]

theorem slow_fold {n : Nat} (val : List Nat × Int → PolyVal) (l : List (List Nat × Int))
    (hnd : (l.map Prod.fst).Nodup) (hl : ∀ t ∈ l, t.1.length = n ∧ t.1.Pairwise (· ≥ ·)) (e : Dict (List Nat) PolyVal)
    (he : ∀ k ∈ e.keys, IsPartition k ∧ k.length ≤ n) :
    ∃ e', l.foldlM (fun (e : Dict (List Nat) PolyVal) (ac : List Nat × Int) =>
        (mkMono n ac.1).map (fun key => e.set key (val ac))) e = some e' ∧
      (∀ k ∈ e'.keys, IsPartition k ∧ k.length ≤ n) ∧
      ∀ k, IsPartition k → k.length ≤ n → e'.getD k 0 =
        match l.find? (fun t => decide (t.1 = k ++ List.replicate (n - k.length) 0)) with
        | some t => val t
        | none => e.getD k 0 := by
  induction l generalizing e with
  | nil => exact ⟨e, rfl, he, fun k _ _ => rfl⟩
  | cons t l ih =>
    rw [List.map_cons, List.nodup_cons] at hnd
    obtain ⟨h1, h2⟩ := hl t (by simp)
    have hkey : mkMono n t.1 = some (trim t.1) := by
      rw [mkMono, if_pos h1.le, sortTrim_of_sorted h2]
    have htp := (trim_eq_iff h2 (g := trim t.1)).1 rfl
    obtain ⟨e', e1, e2, e3⟩ := ih hnd.2 (fun t ht => hl t (by simp [ht])) (e.set (trim t.1) (val t)) (by
      intro k hk
      rcases keys_set hk with rfl | hk
      · exact ⟨htp.1, by omega⟩
      · exact he k hk)
    refine ⟨e', by rw [List.foldlM_cons, hkey]; exact e1, e2, fun k hk1 hk2 => ?_⟩
    rw [e3 k hk1 hk2, Dict.getD_set]
    have hiff : trim t.1 = k ↔ t.1 = k ++ List.replicate (n - k.length) 0 := by
      rw [trim_eq_iff h2, h1]
      exact ⟨fun h => h.2.2, fun h => ⟨hk1, hk2, h⟩⟩
    by_cases hc : t.1 = k ++ List.replicate (n - k.length) 0
    · have hnone : l.find? (fun t => decide (t.1 = k ++ List.replicate (n - k.length) 0)) = none := by
        rw [List.find?_eq_none]
        intro s hs hd
        rw [decide_eq_true_eq] at hd
        exact hnd.1 (hc ▸ hd ▸ List.mem_map_of_mem hs)
      rw [hnone, List.find?_cons_of_pos (by simpa using hc), if_pos (hiff.2 hc)]
    · rw [List.find?_cons_of_neg (by simpa using hc), if_neg (fun h => hc (hiff.1 h))]

theorem pad_iff {n : Nat} {u k : List Nat} (hu : u.length = n) (hk : k.length ≤ n) :
    u = k ++ List.replicate (n - k.length) 0 ↔ ∀ i < n, u.getD i 0 = k.getD i 0 := by
  have hp : ∀ i < n, (k ++ List.replicate (n - k.length) 0).getD i 0 = k.getD i 0 := by
    intro i hi
    by_cases h : i < k.length
    · rw [List.getD_append _ _ _ _ h]
    · rw [List.getD_append_right _ _ _ _ (by omega), List.getD_eq_default k _ (by omega),
        List.getD_eq_getElem _ _ (by simp; omega)]
      simp
  constructor
  · rintro h i hi
    rw [h, hp i hi]
  · intro h
    refine List.ext_getElem (by simp; omega) (fun i h1 h2 => ?_)
    have := h i (by omega)
    rw [← hp i (by omega), List.getD_eq_getElem _ _ h1, List.getD_eq_getElem _ _ h2] at this
    exact this

open scoped Classical in
theorem slowVectorize_spec {tabs : List Tab} {S : Finset Tab} (h : ListsSet tabs S) {n : Nat} {W : Tab → List Nat}
    (hW : ∀ T ∈ S, (W T).length = n)
    (hsym : ∀ u v : List Nat, u.length = n → u.Perm v →
      (S.filter (fun T => W T = u)).card = (S.filter (fun T => W T = v)).card) (signs : Option PolyVal) :
    ∃ f, slowVectorize n W tabs signs = some f ∧ IsSym n f ∧ Vec.NoZero f ∧ ∀ k, f.get k =
      if IsPartition k ∧ k.length ≤ n then
        ((((S.filter (fun T => ∀ i < n, (W T).getD i 0 = k.getD i 0)).card : Nat) : Int) : PolyVal) * signFactor signs k.sum
      else 0 := by
  obtain ⟨d, hd⟩ : ∃ d, slowDictionary W tabs = d := ⟨_, rfl⟩
  obtain ⟨e, e1, e2, e3⟩ := slow_fold (n := n) (fun ac => (ac.2 : PolyVal) * slowSign signs ac.1) (d.items.filter (fun ac => isPartition (ac.1.map (fun a : Nat => (a : Int)))))
    (d.nodup.sublist (List.filter_sublist.map _)) (fun t ht => by
      rw [List.mem_filter, isPartition_cast] at ht
      obtain ⟨T, hT, hw⟩ := slowDictionary_keys h W t.1 (by rw [hd]; exact Dict.mem_keys_of_items ht.1)
      exact ⟨by rw [← hw]; exact hW T hT, ht.2⟩) Dict.empty (by simp [Dict.keys, Dict.empty])
  refine ⟨mkSym n e, ?_, isSym_mkSym e2, Vec.noZero_mk' _ _, fun k => ?_⟩
  · rw [slowVectorize]
    simp only [hd]
    rw [if_pos (by rw [← hd]; exact slowCheck_spec h hW hsym), e1]
  · refine (Vec.get_mk' _ _ _).trans ?_
    by_cases hk : IsPartition k ∧ k.length ≤ n
    swap
    · rw [if_neg hk]
      exact Dict.getD_of_notMem (fun hc => hk (e2 k hc))
    rw [if_pos hk, e3 k hk.1 hk.2, Dict.getD_empty]
    have hcount : S.filter (fun T => ∀ i < n, (W T).getD i 0 = k.getD i 0) =
        S.filter (fun T => W T = k ++ List.replicate (n - k.length) 0) :=
      Finset.filter_congr (fun T hT => (pad_iff (hW T hT) hk.2).symm)
    rw [hcount]
    have hg := slowDictionary_getD h W (k ++ List.replicate (n - k.length) 0)
    rw [hd] at hg
    have hsf : ∀ u : List Nat, slowSign signs u = signFactor signs u.sum := fun u => by
      rw [slowSign.eq_def, signFactor.eq_def]
      cases signs <;> rfl
    cases hf : (d.items.filter (fun ac => isPartition (ac.1.map (fun a : Nat => (a : Int))))).find?
        (fun t => decide (t.1 = k ++ List.replicate (n - k.length) 0)) with
    | some t =>
      have h1 := List.mem_of_find?_eq_some hf
      have h2 := List.find?_some hf
      rw [decide_eq_true_eq] at h2
      rw [← h2, Dict.getD_of_mem (List.mem_filter.1 h1).1] at hg
      simp only
      rw [hg, hsf, h2, List.sum_append, List.sum_replicate]
      simp
    | none =>
      rw [List.find?_eq_none] at hf
      have h0 : d.getD (k ++ List.replicate (n - k.length) 0) 0 = 0 := by
        refine Dict.getD_of_notMem (fun hc => ?_)
        rw [Dict.keys, List.mem_map] at hc
        obtain ⟨t, ht, hte⟩ := hc
        refine hf t (List.mem_filter.2 ⟨ht, ?_⟩) (by simpa using hte)
        rw [isPartition_cast, hte]
        rw [List.pairwise_append]
        refine ⟨hk.1.1, by simp, fun a _ b hb => ?_⟩
        rw [List.mem_replicate] at hb
        omega
      rw [h0] at hg
      rw [← hg]
      simp

/-- The slow and the fast function agree. -/
theorem slow_eq_fast {tabs : List Tab} {S : Finset Tab} (h : ListsSet tabs S) {n : Nat} {W : Tab → List Nat}
    (hW : ∀ T ∈ S, (W T).length = n)
    (hsym : ∀ u v : List Nat, u.length = n → u.Perm v →
      (S.filter (fun T => W T = u)).card = (S.filter (fun T => W T = v)).card)
    {d : Dict (List Nat) Int} (hkeys : ∀ q ∈ d.keys, q.length ≤ n)
    (hd : ∀ k, (IsPartition k ∧ k.length ≤ n → d.getD k 0 =
      (S.filter (fun T => ∀ i < n, (W T).getD i 0 = k.getD i 0)).card) ∧
      (¬ (IsPartition k ∧ k.length ≤ n) → d.getD k 0 = 0)) (signs : Option PolyVal) :
    ∃ f g, slowVectorize n W tabs signs = some f ∧ vectorize n d signs none = some g ∧ IsSym n f ∧ Vec.NoZero f ∧
      ∀ k, f.get k = g.get k := by
  obtain ⟨f, f1, f2, f3, f4⟩ := slowVectorize_spec h hW hsym signs
  obtain ⟨g, g1, g2, g3, g4⟩ := vectorize_spec (n := n) (d := d) signs none hkeys (fun q hq => (hd q).2 (fun h => hq h.1))
  refine ⟨f, g, f1, g1, f2, f3, fun k => ?_⟩
  rw [f4, g4, if_pos (show within none k.sum from fun b hb => by simp at hb)]
  by_cases hk : IsPartition k ∧ k.length ≤ n
  · rw [if_pos hk, (hd k).1 hk]
  · rw [if_neg hk, (hd k).2 hk]
    simp

end Verif.Symm
