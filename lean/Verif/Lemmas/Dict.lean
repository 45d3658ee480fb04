import Verif.Model.Dict

/-! Lookup lemmas for the dictionary model. -/

namespace Verif.Dict

variable {K V W : Type*} [DecidableEq K]

theorem lookup_eq_none {k : K} {l : List (K × V)} : lookup k l = none ↔ k ∉ l.map Prod.fst := by
  induction l with
  | nil => simp [lookup]
  | cons a t ih =>
    obtain ⟨k', v'⟩ := a
    by_cases h : k' = k
    · simp [lookup, h]
    · have h' : ¬ k = k' := fun e => h e.symm
      simp [lookup, h, ih, h']

theorem lookup_mem {k : K} {v : V} {l : List (K × V)} (h : lookup k l = some v) : (k, v) ∈ l := by
  induction l with
  | nil => simp [lookup] at h
  | cons a t ih =>
    obtain ⟨k', v'⟩ := a
    by_cases hk : k' = k
    · subst hk
      simp only [lookup, if_true, Option.some.injEq] at h
      simp [h]
    · simp only [lookup, hk, if_false] at h
      exact List.mem_cons_of_mem _ (ih h)

theorem lookup_of_mem {k : K} {v : V} {l : List (K × V)} (hn : (l.map Prod.fst).Nodup)
    (h : (k, v) ∈ l) : lookup k l = some v := by
  induction l with
  | nil => simp at h
  | cons a t ih =>
    obtain ⟨k', v'⟩ := a
    simp only [List.map_cons, List.nodup_cons] at hn
    rcases List.mem_cons.1 h with h | h
    · cases h; simp [lookup]
    · have : k' ≠ k := by
        rintro rfl
        exact hn.1 (List.mem_map.2 ⟨_, h, rfl⟩)
      simp [lookup, this, ih hn.2 h]

theorem get?_eq_some {d : Dict K V} {k : K} {v : V} : d.get? k = some v ↔ (k, v) ∈ d.items :=
  ⟨lookup_mem, lookup_of_mem d.nodup⟩

theorem get?_eq_none {d : Dict K V} {k : K} : d.get? k = none ↔ k ∉ d.keys := lookup_eq_none

theorem mem_keys {d : Dict K V} {k : K} : k ∈ d.keys ↔ ∃ v, d.get? k = some v := by
  rw [← not_iff_not, ← get?_eq_none]
  cases d.get? k <;> simp

theorem contains_iff {d : Dict K V} {k : K} : d.contains k = true ↔ k ∈ d.keys := by
  rw [mem_keys, contains, Option.isSome_iff_exists]

theorem lookup_insertItem (k k' : K) (v : V) (l : List (K × V)) :
    lookup k' (insertItem k v l) = if k = k' then some v else lookup k' l := by
  induction l with
  | nil => simp [insertItem, lookup]
  | cons a t ih =>
    obtain ⟨k0, v0⟩ := a
    by_cases h : k0 = k
    · subst h
      by_cases hk : k0 = k' <;> simp [insertItem, lookup, hk]
    · by_cases hk : k0 = k'
      · subst hk
        have : ¬ k = k0 := fun e => h e.symm
        simp [insertItem, lookup, h, this]
      · simp [insertItem, lookup, h, hk, ih]

@[simp] theorem get?_set (d : Dict K V) (k k' : K) (v : V) :
    (d.set k v).get? k' = if k = k' then some v else d.get? k' := lookup_insertItem ..

@[simp] theorem get?_empty (k : K) : (empty : Dict K V).get? k = none := rfl

@[simp] theorem get?_filter (d : Dict K V) (c : K → V → Bool) (k : K) :
    (d.filter c).get? k = (d.get? k).filter (c k) := by
  cases h : d.get? k with
  | none =>
    simp only [Option.filter]
    rw [get?_eq_none] at h ⊢
    intro hk
    simp only [keys, filter, List.mem_map, List.mem_filter] at hk
    obtain ⟨p, ⟨hp, _⟩, rfl⟩ := hk
    exact h (List.mem_map.2 ⟨p, hp, rfl⟩)
  | some v =>
    rw [get?_eq_some] at h
    cases hc : c k v with
    | true =>
      simp only [Option.filter, hc, if_true]
      rw [get?_eq_some]
      simp [filter, h, hc]
    | false =>
      simp only [Option.filter, hc]
      simp only [Bool.false_eq_true, if_false]
      rw [get?_eq_none]
      intro hk
      simp only [keys, filter, List.mem_map, List.mem_filter] at hk
      obtain ⟨⟨k', v'⟩, ⟨hp, hc'⟩, rfl⟩ := hk
      have := (get?_eq_some.2 hp).symm.trans (get?_eq_some.2 h)
      cases this
      simp [hc] at hc'

@[simp] theorem get?_del (d : Dict K V) (k k' : K) :
    (d.del k).get? k' = if k = k' then none else d.get? k' := by
  rw [del, get?_filter]
  by_cases h : k = k'
  · subst h
    cases d.get? k <;> simp [Option.filter]
  · have : k' ≠ k := fun e => h e.symm
    cases d.get? k' <;> simp [Option.filter, h, this]

theorem lookup_map (f : K → V → W) (k : K) (l : List (K × V)) :
    lookup k (l.map (fun p => (p.1, f p.1 p.2))) = (lookup k l).map (f k) := by
  induction l with
  | nil => simp [lookup]
  | cons a t ih =>
    obtain ⟨k', v'⟩ := a
    by_cases h : k' = k
    · subst h; simp [lookup]
    · simp [lookup, h, ih]

@[simp] theorem get?_mapVal (d : Dict K V) (f : K → V → W) (k : K) :
    (d.mapVal f).get? k = (d.get? k).map (f k) := lookup_map f k d.items

theorem getD_set (d : Dict K V) (k k' : K) (v x : V) :
    (d.set k v).getD k' x = if k = k' then v else d.getD k' x := by
  unfold getD; rw [get?_set]; split <;> simp

theorem getD_del (d : Dict K V) (k k' : K) (x : V) :
    (d.del k).getD k' x = if k = k' then x else d.getD k' x := by
  unfold getD; rw [get?_del]; split <;> simp

@[simp] theorem getD_empty (k : K) (x : V) : (empty : Dict K V).getD k x = x := rfl

theorem getD_of_get? {d : Dict K V} {k : K} {v x : V} (h : d.get? k = some v) : d.getD k x = v := by
  simp [getD, h]

omit [DecidableEq K] in
theorem mem_keys_of_items {d : Dict K V} {p : K × V} (h : p ∈ d.items) : p.1 ∈ d.keys :=
  List.mem_map.2 ⟨p, h, rfl⟩

theorem getD_of_mem {d : Dict K V} {p : K × V} {x : V} (h : p ∈ d.items) : d.getD p.1 x = p.2 :=
  getD_of_get? (get?_eq_some.2 h)

theorem getD_of_notMem {d : Dict K V} {k : K} {x : V} (h : k ∉ d.keys) : d.getD k x = x := by
  simp [getD, get?_eq_none.2 h]

theorem items_eq_map (d : Dict K V) (x : V) :
    d.items = d.keys.map (fun k => (k, d.getD k x)) := by
  unfold keys
  rw [List.map_map]
  conv_lhs => rw [← List.map_id d.items]
  apply List.map_congr_left
  intro p hp
  simp only [id, Function.comp_apply]
  rw [getD_of_mem hp]

end Verif.Dict
