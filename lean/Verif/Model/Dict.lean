import Mathlib.Data.List.Nodup
import Mathlib.Data.List.Dedup

/-!
# Python dictionaries

A python `dict` keeps its items in insertion order and never holds a key twice.  The model is an association
list together with the fact that the keys are distinct.  `get?`, `set`, `del` are `d.get(k)`, `d[k] = v` and
`del d[k]`.  Used for every `dict` and `defaultdict` of the code (polynomials.py, vectors.py, symmetric.py, ...).
-/

namespace Verif

/-- A python dict: items in insertion order, keys distinct. -/
structure Dict (K : Type*) (V : Type*) where
  items : List (K × V)
  nodup : (items.map Prod.fst).Nodup
deriving DecidableEq

namespace Dict

variable {K V W : Type*}

/-- `d.keys()` in iteration order. -/
def keys (d : Dict K V) : List K := d.items.map Prod.fst

/-- `d.values()` in iteration order. -/
def values (d : Dict K V) : List V := d.items.map Prod.snd

/-- `{}`. -/
def empty : Dict K V := ⟨[], by simp⟩

/-- `len(d)`. -/
def len (d : Dict K V) : Nat := d.items.length

variable [DecidableEq K]

/-- Lookup in a list of items. -/
def lookup (k : K) : List (K × V) → Option V
  | [] => none
  | (k', v) :: t => if k' = k then some v else lookup k t

/-- Assignment in a list of items: replace in place, or append at the end. -/
def insertItem (k : K) (v : V) : List (K × V) → List (K × V)
  | [] => [(k, v)]
  | (k', v') :: t => if k' = k then (k', v) :: t else (k', v') :: insertItem k v t

/-- `d.get(k)`: `none` when the key is absent. -/
def get? (d : Dict K V) (k : K) : Option V := lookup k d.items

/-- `d.get(k, default)`. -/
def getD (d : Dict K V) (k : K) (default : V) : V := (d.get? k).getD default

/-- `k in d`. -/
def contains (d : Dict K V) (k : K) : Bool := (d.get? k).isSome

theorem insertItem_keys (k : K) (v : V) (l : List (K × V)) :
    (insertItem k v l).map Prod.fst =
      if k ∈ l.map Prod.fst then l.map Prod.fst else l.map Prod.fst ++ [k] := by
  induction l with
  | nil => simp [insertItem]
  | cons a t ih =>
    obtain ⟨k', v'⟩ := a
    by_cases h : k' = k
    · simp [insertItem, h]
    · have h' : ¬ k = k' := fun e => h e.symm
      simp only [insertItem, h, if_false, List.map_cons, ih, List.mem_cons, h', false_or]
      split <;> simp

/-- `d[k] = v`. -/
def set (d : Dict K V) (k : K) (v : V) : Dict K V :=
  ⟨insertItem k v d.items, by
    rw [insertItem_keys]
    split
    · exact d.nodup
    · rename_i h
      rw [List.nodup_append]
      refine ⟨d.nodup, by simp, ?_⟩
      intro a ha b hb
      simp only [List.mem_singleton] at hb
      subst hb
      rintro rfl
      exact h ha⟩

/-- `{k: v for k, v in d.items() if c(k, v)}`. -/
def filter (d : Dict K V) (c : K → V → Bool) : Dict K V :=
  ⟨d.items.filter (fun p => c p.1 p.2), d.nodup.sublist ((List.filter_sublist).map _)⟩

/-- `del d[k]` (the code only deletes keys that are present). -/
def del (d : Dict K V) (k : K) : Dict K V := d.filter (fun k' _ => decide (k' ≠ k))

/-- `{k: f(k, v) for k, v in d.items()}`. -/
def mapVal (d : Dict K V) (f : K → V → W) : Dict K W :=
  ⟨d.items.map (fun p => (p.1, f p.1 p.2)), by
    have : (d.items.map (fun p => (p.1, f p.1 p.2))).map Prod.fst = d.items.map Prod.fst := by simp
    rw [this]; exact d.nodup⟩

/-- `dict` built by assigning the given items one after the other: `{k: v for (k, v) in l}`. -/
def ofList (l : List (K × V)) : Dict K V := l.foldl (fun d p => d.set p.1 p.2) empty

end Dict
end Verif
