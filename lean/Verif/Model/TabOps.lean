import Verif.Model.Tableau

/-!
# Model of further methods of `Tableau` (tableaux.py)

A failing assertion or a python exception is `none`.
-/

namespace Verif.Tab

/-- tableaux.py:423-424 `max_row()`. -/
def maxRow (T : Tab) : Nat := T.items.foldl (fun m p => max m p.1.1) 0

/-- tableaux.py:426-427 `max_column()`. -/
def maxColumn (T : Tab) : Nat := T.items.foldl (fun m p => max m p.1.2) 0

/-- tableaux.py:118-119 `__contains__`. -/
def has (T : Tab) (b : Nat × Nat) : Bool := (T.get? b).isSome

/-- tableaux.py:340-344 `get(i, j)` where the value is used as an int.  `none` stands for the python value None of a
missing box and for a box that does not contain exactly one value (python: a tuple); comparing them with an int raises. -/
def entry (T : Tab) (b : Nat × Nat) : Option Int :=
  match T.get? b with
  | some [v] => some v
  | _ => none

/-- tableaux.py:340-344 `get(i, j, default)` where the value is used as an int. -/
def entryD (T : Tab) (b : Nat × Nat) (default : Int) : Option Int :=
  match T.get? b with
  | some [v] => some v
  | some _ => none
  | none => some default

/-- tableaux.py:361-366 `remove(i, j)`. -/
def remove? (T : Tab) (b : Nat × Nat) : Option Tab := if T.has b then some (T.del b) else none

/-- tableaux.py:386-390 `replace(i, j, v)`. -/
def replace? (T : Tab) (b : Nat × Nat) (v : Int) : Option Tab := if T.has b then some (T.set b [v]) else none

/-- tableaux.py:398-402 `values()`, listed with repetitions. -/
def values (T : Tab) : List Int := T.items.flatMap Prod.snd

/-- tableaux.py:404-408 `last()`.  `max(abs(min(v)), abs(max(v)))` is the largest absolute value. -/
def last (T : Tab) : Option Int :=
  let v := T.values
  let n : Int := ((v.foldl (fun m x => max m x.natAbs) 0 : Nat) : Int)
  if n ∈ v ∧ -n ∈ v then none
  else some (if n ∈ v then n else -n)

/-- tableaux.py:337-338 `find(v)`. -/
def find (T : Tab) (v : Int) : List (Nat × Nat) := (T.items.filter (fun p => decide (v ∈ p.2))).map Prod.fst

/-- tableaux.py:410-421 `pop()`: the new tableau and the record `(i, j, value)` (the value as a tuple). -/
def pop (T : Tab) : Option (Tab × (Nat × Nat) × List Int) :=
  match T.last with
  | none => none
  | some n =>
    match T.find n with
    | [b] =>
      let v := (T.get? b).getD []
      if v = [n] ∨ v = [-n] then some (T.del b, b, v)
      else some ((T.del b).set b (sortInts (v.dedup.filter (fun x => decide (x ≠ n ∧ x ≠ -n)))), b, v)
    | _ => none

/-- tableaux.py:125-126 `len(T)`: the number of entries. -/
def len (T : Tab) : Nat := T.values.length

/-- tableaux.py:304-308 `apply(function)`. -/
def apply (T : Tab) (g : Int → Int) : Tab :=
  ⟨T.items.map (fun p => (p.1, sortInts (p.2.map g))), by
    have : (T.items.map (fun p => (p.1, sortInts (p.2.map g)))).map Prod.fst = T.items.map Prod.fst := by simp
    rw [this]; exact T.sorted⟩

/-- `apply(function)` for a function that may raise. -/
def apply? (T : Tab) (g : Int → Option Int) : Option Tab :=
  if T.values.all (fun x => (g x).isSome) then some (T.apply (fun x => (g x).getD 0)) else none

/-- tableaux.py:170-171 `transpose()`. -/
def transpose (T : Tab) : Tab := T.items.foldl (fun U p => U.set (p.1.2, p.1.1) p.2) empty

/-- tableaux.py:176: the sorting key of an entry `v` in box `(i, j)`. -/
def stdKey (e : Int × Nat × Nat) : Int × Nat :=
  if e.1 < 0 then (-2 * e.1 - 1, e.2.1) else (2 * e.1, e.2.2)

/-- Python's order on the keys (pairs). -/
def stdLe (e e' : Int × Nat × Nat) : Bool :=
  decide ((stdKey e).1 < (stdKey e').1 ∨ ((stdKey e).1 = (stdKey e').1 ∧ (stdKey e).2 ≤ (stdKey e').2))

/-- tableaux.py:174-177: `entries`, sorted (python's sort is stable, as is `insertionSort`). -/
def stdEntries (T : Tab) : List (Int × Nat × Nat) :=
  (T.items.flatMap (fun p => p.2.map (fun v => (v, p.1)))).insertionSort (fun e e' => stdLe e e' = true)

/-- tableaux.py:179-181: the loop, with the entries numbered from `a`. -/
def stdLoop : Nat → List (Int × Nat × Nat) → Tab → Tab
  | _, [], ans => ans
  | a, e :: es, ans => stdLoop (a + 1) es (ans.add e.2 (if e.1 > 0 then (a : Int) + 1 else -(a : Int) - 1))

/-- tableaux.py:173-182 `standardize()`. -/
def standardize (T : Tab) : Tab := stdLoop 0 T.stdEntries empty

end Verif.Tab
