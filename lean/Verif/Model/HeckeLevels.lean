import Verif.Model.PermWords
import Verif.Model.Words

/-! `Permutation.hecke_levels` (permutations.py:500-531) as a resumable generator over the shared dictionary
`HECKE_CACHE` (permutations.py:9).

Simplifications: a level (a python set) is a list without repetitions in the order of insertion; the yielded sets are
shared with the cache, and the model assumes that the caller does not mutate them; `n` is a natural number. -/

namespace Verif.Perm

/-- A level: a set of pairs `(pi, w)`. -/
abbrev Level := List (SPerm × List Nat)

/-- permutations.py:523 `next_level.add(p)`. -/
def Level.add (l : Level) (p : SPerm × List Nat) : Level := if p ∈ l then l else l ++ [p]

/-- permutations.py:522: the test `ascent_bound is None or Word.ascents(v) < ascent_bound`. -/
def ascentOk (ab : Option Int) (v : List Nat) : Bool :=
  match ab with
  | none => true
  | some b => decide (((Words.ascents (v.map (fun a : Nat => (a : Int))) : Nat) : Int) < b)

/-- permutations.py:519: `range(1, n)`. -/
def letters (n : Nat) : List Nat := (List.range (n - 1)).map (· + 1)

/-- permutations.py:515, 517-523: `next_level` computed from `level`. -/
def nextLevel (n : Nat) (ab : Option Int) (level : Level) : Level :=
  level.foldl (fun nl p =>
    (letters n).foldl (fun (nl : Level) i =>
      if ascentOk ab (p.2 ++ [i]) then nl.add (mod p.1 (s i), p.2 ++ [i]) else nl) nl) []

/-- Where the inner generator `generate()` is suspended. -/
inductive Phase where
  /-- not started -/
  | fresh
  /-- in lines 506-507; `rest` is the unread part of the slice -/
  | replay (rest : List Level)
  /-- at the `yield` in line 516 -/
  | loop (level : Level)
  /-- returned -/
  | stopped
  deriving DecidableEq

/-- permutations.py:508-516: from the end of the first loop to the first `yield level` in the `while` loop. -/
def afterSlice (levels : List Level) : Option Level × Phase :=
  let level := match levels.getLast? with
    | some l => l
    | none => [(identity, [])]
  if level ≠ [] then (some level, .loop level) else (none, .stopped)

/-- permutations.py:505-524: resume `generate()`; `levels` is the current value of `HECKE_CACHE[key]`. -/
def pull (n : Nat) (ab : Option Int) (levels : List Level) : Phase → Option Level × Phase
  | .fresh =>
    match levels.dropLast with
    | x :: rest => (some x, .replay rest)
    | [] => afterSlice levels
  | .replay (x :: rest) => (some x, .replay rest)
  | .replay [] => afterSlice levels
  | .loop level =>
    let next := nextLevel n ab level
    if next ≠ [] then (some next, .loop next) else (none, .stopped)
  | .stopped => (none, .stopped)

/-- A generator created by `hecke_levels(n, length_bound, ascent_bound)`: its local variables (`bound` is the current
value of `length_bound`, `index` counts the levels drawn from `generate()`), together with the levels it has yielded. -/
structure LevelGen where
  n : Nat
  ab : Option Int
  bound : Int
  phase : Phase
  index : Nat
  emitted : List Level
  finished : Bool

/-- permutations.py:500-503: create the generator; `length_bound = -1 if length_bound is None else length_bound`. -/
def heckeLevels (n : Nat) (lengthBound : Option Int) (ab : Option Int) : LevelGen :=
  ⟨n, ab, lengthBound.getD (-1), .fresh, 0, [], false⟩

/-- `key = (n, ascent_bound)` (line 503). -/
def LevelGen.key (g : LevelGen) : Nat × Option Int := (g.n, g.ab)

/-- The dictionary `HECKE_CACHE`, a `defaultdict(list)`. -/
abbrev LevelCache := Nat × Option Int → List Level

/-- permutations.py:526-531: one pass of the `for` loop, from resuming `generate()` to the `yield`. -/
def LevelGen.draw (g : LevelGen) (c : LevelCache) : LevelGen × LevelCache :=
  match pull g.n g.ab (c g.key) g.phase with
  | (none, ph) => ({ g with phase := ph, finished := true }, c)
  | (some level, ph) =>
    ({ g with phase := ph, index := g.index + 1, emitted := g.emitted ++ [level] },
      if g.index ≥ (c g.key).length then (fun k => if k = g.key then c g.key ++ [level] else c k) else c)

/-- `next` on a generator: permutations.py:529-531 (unless it has not been started) and then lines 526-528. -/
def LevelGen.next (g : LevelGen) (c : LevelCache) : LevelGen × LevelCache :=
  if g.finished then (g, c)
  else if g.index = 0 then g.draw c
  else if g.bound = 0 then ({ g with finished := true }, c)
  else ({ g with bound := g.bound - 1 }).draw c

/-- One step of a program that uses `hecke_levels`. -/
inductive LevelAction where
  /-- call `Permutation.hecke_levels(n, length_bound, ascent_bound)` -/
  | create (n : Nat) (lengthBound : Option Int) (ab : Option Int)
  /-- call `next` on the `k`-th generator created -/
  | resume (k : Nat)

/-- The interpreter state: the dictionary and all generators created so far. -/
structure LevelWorld where
  cache : LevelCache
  gens : List LevelGen

/-- The effect of one step. -/
def LevelWorld.step (st : LevelWorld) : LevelAction → LevelWorld
  | .create n lb ab => { st with gens := st.gens ++ [heckeLevels n lb ab] }
  | .resume k =>
    match st.gens[k]? with
    | none => st
    | some g => ⟨(g.next st.cache).2, st.gens.set k (g.next st.cache).1⟩

/-- The state after a history of steps, starting from a freshly imported module. -/
def LevelWorld.run (history : List LevelAction) : LevelWorld := history.foldl LevelWorld.step ⟨fun _ => [], []⟩

end Verif.Perm
