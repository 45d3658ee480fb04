import Verif.Model.Permutations

/-! Reduced words and the Demazure product of signed permutations: permutations.py (690-696, 730-744, 878-888).

Recursive methods carry a bound on the recursion depth; `none` (or `Gen.fail`) means that the bound was exceeded. -/

namespace Verif.Perm

/-- permutations.py:690-696 `get_reduced_word`, with recursion depth at most `fuel`. -/
def getReducedWord? : Nat → SPerm → Option (List Nat)
  | 0, _ => none
  | fuel + 1, w =>
    match (leftDescents w).min? with
    | some i => (getReducedWord? fuel (mul (s i) w)).map (fun r => i :: r)
    | none => some []

/-- The value of `w.get_reduced_word()`. -/
def getReducedWord (w : SPerm) : List Nat := (getReducedWord? (len w + 1) w).getD []

/-- permutations.py:878-888 `__mod__`, with recursion depth at most `fuel`.  `next(iter(other.left_descent_set))` in the
call at depth `fuel` returns `ch fuel S`, where `S` lists the set; `ch` stands for the iteration order of sets. -/
def mod? (ch : Nat → List Nat → Nat) : Nat → SPerm → SPerm → Option SPerm
  | 0, _, _ => none
  | fuel + 1, u, v =>
    if leftDescents v ≠ [] then
      let i := ch fuel (leftDescents v)
      if i ∈ rightDescents u then mod? ch fuel u (mul (s i) v)
      else mod? ch fuel (mul u (s i)) (mul (s i) v)
    else some u

/-- An iteration order of sets: `next(iter(S))` is an element of `S`. -/
def IsChoice (ch : Nat → List Nat → Nat) : Prop := ∀ t S, S ≠ [] → ch t S ∈ S

/-- The iteration order that returns the first listed element. -/
def firstChoice : Nat → List Nat → Nat := fun _ S => S.headD 0

/-- The value of `u % v` (for one iteration order; `C36_choice` shows that all of them agree). -/
def mod (u v : SPerm) : SPerm := (mod? firstChoice (len v + 1) u v).getD identity

/-- A suspended generator over words that reads and writes the dictionary `SIGNED_REDUCED_WORDS`: it is finished, or
yields a word, or looks a key up (`none`: the key is absent), or stores a value, or has exceeded the recursion limit. -/
inductive Gen where
  | done : Gen
  | yield : List Nat → Gen → Gen
  | lookup : List Int → (Option (List (List Nat)) → Gen) → Gen
  | store : List Int → List (List Nat) → Gen → Gen
  | fail : Gen

/-- `words.add(word)` for a set given as a list without repetitions. -/
def addWord (words : List (List Nat)) (word : List Nat) : List (List Nat) :=
  if word ∈ words then words else words ++ [word]

/-- permutations.py:737-740: `for e in g: word = e + (i,); yield word; words.add(word)`, and then `k words`. -/
def Gen.collect (i : Nat) (k : List (List Nat) → Gen) : Gen → List (List Nat) → Gen
  | .done, words => k words
  | .yield e g, words => .yield (e ++ [i]) (Gen.collect i k g (addWord words (e ++ [i])))
  | .lookup key h, words => .lookup key (fun r => Gen.collect i k (h r) words)
  | .store key v g, words => .store key v (Gen.collect i k g words)
  | .fail, _ => .fail

/-- permutations.py:742-744: `for word in L: yield word`. -/
def Gen.yieldAll : List (List Nat) → Gen
  | [] => .done
  | x :: l => .yield x (Gen.yieldAll l)

/-- permutations.py:735-740: the loop `for i in w.right_descent_set` over the remaining descents, where `gen` creates the
generators for the shorter permutations, followed by line 741. -/
def wordsLoop (gen : SPerm → Gen) (w : SPerm) : List Nat → List (List Nat) → Gen
  | [], words => .store w.oneline words .done
  | i :: ds, words => Gen.collect i (fun words => wordsLoop gen w ds words) (gen (mul w (s i))) words

/-- permutations.py:730-744 `get_reduced_words`, with recursion depth at most `fuel`.  `ord w` is the order in which the
set `w.right_descent_set` is iterated over. -/
def reducedWordsGen (ord : SPerm → List Nat) : Nat → SPerm → Gen
  | 0, _ => .fail
  | fuel + 1, w => .lookup w.oneline (fun r =>
      match r with
      | none => wordsLoop (reducedWordsGen ord fuel) w (ord w) []
      | some L => Gen.yieldAll L)

/-- The dictionary `SIGNED_REDUCED_WORDS`. -/
abbrev WordCache := List Int → Option (List (List Nat))

/-- permutations.py:16 the initial contents of `SIGNED_REDUCED_WORDS`: `{(): {()}}`. -/
def initialCache : WordCache := fun key => if key = [] then some [[]] else none

/-- `next(g)`: run the generator until it yields a word (`some (some word)`), is exhausted (`some none`), or fails
(`none`).  Returns what is left of the generator and the new dictionary. -/
def Gen.next : Gen → WordCache → Option (Option (List Nat)) × Gen × WordCache
  | .done, c => (some none, .done, c)
  | .yield x g, c => (some (some x), g, c)
  | .lookup key h, c => Gen.next (h (c key)) c
  | .store key v g, c => Gen.next g (fun key' => if key = key' then some v else c key')
  | .fail, c => (none, .fail, c)

/-- A generator created by `w.get_reduced_words()`, with the words it has yielded so far and whether it is exhausted. -/
structure LiveGen where
  perm : SPerm
  rest : Gen
  emitted : List (List Nat)
  finished : Bool
  failed : Bool

/-- The interpreter state: the dictionary and all generators created so far. -/
structure WordWorld where
  cache : WordCache
  gens : List LiveGen

/-- One step of a program that uses `get_reduced_words`. -/
inductive WordAction where
  /-- call `w.get_reduced_words()` -/
  | create (w : SPerm)
  /-- call `next` on the `k`-th generator created (a generator is abandoned when no further such step occurs) -/
  | resume (k : Nat)

/-- The effect of one step. -/
def WordWorld.step (ord : SPerm → List Nat) (st : WordWorld) : WordAction → WordWorld
  | .create w =>
    { st with gens := st.gens ++ [⟨w, reducedWordsGen ord (len w + 1) w, [], false, false⟩] }
  | .resume k =>
    match st.gens[k]? with
    | none => st
    | some g =>
      let (out, rest, c) := g.rest.next st.cache
      let g' : LiveGen :=
        match out with
        | some (some x) => { g with rest := rest, emitted := g.emitted ++ [x] }
        | some none => { g with rest := rest, finished := true }
        | none => { g with rest := rest, failed := true }
      ⟨c, st.gens.set k g'⟩

/-- The state after a history of steps, starting from a freshly imported module. -/
def WordWorld.run (ord : SPerm → List Nat) (history : List WordAction) : WordWorld :=
  history.foldl (WordWorld.step ord) ⟨initialCache, []⟩

end Verif.Perm
