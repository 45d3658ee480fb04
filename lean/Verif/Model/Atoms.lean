import Verif.Model.Involutions
import Mathlib.Data.List.Sort
import Mathlib.Data.List.Dedup

/-!
# Model of the atoms of an involution in /repo/permutations.py

A set of tuples is a list without repetitions; the order in which a set is run through is not modelled, and neither are the
dictionaries `atoms_b_cache` and `INVOLUTION_WORDS`, in which `get_atoms` and `get_involution_words` keep their results.
-/

namespace Verif.Perm

/-- permutations.py:808-810 `fix`. -/
def fixes (w : SPerm) : List (Int × Int) :=
  ((List.range w.rank).filter (fun k : Nat => w.call ((k : Int) + 1) = (k : Int) + 1)).map
    (fun k : Nat => ((k : Int) + 1, (k : Int) + 1))

/-- The order of pairs of integers. -/
def pairLe (p q : Int × Int) : Bool := p.1 < q.1 || p.1 == q.1 && p.2 ≤ q.2

/-- permutations.py:812-813 `cyc`. -/
def cyc (w : SPerm) : List (Int × Int) := (pairs w ++ negations w ++ fixes w).insertionSort (fun p q => pairLe p q = true)

/-- permutations.py:980-984: the loop over `tup`, with the list `minimum` so far. -/
def dropRepeats (l : List Int) : List Int :=
  l.foldl (fun minimum i => if minimum.getLast? = some i then minimum else minimum ++ [i]) []

/-- permutations.py:978-985 `_min_inv_atom_oneline`. -/
def minInvAtomOneline (w : SPerm) : List Int := dropRepeats ((cyc w).flatMap (fun p => [p.2, p.1]))

/-- permutations.py:987-989 `get_min_atom`. -/
def getMinAtom? (w : SPerm) : Except Raised SPerm :=
  if w = inverse w then
    match construct (minInvAtomOneline w) with
    | some u => .ok (inverse u)
    | none => .error .assertion
  else .error .assertion

/-- permutations.py:1016-1018 `involution`; the result `none` is `None`. -/
def lineInvolution (oneline : List Int) : Except Raised (Option SPerm) :=
  match construct oneline with
  | some u => .ok (fromInvolutionWord true (getReducedWord u).reverse)
  | none => .error .assertion

/-- permutations.py:1023-1027: the tuples of the first loop of `next`. -/
def nextTriples (oneline : List Int) : List (List Int) :=
  (List.range (oneline.length - 2)).filterMap (fun i =>
    let c := oneline.getD i 0
    let a := oneline.getD (i + 1) 0
    let b := oneline.getD (i + 2) 0
    if a < b ∧ b < c then some (oneline.take i ++ [b, c, a] ++ oneline.drop (i + 3)) else none)

/-- permutations.py:1028-1035: one round of the second loop of `next`.  `if z` is false for the identity, of length 0. -/
def nextPair (oneline : List Int) (y : SPerm) (i : Nat) : Except Raised (List (List Int)) :=
  let b := -oneline.getD i 0
  let a := -oneline.getD (i + 1) 0
  if 0 < a ∧ a < b ∧ some b = ((oneline.take (i + 1)).map (fun v => (v.natAbs : Int))).min? then
    let newline := oneline.take i ++ [a, -b] ++ oneline.drop (i + 2)
    match lineInvolution newline with
    | .error e => .error e
    | .ok (some z) => .ok (if len z ≠ 0 ∧ y = z then [newline] else [])
    | .ok none => .ok []
  else .ok []

/-- permutations.py:1020-1035 `next`. -/
def nextAtoms (oneline : List Int) : Except Raised (List (List Int)) :=
  match lineInvolution oneline with
  | .error e => .error e
  | .ok none => .error .assertion
  | .ok (some y) => do
    let rest ← (List.range (oneline.length - 1)).mapM (nextPair oneline y)
    .ok (nextTriples oneline ++ rest.flatten)

/-- permutations.py:1039-1042: the `while` loop with the set `add`, for at most `fuel` rounds; the tuples `w` whose inverses are
yielded. -/
def atomLevels : Nat → List (List Int) → Except Raised (List (List Int))
  | 0, _ => .error .recursion
  | fuel + 1, add =>
    if add = [] then .ok []
    else do
      let new ← add.mapM nextAtoms
      let rest ← atomLevels fuel new.flatten.dedup
      .ok (add ++ rest)

/-- permutations.py:1041 `Permutation(*w).inverse()`. -/
def lineInverse (l : List Int) : Except Raised SPerm :=
  match construct l with
  | some u => .ok (inverse u)
  | none => .error .assertion

/-- permutations.py:1008-1042 `get_atoms` and `_get_atoms`. -/
def getAtoms (fuel : Nat) (w : SPerm) : Except Raised (List SPerm) :=
  if w = inverse w then do
    let lines ← atomLevels fuel [minInvAtomOneline w]
    lines.mapM lineInverse
  else .error .assertion

/-- permutations.py:750-763 `get_involution_words`, where `words x` lists what `x.get_reduced_words()` yields. -/
def getInvolutionWords (words : SPerm → List (List Nat)) (fuel : Nat) (w : SPerm) : Except Raised (List (List Nat)) := do
  let atoms ← getAtoms fuel w
  .ok (atoms.flatMap words)

end Verif.Perm
