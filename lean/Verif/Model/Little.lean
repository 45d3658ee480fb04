import Verif.Model.Bruhat

/-!
# Model of the Little bumps of /repo/permutations.py

`little_push` and `involution_little_push` are the same text with different functions for the value of a word and for the length
of a value, and so are the two bumps with one further argument: the model has these functions as parameters.  The form of
`involution_little_bump` with two further arguments, which runs through `get_atoms`, is in `Verif/Model/LittleAtoms.lean`.
-/

namespace Verif.Perm

/-- The exceptions of the functions below; `running` says that the `while` loop has not stopped in the given number of rounds. -/
inductive LittleError where
  | assertion
  | index
  | exception
  | recursion
  | running
deriving DecidableEq

/-- permutations.py:421, 425, 440, 461, 465 and 480: `word[:i] + word[i + 1:]`. -/
def without (word : List Nat) (i : Nat) : List Nat := word.take i ++ word.drop (i + 1)

/-- permutations.py:458-468 `little_push(word, i)` and 418-427 `involution_little_push(word, i)`, for the value `val` of a word and
the length `ln` of a permutation. -/
def pushWith (val : List Nat → SPerm) (ln : SPerm → Nat) (word : List Nat) (i : Nat) : Except LittleError (List Nat × Option Nat) :=
  match word[i]? with
  | none => .error .index
  | some c =>
    let new := word.take i ++ [c + 1] ++ word.drop (i + 1)
    let v := val (without word i)
    if ln (val new) = new.length then .ok (new, none)
    else
      match (List.range new.length).find? (fun j => decide (i ≠ j) && decide (v = val (without new j))) with
      | some j => .ok (new, some j)
      | none => .error .exception

/-- permutations.py:482-484 and 442-444: the `while` loop, for at most `fuel` rounds. -/
def bumpLoop (val : List Nat → SPerm) (ln : SPerm → Nat) : Nat → List Nat → Nat → Except LittleError (List Nat)
  | 0, _, _ => .error .running
  | fuel + 1, word, i =>
    match pushWith val ln word i with
    | .error e => .error e
    | .ok (new, none) => .ok new
    | .ok (new, some j) => bumpLoop val ln fuel new j

/-- permutations.py:470-485 `little_bump(word, y)` and 430-445 `involution_little_bump(word, y)`. -/
def bumpWith (val : List Nat → SPerm) (ln : SPerm → Nat) (fuel : Nat) (word : List Nat) (y : SPerm) : Except LittleError (List Nat) :=
  if ln (val word) = word.length then
    match (List.range word.length).find? (fun i => decide (val (without word i) = y)) with
    | some i => bumpLoop val ln fuel word i
    | none => .ok word
  else .error .assertion

/-- permutations.py:458-468 `little_push(word, i)`. -/
def littlePush : List Nat → Nat → Except LittleError (List Nat × Option Nat) := pushWith fromWord len

/-- permutations.py:470-485 `little_bump(word, y)`. -/
def littleBump : Nat → List Nat → SPerm → Except LittleError (List Nat) := bumpWith fromWord len

/-- permutations.py:470-474 and 486-492 `little_bump(word, j, k)`. -/
def littleBumpAt (fuel : Nat) (word : List Nat) (j k : Nat) : Except LittleError (List Nat) :=
  let w := fromWord word
  if len w = word.length then
    let t := reflectionT j k
    if (len (mul w t) : Int) ≠ (len w : Int) - 1 then .ok word else littleBump fuel word (mul w t)
  else .error .assertion

/-- permutations.py:101-112 `from_involution_word(word, strict=False)`, which always returns a permutation (C57). -/
def looseInvolution (word : List Nat) : SPerm := (fromInvolutionWord false word).getD identity

/-- permutations.py:418-427 `involution_little_push(word, i)`. -/
def involutionLittlePush : List Nat → Nat → Except LittleError (List Nat × Option Nat) := pushWith looseInvolution involutionLength

/-- permutations.py:430-445 `involution_little_bump(word, y)`. -/
def involutionLittleBump : Nat → List Nat → SPerm → Except LittleError (List Nat) := bumpWith looseInvolution involutionLength

end Verif.Perm
