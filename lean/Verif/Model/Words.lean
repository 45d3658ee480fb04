import Verif.Model.Dict
import Mathlib.Algebra.Ring.Int.Defs

/-!
# Model of parts of /repo/words.py

Words are tuples of ints, here `List Int`.
-/

namespace Verif.Words

/-- words.py:140 (and 172): the letters `i`, `i + 1` of `w` with their positions, positions counted from `j`. -/
def signature (i : Int) : Nat → List Int → List (Nat × Int)
  | _, [] => []
  | j, a :: w => if a = i ∨ a = i + 1 then (j, a) :: signature i (j + 1) w else signature i (j + 1) w

/-- words.py:144-149 (and 176-181): the `for` loop removes the first adjacent pair whose left letter is larger. -/
def cancelOnce {α : Type} : List (α × Int) → List (α × Int)
  | p :: q :: s => if p.2 > q.2 then s else p :: cancelOnce (q :: s)
  | s => s

/-- words.py:141-149 (and 173-181): the `while` loop, repeated until the length does not drop any more. -/
def cancel {α : Type} (s : List (α × Int)) : List (α × Int) :=
  let s' := cancelOnce s
  if s'.length < s.length then cancel s' else s'
termination_by s.length

/-- words.py:134-164 `f_crystal_operator(i, w)` for one word `w` (L140-155); `none` is the python None.  The
assertion of L154 is not modelled as a branch: that it never fails is `C14_one_letter`. -/
def f (i : Int) (w : List Int) : Option (List Int) :=
  let s := (cancel (signature i 0 w)).filter (fun p => decide (p.2 = i))
  match s.getLast? with
  | none => none
  | some (j, _) => some (w.take j ++ [i + 1] ++ w.drop (j + 1))

/-- words.py:166-196 `e_crystal_operator(i, w)` for one word (L172-187). -/
def e (i : Int) (w : List Int) : Option (List Int) :=
  let s := (cancel (signature i 0 w)).filter (fun p => decide (p.2 = i + 1))
  match s.head? with
  | none => none
  | some (j, _) => some (w.take j ++ [i] ++ w.drop (j + 1))

/-- words.py:160-164 (and 192-196): cut the result at the places where the arguments were joined. -/
def recut : List (List Int) → List Int → List (List Int)
  | [], _ => []
  | a :: args, w => w.take a.length :: recut args (w.drop a.length)

/-- words.py:134-164 with several arguments (or `unpack=False`): join (L136-138), apply, cut. -/
def fArgs (i : Int) (args : List (List Int)) : Option (List (List Int)) := (f i args.flatten).map (recut args)

/-- words.py:166-196 with several arguments (or `unpack=False`). -/
def eArgs (i : Int) (args : List (List Int)) : Option (List (List Int)) := (e i args.flatten).map (recut args)

/-- `n` successive calls of an operator, stopping at None. -/
def iter (g : List Int → Option (List Int)) : Nat → List Int → Option (List Int)
  | 0, w => some w
  | n + 1, w => (g w).bind (iter g n)

/-- The test `all(word[i] R word[i + 1] for i in range(len(word) - 1))` used in words.py:211-225. -/
def allAdjacent (r : Int → Int → Bool) (w : List Int) : Bool :=
  (List.range (w.length - 1)).all (fun i => r (w.getD i 0) (w.getD (i + 1) 0))

/-- words.py:211-213 `increasing_zeta`. -/
def increasingZeta (w : List Int) : Int := if allAdjacent (fun a b => decide (a < b)) w then 1 else 0

/-- words.py:215-217 `decreasing_zeta`. -/
def decreasingZeta (w : List Int) : Int := if allAdjacent (fun a b => decide (a > b)) w then 1 else 0

/-- words.py:219-221 `weakly_increasing_zeta`. -/
def weaklyIncreasingZeta (w : List Int) : Int := if allAdjacent (fun a b => decide (a ≤ b)) w then 1 else 0

/-- words.py:223-225 `weakly_decreasing_zeta`. -/
def weaklyDecreasingZeta (w : List Int) : Int := if allAdjacent (fun a b => decide (a ≥ b)) w then 1 else 0

/-- words.py:227-229 `unimodal_zeta`. -/
def unimodalZeta (w : List Int) : Int :=
  ((List.range (w.length + 1)).map (fun i => decreasingZeta (w.take i) * increasingZeta (w.drop i))).sum

/-- words.py:231-233 `right_weakly_unimodal_zeta`. -/
def rightWeaklyUnimodalZeta (w : List Int) : Int :=
  ((List.range (w.length + 1)).map (fun i => decreasingZeta (w.take i) * weaklyIncreasingZeta (w.drop i))).sum

/-- words.py:235-237 `left_weakly_unimodal_zeta`. -/
def leftWeaklyUnimodalZeta (w : List Int) : Int :=
  ((List.range (w.length + 1)).map (fun i => weaklyDecreasingZeta (w.take i) * increasingZeta (w.drop i))).sum

/-- words.py:239-241 `weakly_unimodal_zeta`. -/
def weaklyUnimodalZeta (w : List Int) : Int :=
  ((List.range (w.length + 1)).map
    (fun i => weaklyDecreasingZeta (w.take i) * weaklyIncreasingZeta (w.drop i))).sum

/-- words.py:254 `ans[(i,) + k] += z * v` on a `defaultdict(int)`. -/
def qstep (i : Nat) (z : Int) (ans : Dict (List Nat) Int) (kv : List Nat × Int) : Dict (List Nat) Int :=
  ans.set (i :: kv.1) (ans.getD (i :: kv.1) 0 + z * kv.2)

/-- words.py:243-256 `quasisymmetrize(word, zeta)`; the result is the dict of the returned `Vector`.  The loop
variable `i` of L248 runs over `n + 1` for `n` in `range(len(word))`. -/
def quasisymmetrize (zeta : List Int → Int) (word : List Int) : Dict (List Nat) Int :=
  if h : word.length = 0 then Dict.empty.set [] 1
  else
    ((List.range word.length).foldl (fun ans n =>
        let z := zeta (word.take (n + 1))
        if z ≠ 0 then
          (quasisymmetrize zeta (word.drop (n + 1))).items.foldl (qstep (n + 1) z) ans
        else ans) Dict.empty).filter (fun _ v => decide (v ≠ 0))
termination_by word.length
decreasing_by simp; omega

/-- words.py:198-200 `descent_set`. -/
def descentSet (v : List Int) : List Nat :=
  ((List.range (v.length - 1)).filter (fun i => decide (v.getD i 0 > v.getD (i + 1) 0))).map (· + 1)

/-- words.py:202-204 `ascents`. -/
def ascents (v : List Int) : Nat :=
  ((List.range (v.length - 1)).filter (fun i => decide (v.getD i 0 ≤ v.getD (i + 1) 0))).length

end Verif.Words
