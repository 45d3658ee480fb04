import Verif.Model.PermMore
import Verif.Model.Partitions

/-!
# Model of the generators of permutations and involutions in /repo/permutations.py

The result of a generator is the list of the values it yields.  `none` stands for a failed assertion or an IndexError.
Loops without a bound carry fuel, and exhausted fuel is `none` as well.
-/

namespace Verif.Perm

open Verif.Partition (combinations)

/-- `itertools.permutations(l)`, for lists of length `k`: the first entry is the first, second, ... entry of `l`, followed
by the permutations of the other entries. -/
def itPermsAux : Nat → List Int → List (List Int)
  | 0, _ => [[]]
  | k + 1, l => (List.range l.length).flatMap (fun i => (itPermsAux k (l.eraseIdx i)).map (fun r => l.getD i 0 :: r))

/-- `itertools.permutations(l)`. -/
def itPermutations (l : List Int) : List (List Int) := itPermsAux l.length l

/-- permutations.py:138-142: `oneline` at the end of the loop for the remaining entries and the current value `v`. -/
def signLine : Nat → List Int → List Int
  | _, [] => []
  | v, a :: args => a * (-1) ^ (v % 2) :: signLine (v / 2) args

/-- permutations.py:131-143 `all(n, signed)`. -/
def allPerms? (n : Nat) (signed : Bool) : Option (List SPerm) :=
  ((itPermutations (caller n)).flatMap (fun args =>
    if signed then (List.range (2 ^ n)).map (fun v => signLine v args) else [args])).mapM construct

/-- permutations.py:150-155: the loop of `create` with current values `numbers` and `w`. -/
def createLoop : List Nat → List Nat → SPerm → Option SPerm
  | [], _, w => some w
  | d :: delta, numbers, w => do
    let a ← numbers[0]?
    let b ← numbers[d]?
    let t ← reflectionT? a b
    createLoop delta ((numbers.take d).drop 1 ++ numbers.drop (d + 1)) (mul w t)

/-- permutations.py:166-168: the values `newdelta` for a given `delta`, in order. -/
def newDeltas (delta : List Nat) : List (List Nat) :=
  (List.range delta.length).filterMap (fun i =>
    if delta.getD i 0 > 1 then some (delta.take i ++ [delta.getD i 0 - 1] ++ delta.drop (i + 1)) else none)

/-- permutations.py:169-171: `newdelta` is put into the queue if it has not been seen. -/
def enqueue (st : List (List Nat) × List (List Nat)) (newdelta : List Nat) : List (List Nat) × List (List Nat) :=
  if newdelta ∈ st.2 then st else (st.1 ++ [newdelta], newdelta :: st.2)

/-- permutations.py:162-171: the values of `delta` for which `create` is called, given `queue` and `seen`. -/
def deltaLoop : Nat → List (List Nat) → List (List Nat) → Option (List (List Nat))
  | 0, _, _ => none
  | _ + 1, [], _ => some []
  | fuel + 1, delta :: queue, seen =>
    let st := (newDeltas delta).foldl enqueue (queue, seen)
    (deltaLoop fuel st.1 st.2).map (fun ds => delta :: ds)

/-- permutations.py:161: `tuple(range(m - 1, 0, -2))`. -/
def topDelta : Nat → List Nat
  | 0 => []
  | 1 => []
  | m + 2 => (m + 1) :: topDelta m

/-- permutations.py:158-171: what is yielded for one value of `fixed`, of length `k`. -/
def involutionsFixing? (fuel n k : Nat) (fixed : List Nat) : Option (List SPerm) := do
  let numbers := ((List.range n).map (· + 1)).filter (fun i => i ∉ fixed)
  let ds ← deltaLoop fuel [topDelta (n - k)] []
  ds.mapM (fun delta => createLoop delta numbers identity)

/-- permutations.py:157: `[0] if fpf else range(n, -1, -2)`. -/
def fixedCounts (n : Nat) (fpf : Bool) : List Nat :=
  if fpf then [0] else ((List.range (n + 1)).filter (fun k => (n - k) % 2 = 0)).reverse

/-- permutations.py:156-171: the generator `involutions` without signs. -/
def unsignedInvolutions? (fuel n : Nat) (fpf : Bool) : Option (List SPerm) := do
  let parts ← ((fixedCounts n fpf).flatMap (fun k =>
    (combinations ((List.range n).map (· + 1)) k).map (fun fixed => (k, fixed)))).mapM
      (fun p => involutionsFixing? fuel n p.1 p.2)
  some parts.flatten

/-- permutations.py:178-180: the loop over `conjugators`. -/
def conjugateLoop : List Nat → SPerm → Option SPerm
  | [], v => some v
  | i :: conjugators, v => do
    let s ← reflectionS? i i
    conjugateLoop conjugators (if v.call i = i then mul v s else mul (mul s v) s)

/-- permutations.py:173-181: what is yielded for one value of `w`. -/
def signedInvolutionsOver? (n : Nat) (w : SPerm) : Option (List SPerm) :=
  let a := ((List.range n).map (· + 1)).filter (fun i : Nat => (i : Int) ≤ w.call i)
  ((List.range (a.length + 1)).flatMap (fun k => combinations a k)).mapM (fun conjugators => conjugateLoop conjugators w)

/-- permutations.py:144-181 `involutions(n, signed, fpf)`. -/
def involutions? (fuel n : Nat) (signed fpf : Bool) : Option (List SPerm) :=
  if n % 2 ≠ 0 ∧ fpf then some []
  else if signed then do
    let ws ← unsignedInvolutions? fuel n false
    let parts ← ws.mapM (signedInvolutionsOver? n)
    some parts.flatten
  else unsignedInvolutions? fuel n fpf

/-- permutations.py:412-415 `minfpf(n)`. -/
def minfpf? (n : Nat) : Option SPerm :=
  if n % 2 = 0 then construct ((caller n).map (fun i => i + (if i % 2 ≠ 0 then 1 else -1))) else none

/-- permutations.py:191-196: the next value of `crop`, before repetitions are removed. -/
def nextCrop (n : Nat) (crop : List SPerm) : List SPerm :=
  crop.flatMap (fun z => ((List.range n).filter (fun i : Nat => 1 ≤ i ∧ z.call i < z.call ((i : Int) + 1))).map
    (fun i => mul (mul (s i) z) (s i)))

/-- permutations.py:188-196: the loop.  `crop` is a set; `ord` gives the order in which a set with these elements is
listed. -/
def cropLoop (ord : List SPerm → List SPerm) (n : Nat) : Nat → List SPerm → Option (List SPerm)
  | 0, _ => none
  | fuel + 1, crop => if crop = [] then some [] else
    (cropLoop ord n fuel (ord (nextCrop n crop).dedup)).map (fun r => crop ++ r)

/-- permutations.py:183-196 `fpf_involutions(n)`. -/
def fpfInvolutions? (ord : List SPerm → List SPerm) (fuel n : Nat) : Option (List SPerm) :=
  if n % 2 ≠ 0 then some [] else (minfpf? n).bind (fun z => cropLoop ord n fuel [z])

end Verif.Perm
