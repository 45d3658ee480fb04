import Verif.Model.PermMore
import Verif.Model.PartitionsMore

/-!
# Model of Rothe diagrams, codes and Grassmannian permutations in /repo/permutations.py

`none` is an AssertionError, unless stated otherwise.
-/

namespace Verif.Perm

open Verif.Partition

/-- The order of python's tuples `(i, j)`. -/
def boxLe (a b : Int × Int) : Prop := a.1 < b.1 ∨ (a.1 = b.1 ∧ a.2 ≤ b.2)

instance : DecidableRel boxLe := fun a b => by unfold boxLe; infer_instance

/-- python's `range(a, b)` on natural numbers. -/
def pyRange (a b : Nat) : List Nat := List.range' a (b - a)

/-- permutations.py:198-202 `rothe_diagram`. -/
def rotheDiagram (w : SPerm) : List (Int × Int) :=
  ((pyRange 1 (w.rank + 1)).flatMap (fun i =>
    ((pyRange (i + 1) (w.rank + 1)).filter (fun j : Nat => decide (w.call i > w.call j))).map
      (fun j : Nat => ((i : Int), w.call j)))).insertionSort boxLe

/-- permutations.py:207-208 `involution_rothe_diagram(fpf)`, and 204-205 `fpf_rothe_diagram`, which calls it with `True`. -/
def involutionRotheDiagram (w : SPerm) (fpf : Bool) : List (Int × Int) :=
  (rotheDiagram w).filter (fun b => decide (b.1 > b.2 ∨ (fpf = false ∧ b.1 = b.2)))

/-- permutations.py:235-240 `code`. -/
def code (w : SPerm) : Option (List Nat) :=
  if isUnsigned w then
    some ((pyRange 1 (1 + w.rank)).map (fun i =>
      ((pyRange (i + 1) (w.rank + i)).filter (fun j : Nat => decide (w.call j < w.call i))).length))
  else none

/-- permutations.py:242-250 `involution_code`. -/
def involutionCode (w : SPerm) : Option (List Nat) :=
  if isUnsigned w && isInvolution w then
    some ((pyRange 1 (1 + w.rank)).map (fun i =>
      ((pyRange (i + 1) (w.rank + i)).filter (fun j : Nat => decide (w.call j ≤ i ∧ w.call j < w.call i))).length))
  else none

/-- permutations.py:252-260 `fpf_involution_code`. -/
def fpfInvolutionCode (w : SPerm) : Option (List Nat) :=
  if isUnsigned w && isFpfInvolution w then
    some ((pyRange 1 (1 + w.rank)).map (fun i =>
      ((pyRange (i + 1) (w.rank + i)).filter (fun j : Nat => decide (w.call j < i ∧ w.call j < w.call i))).length))
  else none

/-- permutations.py:262-263 `shape`. -/
def permShape (w : SPerm) : Option (List Nat) := (code (inverse w)).map sortDescTrim

/-- permutations.py:265-268 `involution_shape`. -/
def involutionShape (w : SPerm) : Option (List Nat) :=
  if isInvolution w then (involutionCode w).map (fun c => transpose (sortDescTrim c)) else none

/-- permutations.py:321-324 `fpf_involution_shape`. -/
def fpfInvolutionShape (w : SPerm) : Option (List Nat) :=
  if isFpfInvolution w then (fpfInvolutionCode w).map (fun c => transpose (sortDescTrim c)) else none

/-- permutations.py:291: `tuple(i + 1 + a for i, a in enumerate(sorted(mu)))`. -/
def grassmannianStart (mu : List Nat) : List Nat :=
  ((mu.insertionSort (· ≤ ·)).zipIdx).map (fun p => p.2 + 1 + p.1)

/-- permutations.py:290-294: the argument `oneline` of the constructor, for non-negative `mu`. -/
def grassmannianLine (mu : List Nat) : List Nat :=
  let oneline := grassmannianStart mu
  if oneline = [] then [] else oneline ++ (pyRange 1 (oneline.getLastD 0 + 1)).filter (fun x => decide (x ∉ oneline))

/-- permutations.py:289-295 `get_grassmannian(*mu)`. -/
def getGrassmannian (mu : List Nat) : Option SPerm :=
  (construct ((grassmannianLine mu).map (fun x : Nat => (x : Int)))).map inverse

/-- permutations.py:339-340 `is_grassmannian`. -/
def isGrassmannian (w : SPerm) : Option Bool :=
  (permShape w).bind (fun mu => (getGrassmannian mu).map (fun v => decide (v = w)))

/-- permutations.py:272: `tuple(range(rank - 1, 0, -1))`, and with step 2 for L278 and L285. -/
def downRange (top step : Nat) : List Nat :=
  ((List.range top).filter (fun k => decide (k % step = 0))).map (fun k => top - k)

/-- permutations.py:270-274 `grassmannians(rank)`, exhausted. -/
def grassmannians (rank : Nat) : Option (List SPerm) :=
  (subpartitions (downRange (rank - 1) 1) [] false).mapM getGrassmannian

/-- permutations.py:297-305 `get_inv_grassmannian(*mu)`. -/
def getInvGrassmannian (mu : List Nat) : Option SPerm :=
  if isStrictPartition mu then
    let ans := (List.range mu.length).foldl (fun ans i =>
      mul ans (reflectionT (1 + mu.headD 0 - mu.getD i 0) (i + 1 + mu.headD 0))) identity
    (longestElement? (mu.length + mu.headD 0) false).map (fun w0 => mul (mul w0 ans) w0)
  else none

/-- permutations.py:342-343 `is_inv_grassmannian`. -/
def isInvGrassmannian (w : SPerm) : Option Bool :=
  (involutionShape w).bind (fun mu => (getInvGrassmannian mu).map (fun v => decide (v = w)))

/-- permutations.py:276-280 `inv_grassmannians(rank)`, exhausted. -/
def invGrassmannians (rank : Nat) : Option (List SPerm) :=
  (subpartitions (downRange (rank - 1) 2) [] true).mapM getInvGrassmannian

/-- permutations.py:314-316: `while not ans.is_fpf_involution(): ...`, at most `fuel` rounds; `none` is an IndexError. -/
def fillFixed : Nat → SPerm → Option SPerm
  | 0, ans => some ans
  | fuel + 1, ans =>
    if isFpfInvolution ans then some ans
    else
      match (pyRange 1 (ans.rank + 2)).filter (fun i : Nat => decide (ans.call i = i)) with
      | a :: b :: _ => fillFixed fuel (mul ans (reflectionT a b))
      | _ => none

/-- permutations.py:307-319 `get_fpf_grassmannian(*mu)`; the loop is given `len(mu) + mu[0] + 3` rounds. -/
def getFpfGrassmannian (mu : List Nat) : Option SPerm :=
  if isStrictPartition mu then
    let o := if mu ≠ [] ∧ (mu.length + 1 + mu.headD 0) % 2 ≠ 0 then 1 else 0
    let ans := (List.range mu.length).foldl (fun ans i =>
      mul ans (reflectionT (o + 1 + mu.headD 0 - mu.getD i 0) (o + i + 2 + mu.headD 0))) identity
    (fillFixed (mu.length + mu.headD 0 + 3) ans).bind (fun ans =>
      (longestElement? (o + 1 + mu.length + mu.headD 0) false).map (fun w0 => mul (mul w0 ans) w0))
  else none

/-- permutations.py:282-287 `fpf_grassmannians(rank)`, exhausted. -/
def fpfGrassmannians (rank : Nat) : Option (List SPerm) :=
  if rank % 2 = 0 then (subpartitions (downRange (rank - 2) 2) [] true).mapM getFpfGrassmannian else none

/-- permutations.py:327: `cycles`, the pairs `(a, self(a))` with `a < self(a)`. -/
def upPairs (w : SPerm) : List (Int × Int) :=
  ((pyRange 1 (w.rank + 1)).filter (fun a : Nat => decide ((a : Int) < w.call a))).map (fun a : Nat => ((a : Int), w.call a))

/-- permutations.py:326-337 `_fpf_grassmannian_shape`; `none` is the returned `None`. -/
def fpfGrassmannianShape (w : SPerm) : Option (List Int) :=
  let cycles := upPairs w
  let filtered := (cycles.filter (fun p => cycles.any (fun q => decide (q.1 < p.2 ∧ p.1 < q.2 ∧ q.2 < p.2)))).insertionSort boxLe
  if filtered = [] then some []
  else
    let phi := filtered.map Prod.fst
    let top := filtered.map Prod.snd
    let n := top.headD 0 - 1
    if phi.getLastD 0 ≥ n + 1 ∨ top ≠ (List.range filtered.length).map (fun i : Nat => n + i + 1) then none
    else some (phi.map (fun a => n - a))

/-- permutations.py:345-348 `is_fpf_grassmannian`: `not` binds more strongly than `and`. -/
def isFpfGrassmannian (w : SPerm) : Bool :=
  if (!isUnsigned w) && isFpfInvolution w then false else (fpfGrassmannianShape w).isSome

end Verif.Perm
