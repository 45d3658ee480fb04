import Verif.Model.TabOps

/-!
# Model of `InsertionAlgorithm.unprime_diagonal` and `setvalued_column_insert` (insertion.py 14-99)

A python exception, and a loop that does not stop within the given number of steps, is `none`.
-/

namespace Verif.Unprime

/-- insertion.py:37: the code of an entry. -/
def enc (v : Int) : Int := if v < 0 then -1 - 2 * v else 2 * v

/-- insertion.py:40: the entry of a code; python's `//` is `Int.fdiv`. -/
def dec (x : Int) : Int := if x % 2 ≠ 0 then Int.fdiv (-(x + 1)) 2 else Int.fdiv x 2

/-- insertion.py:36-37 `encode(it)`. -/
def encode (s : List Int) : List Int := Tab.sortInts (s.map enc)

/-- insertion.py:39-40 `decode(it)`. -/
def decode (s : List Int) : List Int := Tab.sortInts (s.map dec)

/-- insertion.py:45, 47: the two conditions. -/
def stops (value x : Int) : Bool := (decide (value ≤ x) && decide (value % 2 = 0)) || (decide (value < x) && decide (value % 2 ≠ 0))

/-- insertion.py:42-49 `bump_location(boxes, value)`, from the row `i` on. -/
def bumpFrom (value : Int) : List (List Int) → Nat → Nat × Nat
  | [], i => (i, 0)
  | b :: t, i =>
    match b.findIdx? (stops value) with
    | some j => (i, j)
    | none => bumpFrom value t (i + 1)

/-- insertion.py:68-73: the loop that makes `bumps`, which is kept in reversed order. -/
def bumpStep (boxes : List (List Int)) (bumps : List (Nat × Nat × List Int)) (v : Int) : List (Nat × Nat × List Int) :=
  let (i, j) := bumpFrom v boxes 0
  match bumps with
  | (i', j', val) :: t => if i' = i then (i', j', val ++ [v]) :: t else (i, j, [v]) :: (i', j', val) :: t
  | [] => [(i, j, [v])]

/-- insertion.py:82-86: the condition in `add`. -/
def keeps (b bd u : Int) : Bool :=
  decide (u ≤ b) && !((decide (0 ≠ bd) && decide (bd < u)) || (decide (0 ≠ bd) && decide (bd = u) && decide (u % 2 = 0)))

/-- insertion.py:76-93: the body of the loop over the reversed `bumps`. -/
def applyBump (bound : List Int) (st : List (List Int) × List Int) (bump : Nat × Nat × List Int) :
    Option (List (List Int) × List Int) :=
  let (boxes, ans) := st
  let (i, j, val) := bump
  if i = boxes.length then some (boxes ++ [val], ans)
  else match val, boxes[i]?, bound[i + 1]? with
    | v :: rest, some row, some bd =>
      match row[j]? with
      | none => none
      | some b =>
        let add := v :: rest.filter (keeps b bd)
        let left := val.drop add.length
        let ans := row.drop j ++ ans
        let boxes := boxes.set i (row.take j ++ add)
        if left = [] then some (boxes, ans)
        else
          let boxes := if i + 1 = boxes.length then boxes ++ [[]] else boxes
          some (boxes.set (i + 1) (left ++ boxes.getD (i + 1) []), ans)
    | _, _, _ => none

/-- insertion.py:54-56: the number of rows of the column, counted from the row `i`; the first argument bounds the number of steps. -/
def countRows (T : Tab) (column : Nat) : Nat → Nat → Nat
  | 0, i => i
  | k + 1, i => if T.has (i + 1, column) then countRows T column k (i + 1) else i

/-- insertion.py:58-63: an entry of `bound`.  The maximum of the codes of a box; `none` if the box is empty. -/
def boundAt (T : Tab) (column i : Nat) : Option Int :=
  match T.get? (i + 1, column - 1) with
  | none => some 0
  | some s => (encode s).getLast?

/-- insertion.py:95-97: the new column; the code of the rows from `i` on. -/
def setColumn (column : Nat) : List (List Int) → Nat → Tab → Tab
  | [], _, T => T
  | b :: t, i, T => setColumn column t (i + 1) (T.set (i + 1, column) (decode b))

/-- insertion.py:35-98 `setvalued_column_insert(tableau, setvalue, column)`; None is the empty tuple, which the caller does not
distinguish from it. -/
def columnInsert (T : Tab) (setvalue : List Int) (column : Nat) : Option (Tab × List Int) :=
  if T.has (1, column) then
    let nrows := countRows T column T.maxRow 1
    match (List.range (nrows + 1)).mapM (boundAt T column) with
    | none => none
    | some bound =>
      let boxes := (List.range nrows).map (fun i => encode ((T.get? (i + 1, column)).getD []))
      let bumps := (encode setvalue).foldl (bumpStep boxes) []
      (bumps.foldlM (applyBump bound) (boxes, [])).map (fun st => (setColumn column st.1 0 T, decode st.2))
  else some (T.set (1, column) (Tab.sortInts setvalue), [])

/-- insertion.py:28-30: the loop over the columns. -/
def pushRight : Nat → Tab → List Int → Nat → Option Tab
  | _, T, [], _ => some T
  | 0, _, _ :: _, _ => none
  | k + 1, T, a :: s, j => (columnInsert T (a :: s) j).bind (fun r => pushRight k r.1 r.2 (j + 1))

/-- insertion.py:17-30: the body of the outer loop for the box `(i, i)`. -/
def diagStep (T : Tab) (i : Nat) : Option Tab :=
  match T.get? (i, i) with
  | none => none
  | some u =>
    if u.length > 1 ∧ (∃ x ∈ u, x < 0) then
      let v := Tab.sortInts ((u.filter (fun x => decide (x < 0))).map (fun x => -x))
      let w := Tab.sortInts (u.filter (fun x => decide (0 < x)))
      match v with
      | [] => none
      | v0 :: vs =>
        -- `max(w)` raises if `w` is empty, but is only evaluated if `v` has one element
        if vs = [] ∧ w = [] then none
        else if vs = [] ∧ (∀ x ∈ w, x < v0) then some T
        else
          let newvalue := Tab.sortInts (v0 :: w.filter (fun x => decide (x < v0)))
          let addvalue := Tab.sortInts (vs.map (fun x => -x) ++ w.filter (fun x => decide (v0 ≤ x)))
          pushRight (T.maxColumn + 1) (T.set (i, i) newvalue) addvalue (i + 1)
    else some T

/-- insertion.py:16: the outer loop; the first argument bounds the number of steps. -/
def diagLoop : Nat → Nat → Tab → Option Tab
  | 0, i, T => if T.has (i, i) then none else some T
  | k + 1, i, T => if T.has (i, i) then (diagStep T i).bind (diagLoop k (i + 1)) else some T

/-- insertion.py:13-32 `unprime_diagonal(tableau)`.  The number of steps is bounded by the number of entries. -/
def unprimeDiag (T : Tab) : Option Tab := diagLoop T.values.length 1 T

end Verif.Unprime
