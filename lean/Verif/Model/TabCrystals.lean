import Verif.Model.TabOps
import Verif.Model.Words

/-!
# Model of reading words, semistandardness tests and crystal operators of `Tableau` (tableaux.py)

A failing assertion or a python exception is `none`.
-/

namespace Verif.Tab

/-- tableaux.py:361-375 `remove(i, j, v)` with a value `v`: the first occurrence is removed (L368-371), and the box if it is
the only one (L372-373).  The tuples of a tableau are sorted, so that sorting them again in `__init__` is not modelled. -/
def removeVal? (T : Tab) (b : Nat × Nat) (v : Int) : Option Tab :=
  match T.get? b with
  | none => none
  | some s =>
    if v ∈ s then
      let k := s.idxOf v
      let s' := s.take k ++ s.drop (k + 1)
      if s'.length = 0 then some (T.del b) else some (T.set b s')
    else none

/-- tableaux.py:141: the order of the boxes by the key `(-x[0], x[1])`. -/
def rowKeyLe (p q : (Nat × Nat) × List Int) : Bool := decide (q.1.1 < p.1.1 ∨ (p.1.1 = q.1.1 ∧ p.1.2 ≤ q.1.2))

/-- tableaux.py:139-143 `row_reading_word()`. -/
def rowReadingWord (T : Tab) : List Int :=
  (T.items.insertionSort (fun p q => rowKeyLe p q = true)).flatMap Prod.snd

/-- tableaux.py:161: the order of the boxes by the key `(x[1], -x[0])`. -/
def columnKeyLe (p q : (Nat × Nat) × List Int) : Bool := decide (p.1.2 < q.1.2 ∨ (p.1.2 = q.1.2 ∧ q.1.1 ≤ p.1.1))

/-- tableaux.py:159-163 `column_reading_word()`. -/
def columnReadingWord (T : Tab) : List Int :=
  (T.items.insertionSort (fun p q => columnKeyLe p q = true)).flatMap Prod.snd

/-- tableaux.py:147-152: the loop that cuts the word; `prev` is `word[i - 1]` (none for `i = 0`). -/
def subwordsLoop : Option Int → List (List Int) → List Int → List (List Int)
  | _, acc, [] => acc
  | prev, acc, a :: w =>
    if prev.all (fun p => decide (p ≤ a)) then subwordsLoop (some a) (acc.dropLast ++ [acc.getLastD [] ++ [a]]) w
    else subwordsLoop (some a) (acc ++ [[a]]) w

/-- tableaux.py:155-156: one row, numbered `i`, with the columns numbered from `j`. -/
def setRow (i : Nat) : Nat → List Int → Tab → Tab
  | _, [], T => T
  | j, v :: row, T => setRow i (j + 1) row (T.set (i, j) [v])

/-- tableaux.py:154-156: the rows, numbered from `i`. -/
def setRows : Nat → List (List Int) → Tab → Tab
  | _, [], T => T
  | i, row :: rows, T => setRows (i + 1) rows (setRow i 1 row T)

/-- tableaux.py:145-157 `from_row_reading_word(word)`. -/
def fromRowReadingWord (w : List Int) : Tab := setRows 1 (subwordsLoop none [[]] w).reverse empty

/-- tableaux.py:197-198 `dbl(v)`. -/
def dbl (v : Int) : Int := if v > 0 then 2 * v else -1 - 2 * v

/-- The largest `dbl(v)` (tableaux.py:204); `none` on the empty tuple, where python's `max` raises. -/
def maxDbl (s : List Int) : Option Int := (s.map dbl).max?

/-- The smallest `dbl(v)` (tableaux.py:206, 210). -/
def minDbl (s : List Int) : Option Int := (s.map dbl).min?

/-- tableaux.py:205-208 (`parity = 1`) and 209-212 (`parity = 0`): no objection against the neighbour with tuple `s'`.
Python's `%` by 2 is `Int.emod`. -/
def neighbourOk (parity : Int) (maxval : Int) (s' : List Int) : Option Bool :=
  (minDbl s').map (fun minval => !decide (minval < maxval ∨ (maxval = minval ∧ minval % 2 = parity)))

/-- tableaux.py:200-212: the tests for one box. -/
def boxOk (T : Tab) (diagonalPrimes : Bool) (p : (Nat × Nat) × List Int) : Option Bool :=
  match p.2.min?, maxDbl p.2 with
  | some m, some maxval =>
    if p.1.1 = p.1.2 ∧ !diagonalPrimes ∧ m < 0 then some false
    else
      match (match T.get? (p.1.1, p.1.2 + 1) with | some s => neighbourOk 1 maxval s | none => some true) with
      | none => none
      | some false => some false
      | some true => match T.get? (p.1.1 + 1, p.1.2) with | some s => neighbourOk 0 maxval s | none => some true
  | _, _ => none

/-- The loop of tableaux.py:200-213, which stops at the first objection. -/
def semistandardLoop (T : Tab) (diagonalPrimes : Bool) : List ((Nat × Nat) × List Int) → Option Bool
  | [] => some true
  | p :: l =>
    match boxOk T diagonalPrimes p with
    | none => none
    | some false => some false
    | some true => semistandardLoop T diagonalPrimes l

/-- tableaux.py:196-213 `is_semistandard(diagonal_primes)`. -/
def isSemistandard? (T : Tab) (diagonalPrimes : Bool) : Option Bool := semistandardLoop T diagonalPrimes T.items

/-- tableaux.py:215-219 `is_standard()`. -/
def isStandard? (T : Tab) : Option Bool :=
  match T.isSemistandard? false with
  | none => none
  | some false => some false
  | some true =>
    let val := T.values.map (fun x => |x|)
    some (decide (sortInts val = (List.range val.length).map (fun k : Nat => (k : Int) + 1)))

/-- tableaux.py:222-225: the columns in use, sorted. -/
def usedColumns (T : Tab) : List Nat := (T.items.map (fun p => p.1.2)).dedup.insertionSort (· ≤ ·)

/-- tableaux.py:225: the tuples of one column, sorted by row (the items are). -/
def columnTuples (T : Tab) (j : Nat) : List (List Int) := (T.items.filter (fun p => decide (p.1.2 = j))).map Prod.snd

/-- tableaux.py:228-231: `pre` and `post` of one column. -/
def columnWord (col : List (List Int)) : List Int :=
  let r := col.foldl (fun (s : List Int × List Int) row => (row.take 1 ++ s.1, s.2 ++ row.drop 1)) ([], [])
  r.1 ++ r.2

/-- tableaux.py:221-233 `crystal_reading_word()`. -/
def crystalReadingWord (T : Tab) : List (List Int) := T.usedColumns.map (fun j => columnWord (T.columnTuples j))

/-- tableaux.py:246: `[a for a in range(len(rows)) if rows[a] <= c][-1]`. -/
def lastLeIndex (rows : List Int) (c : Int) : Option Nat :=
  ((List.range rows.length).filter (fun a => decide (rows.getD a 0 ≤ c))).getLast?

/-- tableaux.py:248-249: the loop over `rows`, numbered from `r`. -/
def addRows (j : Nat) : Nat → List Int → Tab → Tab
  | _, [], ans => ans
  | r, a :: rows, ans => addRows j (r + 1) rows (ans.add (r, j) a)

/-- tableaux.py:241-249: one column; `prev` is `col[i - 1]` (none for `i = 0`). -/
def columnLoop (j : Nat) : Option Int → List Int → List Int → Tab → Option Tab
  | _, rows, [], ans => some (addRows j 1 rows ans)
  | prev, rows, c :: col, ans =>
    if prev.all (fun p => decide (p > c)) then columnLoop j (some c) (c :: rows) col ans
    else
      match lastLeIndex rows c with
      | none => none
      | some a => columnLoop j (some c) rows col (ans.add (1 + a, j) c)

/-- tableaux.py:240-249: the columns, numbered from `j`. -/
def columnsLoop : Nat → List (List Int) → Tab → Option Tab
  | _, [], ans => some ans
  | j, col :: cols, ans => (columnLoop j none [] col ans).bind (columnsLoop (j + 1) cols)

/-- tableaux.py:235-250 `from_crystal_reading_word(crystal_reading_word)` for an argument that is not None. -/
def fromCrystalReadingWord? (w : List (List Int)) : Option Tab := columnsLoop 1 w empty

/-- tableaux.py:260 (and 286): the order of the entries `(x, y, v)` by the key `(y, -x, -v)`. -/
def svLe (s t : (Nat × Nat) × Int) : Bool :=
  decide (s.1.2 < t.1.2 ∨ (s.1.2 = t.1.2 ∧ (t.1.1 < s.1.1 ∨ (s.1.1 = t.1.1 ∧ t.2 ≤ s.2))))

/-- tableaux.py:258-261 (and 284-287): the entries `i` and `i + 1`, sorted. -/
def svEntries (i : Int) (T : Tab) : List ((Nat × Nat) × Int) :=
  (T.items.flatMap (fun p => (p.2.filter (fun v => decide (v = i ∨ v = i + 1))).map (fun v => (p.1, v)))).insertionSort
    (fun s t => svLe s t = true)

/-- tableaux.py:265-268 (and 291-294): the `for` loop removes the first adjacent pair whose left letter is larger. -/
def svCancelOnce : List ((Nat × Nat) × Int) → List ((Nat × Nat) × Int)
  | p :: q :: s => if p.2 > q.2 then s else p :: svCancelOnce (q :: s)
  | s => s

/-- tableaux.py:262-268 (and 288-294): the `while` loop. -/
def svCancel (s : List ((Nat × Nat) × Int)) : List ((Nat × Nat) × Int) :=
  let s' := svCancelOnce s
  if s'.length < s.length then svCancel s' else s'
termination_by s.length

/-- tableaux.py:258-276: `e_crystal_operator(i, multisetvalued=False)`.  The inner `none` is the python value None.  Boxes have
positive coordinates, so that `y - 1` is the predecessor. -/
def eSet? (i : Int) (T : Tab) : Option (Option Tab) :=
  match ((svCancel (svEntries i T)).filter (fun p => decide (p.2 = i + 1))).head? with
  | none => some none
  | some ((x, y), _) =>
    if i + 1 ∈ (T.get? (x, y - 1)).getD [] then
      (T.removeVal? (x, y - 1) (i + 1)).map (fun U => some (U.add (x, y) i))
    else (T.removeVal? (x, y) (i + 1)).map (fun U => some (U.add (x, y) i))

/-- tableaux.py:284-302: `f_crystal_operator(i, multisetvalued=False)`. -/
def fSet? (i : Int) (T : Tab) : Option (Option Tab) :=
  match ((svCancel (svEntries i T)).filter (fun p => decide (p.2 = i))).getLast? with
  | none => some none
  | some ((x, y), _) =>
    if i ∈ (T.get? (x, y + 1)).getD [] then
      (T.removeVal? (x, y + 1) i).map (fun U => some (U.add (x, y) (i + 1)))
    else (T.removeVal? (x, y) i).map (fun U => some (U.add (x, y) (i + 1)))

/-- tableaux.py:252-276 `e_crystal_operator(i, multisetvalued)`. -/
def e? (i : Int) (multisetvalued : Bool) (T : Tab) : Option (Option Tab) :=
  if multisetvalued then
    match Words.eArgs i T.crystalReadingWord with
    | none => some none
    | some w => (fromCrystalReadingWord? w).map some
  else eSet? i T

/-- tableaux.py:278-302 `f_crystal_operator(i, multisetvalued)`. -/
def f? (i : Int) (multisetvalued : Bool) (T : Tab) : Option (Option Tab) :=
  if multisetvalued then
    match Words.fArgs i T.crystalReadingWord with
    | none => some none
    | some w => (fromCrystalReadingWord? w).map some
  else fSet? i T

end Verif.Tab
