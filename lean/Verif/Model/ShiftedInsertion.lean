import Verif.Model.Insertion

/-!
# Model of shifted Hecke insertion: /repo/insertion.py, `FState` and `InsertionAlgorithm.orthogonal_hecke`

A failing assertion, a python exception, or a loop that exceeds its bound is `none`.  Not modelled: the keyword arguments `p`,
`q` of `insertion_tableaux`.  The states are those of `Verif.Insertion.HState` (the base class `InsertionState`).  Rows and columns are natural numbers: where
python forms the index -1, the model forms 0; neither is the index of a box.
-/

namespace Verif.FInsertion

open Verif Tab Insertion

/-- insertion.py:233-234 `has_outer_box_in_last_row`. -/
def outerInLastRow (s : HState) : Bool :=
  match s.outer, innerDims s.tableau s.outer with
  | some (i, _), some (m, _) => decide (i = m + 2)
  | _, _ => false

/-- `all(x < a for x in row) and all(x < a for x in col)`. -/
def allLt (row col : List Int) (a : Int) : Bool :=
  row.all (fun x => decide (x < a)) && col.all (fun x => decide (x < a))

/-- insertion.py:452-460: row transition R1. -/
def rowR1 (T : Tab) (i n : Nat) (a : Int) (row : List Int) : Option (HState × (Nat × Nat)) :=
  let j := i + row.length
  match entriesAt T ((T.items.map Prod.fst).filter (fun b => decide (b.2 = j))) with
  | none => none
  | some col =>
    match (if allLt row col a then (T.add (i, j) a).remove? (i, n) else T.remove? (i, n)) with
    | none => none
    | some t => (mkState t none).map (fun s => (s, (i, j)))

/-- insertion.py:469: the condition of R2 (evaluated only if `i < x`). -/
def rowCond (T : Tab) (i x : Nat) (a : Int) : Option Bool :=
  match entryLt T (i, x - 1) a with
  | none => none
  | some false => some false
  | some true => if i = 1 then some true else entryLt T (i - 1, x) a

/-- insertion.py:467-480: row transitions R2 and R3 and diagonal transition D1, for `i < x`. -/
def rowR23 (T : Tab) (i n x : Nat) (a b : Int) : Option (HState × (Nat × Nat)) :=
  match rowCond T i x a with
  | none => none
  | some true =>
    match (T.add (i + 1, n) b).replace? (i, x) a with
    | none => none
    | some t =>
      match t.remove? (i, n) with
      | none => none
      | some t => (mkState t (some (i + 1, n))).map (fun s => (s, (i, x)))
  | some false =>
    if x = i + 1 ∧ T.has (i + 1, i + 1) = false then
      match (T.add (T.maxRow + 2, i + 1) b).remove? (i, n) with
      | none => none
      | some t => (mkState t (some (T.maxRow + 2, i + 1))).map (fun s => (s, (i, x)))
    else
      match (T.add (i + 1, n) b).remove? (i, n) with
      | none => none
      | some t => (mkState t (some (i + 1, n))).map (fun s => (s, (i, x)))

/-- insertion.py:482-493: diagonal transition D2, for `i == x`. -/
def rowD2 (T : Tab) (i n : Nat) (a b : Int) : Option (HState × (Nat × Nat)) :=
  let t : Option Tab :=
    if a % 2 = b % 2 then
      match (if i = 1 then some true else entryLt T (i - 1, i) a) with
      | none => none
      | some true =>
        match T.replace? (i, i) a with
        | none => none
        | some t => (t.add (T.maxRow + 2, i + 1) b).remove? (i, n)
      | some false => (T.add (T.maxRow + 2, i + 1) b).remove? (i, n)
    else (T.add (T.maxRow + 2, i + 1) (b + 1)).remove? (i, n)
  match t with
  | none => none
  | some t => (mkState t (some (T.maxRow + 2, i + 1))).map (fun s => (s, (i, i)))

/-- insertion.py:444-493 `_row_transition`.  The loop in lines 462-464 starts at `x = i`, so `x < i` does not occur. -/
def rowStep (s : HState) : Option (HState × (Nat × Nat)) :=
  match s.outer with
  | none => none
  | some (i, n) =>
    let T := s.tableau
    match T.entry (i, n), entriesAt T (((List.range' i (n - i)).filter (fun x => T.has (i, x))).map (fun x => (i, x))) with
    | some a, some row =>
      let row := sortInts row
      if entriesAt T ((List.range' i row.length).map (fun x => (i, x))) = some row then
        if row.all (fun x => decide (x ≤ a)) then rowR1 T i n a row
        else
          match firstGreater T i a n i with
          | none => none
          | some x =>
            match T.entry (i, x) with
            | none => none
            | some b => if i < x then rowR23 T i n x a b else rowD2 T i n a b
      else none
    | _, _ => none

/-- insertion.py:503-511: column transition C1. -/
def colC1 (T : Tab) (m j : Nat) (a : Int) (col : List Int) : Option (HState × (Nat × Nat)) :=
  let i := col.length + 1
  match entriesAt T (((List.range' 1 (j - 1)).filter (fun s => T.has (i, s))).map (fun s => (i, s))) with
  | none => none
  | some row =>
    match (if allLt row col a then (T.add (i, j) a).remove? (m, j) else T.remove? (m, j)) with
    | none => none
    | some t => (mkState t none).map (fun s => (s, (i, j)))

/-- insertion.py:513-515: `while self.get(x, j) <= a: x += 1`, at most `fuel` tests. -/
def firstGreaterCol (T : Tab) (j : Nat) (a : Int) : Nat → Nat → Option Nat
  | 0, _ => none
  | fuel + 1, x =>
    match T.entry (x, j) with
    | none => none
    | some v => if v ≤ a then firstGreaterCol T j a fuel (x + 1) else some x

/-- insertion.py:519: the condition of C2. -/
def colCond (T : Tab) (x j : Nat) (a : Int) : Option Bool :=
  match (if x = j then some true else entryLt T (x, j - 1) a) with
  | none => none
  | some false => some false
  | some true => if x = 1 then some true else entryLt T (x - 1, j) a

/-- insertion.py:518-524: column transitions C2 and C3. -/
def colC23 (T : Tab) (m j x : Nat) (a b : Int) : Option (HState × (Nat × Nat)) :=
  match colCond T x j a with
  | none => none
  | some true =>
    match (T.add (m, j + 1) b).replace? (x, j) a with
    | none => none
    | some t =>
      match t.remove? (m, j) with
      | none => none
      | some t => (mkState t (some (m, j + 1))).map (fun s => (s, (x, j)))
  | some false =>
    match (T.add (m, j + 1) b).remove? (m, j) with
    | none => none
    | some t => (mkState t (some (m, j + 1))).map (fun s => (s, (x, j)))

/-- insertion.py:495-524 `_column_transition`. -/
def colStep (s : HState) : Option (HState × (Nat × Nat)) :=
  match s.outer with
  | none => none
  | some (m, j) =>
    let T := s.tableau
    match T.entry (m, j), entriesAt T (((List.range' 1 (m - 1)).filter (fun x => T.has (x, j))).map (fun x => (x, j))) with
    | some a, some col =>
      let col := sortInts col
      if entriesAt T ((List.range' 1 col.length).map (fun x => (x, j))) = some col then
        if col.all (fun x => decide (x ≤ a)) then colC1 T m j a col
        else
          match firstGreaterCol T j a m 1 with
          | none => none
          | some x =>
            match T.entry (x, j) with
            | none => none
            | some b => colC23 T m j x a b
      else none
    | _, _ => none

/-- insertion.py:526-532 `next()`. -/
def next (s : HState) : Option (HState × Option (Nat × Nat)) :=
  if s.outerInLastColumn then (rowStep s).map (fun r => (r.1, some r.2))
  else if outerInLastRow s then (colStep s).map (fun r => (r.1, some r.2))
  else some (s, none)

/-- insertion.py:251-258 `list(self.path())`, at most `fuel` rounds. -/
def path : Nat → HState → Option (List (HState × (Nat × Nat)))
  | 0, _ => none
  | fuel + 1, s =>
    match next s with
    | none => none
    | some (_, none) => some []
    | some (s', some b) => (path fuel s').map (fun p => (s', b) :: p)

/-- insertion.py:260-266 `insert(a)`.  The path has at most one box in each row and in each column of the tableau, and one
more; the model allows `fuel` rounds. -/
def insert (fuel : Nat) (s : HState) (a : Int) : Option (HState × List (Nat × Nat)) :=
  match s.add a with
  | none => none
  | some s' =>
    match path fuel s' with
    | none => none
    | some p => p.getLast?.map (fun l => (l.1, p.map Prod.snd))

/-- insertion.py:430-431: whether the sign of `r` is changed, where `b = path[-1]` and `T` is the new tableau. -/
def recordNeg (T : Tab) (path : List (Nat × Nat)) (b : Nat × Nat) : Bool :=
  path.dropLast.any (fun c => decide (c.1 = c.2)) || (!T.has b && decide (b.1 = b.2))

/-- insertion.py:433-438: the box that receives the new entry of the recording tableau. -/
def recordBox (T : Tab) (neg : Bool) (b : Nat × Nat) : Option (Nat × Nat) :=
  if T.has b then some b
  else if neg then
    (((T.items.map Prod.fst).filter (fun c => decide (c.1 + 1 = b.1))).map Prod.snd).max?.map (fun c => (b.1 - 1, c))
  else (((T.items.map Prod.fst).filter (fun c => decide (c.2 + 1 = b.2))).map Prod.fst).max?.map (fun a => (a, b.2 - 1))

/-- insertion.py:425-440: one round of the loop of `insertion_tableaux`, with `r = index + 1`. -/
def push (p q : Tab) (r : Nat) (a : Int) : Option (Tab × Tab) :=
  match (mkState p none).bind (fun s => insert (p.maxRow + p.maxColumn + 4) s a) with
  | none => none
  | some (s', path) =>
    match path.getLast? with
    | none => none
    | some b =>
      let neg := recordNeg s'.tableau path b
      (recordBox s'.tableau neg b).map (fun c => (s'.tableau, q.add c (if neg then -(r : Int) else (r : Int))))

/-- insertion.py:425-440: the loop, from index `k` on. -/
def insertAll : Nat → Tab → Tab → List Int → Option (Tab × Tab)
  | _, p, q, [] => some (p, q)
  | k, p, q, a :: args =>
    match push p q (k + 1) a with
    | none => none
    | some (p', q') => insertAll (k + 1) p' q' args

/-- insertion.py:417-442 `insertion_tableaux(*args)` (where `q.last()` is 0). -/
def insertionTableaux (args : List Int) : Option (Tab × Tab) := insertAll 0 Tab.empty Tab.empty args

/-- insertion.py:572-573: `while (i, j - 1) in t and (i + 1, j - 1) not in t and i + 1 <= j - 1: j = j - 1`. -/
def moveLeft (T : Tab) (i : Nat) : Nat → Nat
  | 0 => 0
  | j + 1 => if T.has (i, j) && !T.has (i + 1, j) && decide (i + 1 ≤ j) then moveLeft T i j else j + 1

/-- insertion.py:544-579 `_inverse_terminal_transition(record)`. -/
def inverseTerminal (s : HState) (record : (Nat × Nat) × List Int) : Option HState :=
  let i := record.1.1
  let j := record.1.2
  let T := s.tableau
  let values := record.2.dedup
  match (values.map Int.natAbs).max? with
  | none => none
  | some n =>
    if (n : Int) ∈ values ∧ -(n : Int) ∈ values then none
    else if values.length = 1 ∧ (n : Int) ∈ values then
      match T.entry (i, j), T.remove? (i, j) with
      | some c, some t => mkState (t.add (i, t.maxColumn + 2) c) (some (i, t.maxColumn + 2))
      | _, _ => none
    else if values.length > 1 ∧ (n : Int) ∈ values then
      let i := climb T j i
      match T.entry (i, j), T.entryD (i - 1, j + 1) 0 with
      | some u, some v => mkState (T.add (i, T.maxColumn + 2) (max u v)) (some (i, T.maxColumn + 2))
      | _, _ => none
    else if values.length = 1 ∧ -(n : Int) ∈ values then
      match T.entry (i, j), T.remove? (i, j) with
      | some c, some t => mkState (t.add (t.maxRow + 2, j) c) (some (t.maxRow + 2, j))
      | _, _ => none
    else if values.length > 1 ∧ -(n : Int) ∈ values then
      let j := moveLeft T i j
      match T.entry (i, j), T.entryD (i + 1, j - 1) 0 with
      | some u, some v => mkState (T.add (T.maxRow + 2, j) (max u v)) (some (T.maxRow + 2, j))
      | _, _ => none
    else none

/-- insertion.py:585-587: `while (x + 1, j - 1) in self and self.get(x + 1, j - 1) <= b: x += 1` in column `c = j - 1`, at most
`fuel` tests. -/
def lastLeCol (T : Tab) (c : Nat) (b : Int) : Nat → Nat → Option Nat
  | 0, _ => none
  | fuel + 1, x =>
    if T.has (x + 1, c) then
      match T.entry (x + 1, c) with
      | none => none
      | some v => if v ≤ b then lastLeCol T c b fuel (x + 1) else some x
    else some x

/-- `t.add(i, n, c)` and the state with outer box `(i, n)` where `n = t.max_column() + 2`. -/
def rowState (t : Tab) (i : Nat) (c : Int) : Option HState :=
  mkState (t.add (i, t.maxColumn + 2) c) (some (i, t.maxColumn + 2))

/-- insertion.py:581-629 `_inverse_column_transition`. -/
def inverseCol (s : HState) : Option HState :=
  match s.outer with
  | none => none
  | some (m, j) =>
    let T := s.tableau
    match T.entry (m, j) with
    | none => none
    | some b =>
      match lastLeCol T (j - 1) b m 1 with
      | none => none
      | some x =>
        match T.entry (x, j - 1), T.remove? (m, j) with
        | some a, some t =>
          if x = j - 1 ∧ T.entry (j - 1, j) = some b ∧ b % 2 = 0 then
            match t.entry (j - 1, j - 1), t.entryD (j - 2, j) 0 with
            | some u, some v => rowState t x (max u v)
            | _, _ => none
          else if x = j - 1 ∧ a < b ∧ b % 2 ≠ 0 then rowState t x (a - 1)
          else
            match (if x = j - 1 ∧ a = b then (T.entry (j - 2, j - 1)).map (fun c => decide (c % 2 = 0)) else some false) with
            | none => none
            | some true =>
              match t.entry (j - 2, j - 1) with
              | none => none
              | some c => rowState t x c
            | some false =>
              if x = j - 1 ∧ a < b ∧ b % 2 = 0 then
                match T.replace? (x, x) b with
                | none => none
                | some t =>
                  match t.remove? (m, j) with
                  | none => none
                  | some t => rowState t x a
              else if a = b then
                match T.entry (x - 1, j - 1), T.entryD (x, j - 2) 0 with
                | some u, some v => mkState (t.add (m, j - 1) (max u v)) (some (m, j - 1))
                | _, _ => none
              else
                match t.replace? (x, j - 1) b with
                | none => none
                | some t => mkState (t.add (m, j - 1) a) (some (m, j - 1))
        | _, _ => none

/-- insertion.py:631-650 `_inverse_row_transition`. -/
def inverseRow (s : HState) : Option HState :=
  match s.outer with
  | none => none
  | some (i, n) =>
    let T := s.tableau
    match T.entry (i, n) with
    | none => none
    | some b =>
      match lastLe T (i - 1) b n (i - 1) with
      | none => none
      | some x =>
        if x > i - 1 then
          match T.entry (i - 1, x) with
          | none => none
          | some a =>
            if a = b then
              match T.entry (i - 1, x - 1), T.entryD (i - 2, x) 0, T.remove? (i, n) with
              | some u, some v, some t => mkState (t.add (i - 1, n) (max u v)) (some (i - 1, n))
              | _, _, _ => none
            else
              match T.remove? (i, n) with
              | none => none
              | some t =>
                match t.replace? (i - 1, x) b with
                | none => none
                | some t => mkState (t.add (i - 1, n) a) (some (i - 1, n))
        else none

/-- insertion.py:534-542 `previous(record)` (with `record = None` the terminal transition raises). -/
def previous (s : HState) (record : Option ((Nat × Nat) × List Int)) : Option HState :=
  if s.isInitial then some s
  else if s.outerInLastColumn then inverseRow s
  else if outerInLastRow s then inverseCol s
  else record.bind (inverseTerminal s)

/-- insertion.py:411-412: `while not s.is_initial(): s, _ = s.previous()`, at most `fuel` rounds. -/
def rewind : Nat → HState → Option HState
  | 0, s => if s.isInitial then some s else none
  | fuel + 1, s => if s.isInitial then some s else (previous s none).bind (rewind fuel)

/-- insertion.py:409-413: one round of `inverse_insertion`: the new `p`, `q` and the letter `v`. -/
def unpush (p q : Tab) : Option (Tab × Tab × Int) :=
  match q.pop with
  | none => none
  | some (q', record) =>
    match (mkState p none).bind (fun s => previous s (some record)) with
    | none => none
    | some s =>
      match (rewind (p.maxRow + p.maxColumn + 2) s).bind HState.pop with
      | none => none
      | some (p', v) => some (p', q', v)

/-- insertion.py:405-415 `inverse_insertion(p, q)`, at most `fuel` rounds. -/
def inverseInsertion : Nat → Tab → Tab → List Int → Option (List Int)
  | 0, p, _, ans => if p.items = [] then some ans else none
  | fuel + 1, p, q, ans =>
    if p.items = [] then some ans
    else
      match unpush p q with
      | none => none
      | some (p', q', v) => inverseInsertion fuel p' q' (v :: ans)

/-- tableaux.py:317-322 `negate()` (with `skipdiagonal=True`). -/
def negate (T : Tab) : Tab :=
  ⟨T.items.map (fun p => (p.1, sortInts (p.2.map (fun v => if p.1.1 ≠ p.1.2 then -v else v)))), by
    have : (T.items.map (fun p => (p.1, sortInts (p.2.map (fun v => if p.1.1 ≠ p.1.2 then -v else v))))).map Prod.fst =
        T.items.map Prod.fst := by simp
    rw [this]; exact T.sorted⟩

/-- tableaux.py:313-315 `halve()`. -/
def halve (T : Tab) : Option Tab :=
  if T.values.all (fun v => decide (v % 2 = 0)) then some (T.apply (fun x => x / 2)) else none

/-- tableaux.py:310-311 `double()`. -/
def double (T : Tab) : Tab := T.apply (fun x => 2 * x)

/-- insertion.py:142-149 `symplectic_hecke(word, record, multisetvalued)`. -/
def symplecticHecke (word : List Int) (record : Option (List Int)) (multisetvalued : Bool) : Option (Tab × Tab) :=
  match checkRecord word record multisetvalued with
  | none => none
  | some rec =>
    match insertionTableaux word with
    | none => none
    | some (p, q) => ((if multisetvalued then q else negate q).apply? (mappingAt rec)).map (fun q => (p, q))

/-- insertion.py:135-140 `orthogonal_hecke(word, record, multisetvalued)`. -/
def orthogonalHecke (word : List Int) (record : Option (List Int)) (multisetvalued : Bool) : Option (Tab × Tab) :=
  match symplecticHecke (word.map (fun i => 2 * i)) record multisetvalued with
  | none => none
  | some (p, q) => (halve p).map (fun p => (p, q))

/-- insertion.py:167-174 `inverse_symplectic_hecke(insertion_tableau, recording_tableau, multisetvalued)`. -/
def inverseSymplecticHecke (p q : Tab) (multisetvalued : Bool) : Option (List Int × List Int) :=
  if p.items.map Prod.fst = q.items.map Prod.fst then
    let standard := q.standardize
    match recordList q standard with
    | none => none
    | some record =>
      (inverseInsertion (q.len + 1) p (if multisetvalued then standard else negate standard) []).map (fun word => (word, record))
  else none

/-- insertion.py:160-165 `inverse_orthogonal_hecke(insertion_tableau, recording_tableau, multisetvalued)`. -/
def inverseOrthogonalHecke (p q : Tab) (multisetvalued : Bool) : Option (List Int × List Int) :=
  match inverseSymplecticHecke (double p) q multisetvalued with
  | none => none
  | some (word, record) =>
    if word.all (fun i => decide (i % 2 = 0)) then some (word.map (fun i => i / 2), record) else none

end Verif.FInsertion
