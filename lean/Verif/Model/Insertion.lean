import Verif.Model.TabOps

/-!
# Model of Hecke insertion: /repo/insertion.py, `InsertionState`, `HState` and `InsertionAlgorithm.hecke`

A failing assertion, a python exception, or a loop that exceeds its bound is `none`.  The dictionary HSTATE_CACHE is
modelled in `pushCached`.  Not modelled: the keyword arguments `p`, `q` of `insertion_tableaux`.
-/

namespace Verif.Insertion

open Verif Tab

/-- insertion.py:177-182 an `InsertionState` (for which the constructor did not raise). -/
structure HState where
  tableau : Tab
  outer : Option (Nat × Nat)
deriving DecidableEq

/-- insertion.py:184-195 `_get_inner_dimensions`. -/
def innerDims (tableau : Tab) (outer : Option (Nat × Nat)) : Option (Nat × Nat) :=
  match outer with
  | none => some (tableau.maxRow, tableau.maxColumn)
  | some (i, j) =>
    match tableau.remove? (i, j) with
    | none => none
    | some t =>
      let m := t.maxRow
      let n := t.maxColumn
      if decide (m + 2 = i) != decide (n + 2 = j) then some (m, n) else none

/-- insertion.py:179-182 the constructor. -/
def mkState (tableau : Tab) (outer : Option (Nat × Nat)) : Option HState :=
  (innerDims tableau outer).map (fun _ => ⟨tableau, outer⟩)

/-- insertion.py:217-218 `is_initial`. -/
def HState.isInitial (s : HState) : Bool :=
  match s.outer with
  | some (i, _) => decide (i = 1)
  | none => false

/-- insertion.py:226-231 `add(a)`. -/
def HState.add (s : HState) (a : Int) : Option HState :=
  match s.outer with
  | some _ => none
  | none => mkState (s.tableau.add (1, s.tableau.maxColumn + 2) a) (some (1, s.tableau.maxColumn + 2))

/-- insertion.py:236-237 `has_outer_box_in_last_column`. -/
def HState.outerInLastColumn (s : HState) : Bool :=
  match s.outer, innerDims s.tableau s.outer with
  | some (_, j), some (_, n) => decide (j = n + 2)
  | _, _ => false

/-- insertion.py:239-246 `pop()`. -/
def HState.pop (s : HState) : Option (Tab × Int) :=
  match s.outer with
  | none => none
  | some b =>
    match s.tableau.remove? b, s.tableau.entry b with
    | some t, some v => some (t, v)
    | _, _ => none

/-- `[self.get(*b) for b in boxes]`. -/
def entriesAt (T : Tab) : List (Nat × Nat) → Option (List Int)
  | [] => some []
  | b :: bs =>
    match T.entry b, entriesAt T bs with
    | some v, some l => some (v :: l)
    | _, _ => none

/-- insertion.py:333-335: `while self.get(i, x) <= a: x += 1`, at most `fuel` tests. -/
def firstGreater (T : Tab) (i : Nat) (a : Int) : Nat → Nat → Option Nat
  | 0, _ => none
  | fuel + 1, x =>
    match T.entry (i, x) with
    | none => none
    | some v => if v ≤ a then firstGreater T i a fuel (x + 1) else some x

/-- insertion.py:338: `self.get(*b) < a`. -/
def entryLt (T : Tab) (b : Nat × Nat) (a : Int) : Option Bool := (T.entry b).map (fun v => decide (v < a))

/-- insertion.py:338: the condition of R2. -/
def condR2 (T : Tab) (i x : Nat) (a : Int) : Option Bool :=
  match (if x = 1 then some true else entryLt T (i, x - 1) a) with
  | none => none
  | some false => some false
  | some true => if i = 1 then some true else entryLt T (i - 1, x) a

/-- insertion.py:323-331: row transition R1. -/
def transitionR1 (T : Tab) (i n : Nat) (a : Int) (row : List Int) : Option (HState × (Nat × Nat)) :=
  let j := 1 + row.length
  match entriesAt T ((T.items.map Prod.fst).filter (fun b => decide (b.2 = j))) with
  | none => none
  | some col =>
    match (if row.all (fun x => decide (x < a)) && col.all (fun x => decide (x < a))
        then (T.add (i, j) a).remove? (i, n) else T.remove? (i, n)) with
    | none => none
    | some t => (mkState t none).map (fun s => (s, (i, j)))

/-- insertion.py:333-345: row transitions R2 and R3. -/
def transitionR23 (T : Tab) (i n : Nat) (a : Int) : Option (HState × (Nat × Nat)) :=
  match firstGreater T i a n 1 with
  | none => none
  | some x =>
    match T.entry (i, x), condR2 T i x a with
    | some b, some true =>
      match (T.add (i + 1, n) b).replace? (i, x) a with
      | none => none
      | some t =>
        match t.remove? (i, n) with
        | none => none
        | some t => (mkState t (some (i + 1, n))).map (fun s => (s, (i, x)))
    | some b, some false =>
      match (T.add (i + 1, n) b).remove? (i, n) with
      | none => none
      | some t => (mkState t (some (i + 1, n))).map (fun s => (s, (i, x)))
    | _, _ => none

/-- insertion.py:315-345 `_row_transition`. -/
def rowTransition (s : HState) : Option (HState × (Nat × Nat)) :=
  match s.outer with
  | none => none
  | some (i, n) =>
    let T := s.tableau
    match T.entry (i, n),
        entriesAt T (((List.range' 1 (n - 1)).filter (fun x => T.has (i, x))).map (fun x => (i, x))) with
    | some a, some row =>
      let row := sortInts row
      if entriesAt T ((List.range' 1 row.length).map (fun x => (i, x))) = some row then
        if row.all (fun x => decide (x ≤ a)) then transitionR1 T i n a row else transitionR23 T i n a
      else none
    | _, _ => none

/-- insertion.py:347-351 `next()`. -/
def HState.next (s : HState) : Option (HState × Option (Nat × Nat)) :=
  if s.outerInLastColumn then (rowTransition s).map (fun r => (r.1, some r.2)) else some (s, none)

/-- insertion.py:251-258 `list(self.path())`, at most `fuel` rounds. -/
def path : Nat → HState → Option (List (HState × (Nat × Nat)))
  | 0, _ => none
  | fuel + 1, s =>
    match s.next with
    | none => none
    | some (_, none) => some []
    | some (s', some b) => (path fuel s').map (fun p => (s', b) :: p)

/-- insertion.py:260-266 `insert(a)`.  The path has at most one box in each row of the tableau and one more; the model
allows `fuel` rounds. -/
def HState.insert (fuel : Nat) (s : HState) (a : Int) : Option (HState × List (Nat × Nat)) :=
  match s.add a with
  | none => none
  | some s' =>
    match path fuel s' with
    | none => none
    | some p => p.getLast?.map (fun l => (l.1, p.map Prod.snd))

/-- insertion.py:305-310: the box that receives the new entry of the recording tableau.  (The `elif` in lines 308-310
repeats the condition of line 305 and is never executed.) -/
def recordBox (T : Tab) (b : Nat × Nat) : Option (Nat × Nat) :=
  if T.has b then some b
  else (((T.items.map Prod.fst).filter (fun c => decide (c.2 + 1 = b.2))).map Prod.fst).max?.map (fun a => (a, b.2 - 1))

/-- insertion.py:297-313 `push(p, q, arg)` on a cache miss. -/
def push (p q : Tab) (arg : Int) : Option (Tab × Tab) :=
  match q.last, mkState p none with
  | some l, some s =>
    match s.insert (p.maxRow + 3) arg with
    | none => none
    | some (s', path) =>
      match path.getLast? with
      | none => none
      | some b => (recordBox s'.tableau b).map (fun c => (s'.tableau, q.add c (1 + (l.natAbs : Int))))
  | _, _ => none

/-- insertion.py:8 `HSTATE_CACHE`. -/
abbrev HCache := Dict (Tab × Tab × Int) (Tab × Tab)

/-- insertion.py:297-313 `push(p, q, arg)` with the cache (nothing is stored when an exception is raised). -/
def pushCached (C : HCache) (p q : Tab) (arg : Int) : Option (Tab × Tab) × HCache :=
  match C.get? (p, q, arg) with
  | some r => (some r, C)
  | none =>
    match push p q arg with
    | none => (none, C)
    | some r => (some r, C.set (p, q, arg) r)

/-- insertion.py:293-295: the loop of `insertion_tableaux`. -/
def insertAll (C : HCache) : Tab → Tab → List Int → Option (Tab × Tab) × HCache
  | p, q, [] => (some (p, q), C)
  | p, q, a :: args =>
    match pushCached C p q a with
    | (none, C') => (none, C')
    | (some (p', q'), C') => insertAll C' p' q' args

/-- insertion.py:284-295 `insertion_tableaux(*args)`. -/
def insertionTableaux (C : HCache) (args : List Int) : Option (Tab × Tab) × HCache := insertAll C Tab.empty Tab.empty args

/-- insertion.py:368-370: `while (i - 1, j) in t and (i - 1, j + 1) not in t: i = i - 1`. -/
def climb (T : Tab) (j : Nat) : Nat → Nat
  | 0 => 0
  | i + 1 => if T.has (i, j) && !T.has (i, j + 1) then climb T j i else i + 1

/-- insertion.py:361-380 `_inverse_terminal_transition(record)`. -/
def inverseTerminal (s : HState) (record : (Nat × Nat) × List Int) : Option HState :=
  let i := record.1.1
  let j := record.1.2
  let T := s.tableau
  let values := record.2.dedup
  if values.length = 1 then
    match T.entry (i, j), T.remove? (i, j) with
    | some c, some t => mkState (t.add (i, t.maxColumn + 2) c) (some (i, t.maxColumn + 2))
    | _, _ => none
  else if values.length > 1 then
    let i := climb T j i
    match T.entry (i, j), T.entryD (i - 1, j + 1) 0 with
    | some u, some v => mkState (T.add (i, T.maxColumn + 2) (max u v)) (some (i, T.maxColumn + 2))
    | _, _ => none
  else none

/-- insertion.py:386-388: `while (i - 1, x + 1) in self and self.get(i - 1, x + 1) <= b: x += 1` in row `r = i - 1`, at
most `fuel` tests. -/
def lastLe (T : Tab) (r : Nat) (b : Int) : Nat → Nat → Option Nat
  | 0, _ => none
  | fuel + 1, x =>
    if T.has (r, x + 1) then
      match T.entry (r, x + 1) with
      | none => none
      | some v => if v ≤ b then lastLe T r b fuel (x + 1) else some x
    else some x

/-- insertion.py:382-400 `_inverse_row_transition`. -/
def inverseRow (s : HState) : Option HState :=
  match s.outer with
  | none => none
  | some (i, n) =>
    let T := s.tableau
    match T.entry (i, n) with
    | none => none
    | some b =>
      match lastLe T (i - 1) b n 1 with
      | none => none
      | some x =>
        match T.entry (i - 1, x) with
        | none => none
        | some a =>
          if a = b then
            match T.entry (i - 1, x - 1), T.entryD (i - 2, x) 0, T.remove? (i, n) with
            | some u, some v, some t => mkState (t.add (i - 1, n) (max u v)) (some (i - 1, n))
            | _, _, _ => none
          else
            match T.remove? (i, n) with
            | none => none
            | some t =>
              match t.replace? (i - 1, x) b with
              | none => none
              | some t => mkState (t.add (i - 1, n) a) (some (i - 1, n))

/-- insertion.py:353-359 `previous(record)` (with `record = None` the terminal transition raises). -/
def HState.previous (s : HState) (record : Option ((Nat × Nat) × List Int)) : Option HState :=
  if s.isInitial then some s
  else if s.outerInLastColumn then inverseRow s
  else record.bind (inverseTerminal s)

/-- insertion.py:277-278: `while not s.is_initial(): s, _ = s.previous()`, at most `fuel` rounds. -/
def rewind : Nat → HState → Option HState
  | 0, s => if s.isInitial then some s else none
  | fuel + 1, s => if s.isInitial then some s else (s.previous none).bind (rewind fuel)

/-- insertion.py:275-279: one round of `inverse_insertion`: the new `p`, `q` and the letter `v`. -/
def unpush (p q : Tab) : Option (Tab × Tab × Int) :=
  match q.pop with
  | none => none
  | some (q', record) =>
    match (mkState p none).bind (fun s => s.previous (some record)) with
    | none => none
    | some s =>
      match (rewind (p.maxRow + 2) s).bind HState.pop with
      | none => none
      | some (p', v) => some (p', q', v)

/-- insertion.py:271-281 `inverse_insertion(p, q)`, at most `fuel` rounds. -/
def inverseInsertion : Nat → Tab → Tab → List Int → Option (List Int)
  | 0, p, _, ans => if p.items = [] then some ans else none
  | fuel + 1, p, q, ans =>
    if p.items = [] then some ans
    else
      match unpush p q with
      | none => none
      | some (p', q', v) => inverseInsertion fuel p' q' (v :: ans)

/-- insertion.py:101-114 `_check_record(word, record, multisetvalued)`: the values `mapping[1], mapping[2], ...`. -/
def checkRecord (word : List Int) (record : Option (List Int)) (multisetvalued : Bool) : Option (List Int) :=
  let record := record.getD ((List.range word.length).map (fun k : Nat => (k : Int) + 1))
  if word.length ≠ record.length then none
  else if !(List.range (record.length - 1)).all (fun i => decide (record.getD i 0 ≤ record.getD (i + 1) 0)) then none
  else if multisetvalued then
    if (List.range (record.length - 1)).all (fun i =>
        !decide (word.getD i 0 > word.getD (i + 1) 0) || decide (record.getD i 0 < record.getD (i + 1) 0))
    then some record else none
  else
    if (List.range (record.length - 1)).all (fun i =>
        !decide (word.getD i 0 ≤ word.getD (i + 1) 0) || decide (record.getD i 0 < record.getD (i + 1) 0))
    then some record else none

/-- insertion.py:110-113: `mapping[x]`; `none` is the KeyError. -/
def mappingAt (record : List Int) (x : Int) : Option Int :=
  if x > 0 then record[x.toNat - 1]?
  else if x < 0 then (record[x.natAbs - 1]?).map (fun v => -v)
  else none

/-- insertion.py:125-133 `hecke(word, record, multisetvalued)`. -/
def hecke (C : HCache) (word : List Int) (record : Option (List Int)) (multisetvalued : Bool) :
    Option (Tab × Tab) × HCache :=
  match checkRecord word record multisetvalued with
  | none => (none, C)
  | some rec =>
    match insertionTableaux C word with
    | (none, C') => (none, C')
    | (some (p, q), C') =>
      if multisetvalued then ((q.apply? (mappingAt rec)).map (fun q => (p, q)), C')
      else ((q.transpose.apply? (mappingAt rec)).map (fun q => (p.transpose, q)), C')

/-- insertion.py:122: `record[abs(v) - 1] = abs(recording_tableau.get(i, j, unpack=False)[k])` with `v = value[k]`; `none`
is the IndexError or the TypeError. -/
def recordEntry (recording : Tab) (b : Nat × Nat) (value rec : List Int) (k : Nat) : Option (List Int) :=
  let v := (value.getD k 0).natAbs
  match recording.get? b with
  | none => none
  | some s =>
    match s[k]? with
    | none => none
    | some u => if 1 ≤ v ∧ v ≤ rec.length then some (rec.set (v - 1) (u.natAbs : Int)) else none

/-- insertion.py:119-122: the list `record`. -/
def recordList (recording standard : Tab) : Option (List Int) :=
  standard.items.foldlM (fun (rec : List Int) p => (List.range p.2.length).foldlM (recordEntry recording p.1 p.2) rec)
    (List.replicate recording.len 0)

/-- insertion.py:151-158 `inverse_hecke(insertion_tableau, recording_tableau, multisetvalued)`. -/
def inverseHecke (p q : Tab) (multisetvalued : Bool) : Option (List Int × List Int) :=
  let standard := q.standardize
  match recordList q standard with
  | none => none
  | some record =>
    let p' := if multisetvalued then p else p.transpose
    let q' := if multisetvalued then standard else standard.transpose
    (inverseInsertion (q.len + 1) p' q' []).map (fun word => (word, record))

end Verif.Insertion
