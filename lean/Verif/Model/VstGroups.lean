import Verif.Model.Vst

/-!
# Model of the groups of a valued-set tableau (vst.py)

A valued-set tableau is given by its tableau `T` and its grouping `G`.  A python exception is `none`.
-/

namespace Verif.Vst

/-- vst.py:41-42 `is_group_end(i, j)`. -/
def isGroupEnd (T G : Tab) (b : Nat × Nat) : Bool := T.has b && !truthy G b

/-- vst.py:44-50 `is_group_start(i, j)`.  For an entry 0 python returns None, which is used as False. -/
def isGroupStart (T G : Tab) (b : Nat × Nat) : Option Bool :=
  if !T.has b then some false
  else match T.entry b with
    | none => none
    | some a =>
      if 0 < a then
        if !T.has (b.1, b.2 - 1) then some true
        else (T.entry (b.1, b.2 - 1)).map (fun c => !(decide (0 < c) && truthy G (b.1, b.2 - 1)))
      else if a < 0 then
        if !T.has (b.1 + 1, b.2) then some true
        else (T.entry (b.1 + 1, b.2)).map (fun c => !(decide (c < 0) && truthy G (b.1 + 1, b.2)))
      else some false

/-- vst.py:52-53 `is_singleton(i, j)`. -/
def isSingleton (T G : Tab) (b : Nat × Nat) : Option Bool := if isGroupEnd T G b then isGroupStart T G b else some false

/-- vst.py:70-73 `singletons()` without arguments. -/
def singletons (T G : Tab) : Option (List (Nat × Nat)) :=
  let l := T.items.map Prod.fst
  if l.all (fun b => (isSingleton T G b).isSome) then some (l.filter (fun b => decide (isSingleton T G b = some true))) else none

/-- vst.py:60, 66: `t[x, y] = abs(self.tableau.get(x, y))`. -/
def unprimeBox (T : Tab) (t : Tab) (b : Nat × Nat) : Option Tab := (T.entry b).map (fun a => t.set b [|a|])

/-- vst.py:58-62 `unprime()`. -/
def unprime (T G : Tab) : Option (Tab × Tab) :=
  (singletons T G).bind (fun l => (l.foldlM (unprimeBox T) T).bind (fun t => mk? t G))

/-- vst.py:64-68, 75-76 `unprime_diagonal()`. -/
def unprimeDiagonal (T G : Tab) : Option (Tab × Tab) :=
  (singletons T G).bind (fun l =>
    ((l.filter (fun b => decide (b.1 = b.2))).foldlM (unprimeBox T) T).bind (fun t => mk? t G))

/-- vst.py:122 `ofn`. -/
def ofn (x : Int) : Int := if x < 0 then -2 - 2 * x else 2 * x - 1

/-- vst.py:125-129: the test for a box and the box in the row before; `none` is a TypeError. -/
def rowTest (T : Tab) (b : Nat × Nat) : Option Bool :=
  (T.entry b).bind (fun x => (T.entry (b.1 - 1, b.2)).map (fun y =>
    !(decide (ofn x < ofn y) || (decide (ofn x = ofn y) && decide (ofn x % 2 ≠ 0)))))

/-- vst.py:130-134: the test for a box and the box to the right. -/
def colTest (T : Tab) (b : Nat × Nat) : Option Bool :=
  (T.entry b).bind (fun x => (T.entry (b.1, b.2 + 1)).map (fun y =>
    !(decide (ofn x > ofn y) || (decide (ofn x = ofn y) && decide (ofn x % 2 = 0)))))

/-- vst.py:121-135 `is_semistandard()`, for tableaux with one number in each box (otherwise it may raise, and the model gives
`none`); the order in which python traverses the sets does not matter then. -/
def isSemistandardV (T : Tab) : Option Bool :=
  let l := T.items.map Prod.fst
  let rowint := l.filter (fun b => T.has (b.1 - 1, b.2))
  let colint := l.filter (fun b => T.has (b.1, b.2 + 1))
  if rowint.all (fun b => (rowTest T b).isSome) && colint.all (fun b => (colTest T b).isSome) then
    some (rowint.all (fun b => decide (rowTest T b = some true)) && colint.all (fun b => decide (colTest T b = some true)))
  else none

end Verif.Vst
