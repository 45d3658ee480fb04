import Verif.Model.VstGroups

/-!
# Model of `get_horizontals`, `get_verticals` and `in_same_group` (vst.py)

A failing assertion is `none`.
-/

namespace Verif.Vst

/-- vst.py:165: the key `(ij[0], -ij[1])`. -/
def hKeyLe (a b : Nat × Nat) : Prop := a.1 < b.1 ∨ (a.1 = b.1 ∧ b.2 ≤ a.2)

/-- vst.py:156: the key `(-ij[1], ij[0])`. -/
def vKeyLe (a b : Nat × Nat) : Prop := b.2 < a.2 ∨ (a.2 = b.2 ∧ a.1 ≤ b.1)

instance (a b : Nat × Nat) : Decidable (hKeyLe a b) := by unfold hKeyLe; infer_instance
instance (a b : Nat × Nat) : Decidable (vKeyLe a b) := by unfold vKeyLe; infer_instance
instance : DecidableRel hKeyLe := fun _ _ => inferInstance
instance : DecidableRel vKeyLe := fun _ _ => inferInstance

/-- vst.py:156, 165: the boxes with entry `v` and grouping 0. -/
def endsOf (T G : Tab) (v : Int) : List (Nat × Nat) :=
  (T.items.map Prod.fst).filter (fun b => decide (T.entry b = some v) && !truthy G b)

/-- vst.py:168: the condition of the loop, for the current box `b` and the next one `c`. -/
def hStep (T G : Tab) (b c : Nat × Nat) : Bool :=
  match T.entry b with
  | some a => truthy G c && decide (T.entry c = some a) && decide (0 < a)
  | none => false

/-- vst.py:159: the condition of the loop. -/
def vStep (T G : Tab) (b c : Nat × Nat) : Bool :=
  match T.entry b with
  | some a => truthy G c && decide (T.entry c = some a) && decide (a < 0)
  | none => false

/-- vst.py:168-169: the loop, in the row `i`. -/
def hStart (T G : Tab) (i : Nat) : Nat → Nat
  | 0 => 0
  | j + 1 => if hStep T G (i, j + 1) (i, j) then hStart T G i j else j + 1

/-- vst.py:159-160: the loop, in the column `j`; the first argument bounds the number of steps. -/
def vEnd (T G : Tab) (j : Nat) : Nat → Nat → Nat
  | 0, i => i
  | k + 1, i => if vStep T G (i, j) (i + 1, j) then vEnd T G j k (i + 1) else i

/-- vst.py:163-171 `get_horizontals(v)`: starts and ends. -/
def getHorizontals (T G : Tab) (v : Int) : Option (List (Nat × Nat) × List (Nat × Nat)) :=
  if 0 < v then
    let e := (endsOf T G v).insertionSort hKeyLe
    some (e.map (fun b => (b.1, hStart T G b.1 b.2)), e)
  else none

/-- vst.py:154-162 `get_verticals(v)`: starts and ends.  The loop stops at the last row of the tableau at the latest. -/
def getVerticals (T G : Tab) (v : Int) : Option (List (Nat × Nat) × List (Nat × Nat)) :=
  if v < 0 then
    let s := (endsOf T G v).insertionSort vKeyLe
    some (s, s.map (fun b => (vEnd T G b.2 (T.maxRow + 1) b.1, b.2)))
  else none

/-- vst.py:633-642 `in_same_group(i, j, x, y)`.  Where the grouping is not 0, the box is in the tableau, so that no exception is raised for
tableaux with one number in each box. -/
def inSameGroup (T G : Tab) (b c : Nat × Nat) : Bool :=
  if b.1 = c.1 ∧ c.2 = b.2 + 1 then truthy G b && decide (0 < (T.entry b).getD 0)
  else if b.1 = c.1 ∧ c.2 + 1 = b.2 then truthy G c && decide (0 < (T.entry c).getD 0)
  else if b.1 + 1 = c.1 ∧ c.2 = b.2 then truthy G b && decide ((T.entry b).getD 0 < 0)
  else if b.1 = c.1 + 1 ∧ c.2 = b.2 then truthy G c && decide ((T.entry c).getD 0 < 0)
  else false

end Verif.Vst
