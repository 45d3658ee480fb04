import Verif.Model.TabOps

/-! # Model of /repo/tableaux.py, `rpp_excess` -/

namespace Verif.Tab

/-- tableaux.py:438-439: `v is self.get(i + 1, j)` for the tuple `v` in the box `b`.  An int or None is never the same
object as a tuple.  Whether two tuples are the same object depends on how the tableau was made; this is `same`. -/
def isBelow (same : Nat × Nat → Bool) (T : Tab) (b : Nat × Nat) : Bool :=
  match T.get? (b.1 + 1, b.2) with
  | none => false
  | some [_] => false
  | some _ => same b

/-- tableaux.py:438-439 `rpp_excess()`: the sum of a list of pairs, which raises a TypeError unless the list is empty. -/
def rppExcess (same : Nat × Nat → Bool) (T : Tab) : Option Int :=
  if (T.items.map Prod.fst).filter (isBelow same T) = [] then some 0 else none

end Verif.Tab
