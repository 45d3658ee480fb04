import Verif.Model.TabOps
import Mathlib.Algebra.Order.Group.Unbundled.Int

/-!
# Model of `size`, `abs_sum`, `shape`, `setvalued_excess` and `counter` of `Tableau` (tableaux.py)
-/

namespace Verif.Tab

/-- tableaux.py:79-80 `size()`. -/
def size (T : Tab) : Nat := T.items.length

/-- tableaux.py:82-87 `abs_sum()`. -/
def absSum (T : Tab) : Int := T.items.foldl (fun ans p => p.2.foldl (fun ans x => ans + |x|) ans) 0

/-- tableaux.py:429-433 `shape()`. -/
def rowShape (T : Tab) : List Nat :=
  (List.range T.maxRow).map (fun i => (T.items.filter (fun p => decide (p.1.1 = i + 1))).length)

/-- tableaux.py:435-436 `setvalued_excess()`. -/
def setvaluedExcess (T : Tab) : Int := (T.items.map (fun p => (p.2.length : Int) - 1)).sum

/-- tableaux.py:476-481 `counter()`. -/
def counter (T : Tab) : Dict Int Nat :=
  T.items.foldl (fun ans p => p.2.foldl (fun ans x => ans.set x (ans.getD x 0 + 1)) ans) Dict.empty

end Verif.Tab
