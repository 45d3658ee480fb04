import Verif.Model.ShiftedGrowth
import Verif.Model.Tableau

/-!
# Model of `from_shifted_growth_diagram` in /repo/tableaux.py

The three arrays are kept together, as in Verif/Model/ShiftedGrowth.lean.
-/

namespace Verif.Tableaux
open Partition

/-- `growth[i][j]`, `edges[i][j]`, `corners[i][j]`; in the calls below the indices are within the arrays. -/
def growthEntry (g : List (List GCell)) (i j : Nat) : GCell := (g.getD i []).getD j GCell.init

/-- tableaux.py:329-331 `last_box_in_row(row)`. -/
def lastBoxInRow (T : Tab) (row : Nat) : Option Nat := ((T.items.filter (fun q => decide (q.1.1 = row))).map (fun q => q.1.2)).max?

/-- tableaux.py:333-335 `last_box_in_column(col)`. -/
def lastBoxInColumn (T : Tab) (col : Nat) : Option Nat := ((T.items.filter (fun q => decide (q.1.2 = col))).map (fun q => q.1.1)).max?

/-- tableaux.py:1254-1257: the first loop after the rows `1, ..., n`. -/
def growthP (g : List (List GCell)) (m : Nat) : Nat → Tab
  | 0 => Tab.empty
  | n + 1 => addAll (skew (growthEntry g (n + 1) m).shape (growthEntry g n m).shape true) ((n + 1 : Nat) : Int) (growthP g m n)

/-- tableaux.py:1260-1271: the body of the second loop; `none` is an exception. -/
def growthQStep (g : List (List GCell)) (n i : Nat) (q : Tab) : Option Tab :=
  let mu := (growthEntry g n i).shape
  let nu := (growthEntry g n (i - 1)).shape
  let v : Int := if (growthEntry g n i).edge then -(i : Int) else i
  if mu ≠ nu then
    match skew mu nu true with
    | [] => none
    | b :: _ => some (q.add b v)
  else match (growthEntry g n i).corner with
    | none => none
    | some j =>
      if v < 0 then (lastBoxInColumn q j).map (fun x => q.add (x, j) v)
      else (lastBoxInRow q j).map (fun x => q.add (j, x) v)

/-- tableaux.py:1259: the second loop after the columns `1, ..., m`. -/
def growthQ (g : List (List GCell)) (n : Nat) : Nat → Option Tab
  | 0 => some Tab.empty
  | m + 1 => (growthQ g n m).bind (growthQStep g n (m + 1))

/-- tableaux.py:1246-1273 `from_shifted_growth_diagram(growth, edges, corners)`; the last row index of an empty array is -1, and both loops are
then empty. -/
def fromShiftedGrowth (g : List (List GCell)) : Option (Tab × Tab) :=
  let n := g.length - 1
  let m := (g.getD 0 []).length - 1
  (growthQ g n m).map (fun q => (growthP g m n, q))

end Verif.Tableaux
