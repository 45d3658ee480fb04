import Verif.Model.TabOps
import Mathlib.Data.List.Sort

/-! # Model of /repo/tableaux.py, `is_shifted_column_superstandard` -/

namespace Verif.Tab

/-- tableaux.py:188: the order of boxes by `itemgetter(1, 0)`. -/
def columnLe (a b : Nat × Nat) : Prop := a.2 < b.2 ∨ (a.2 = b.2 ∧ a.1 ≤ b.1)

instance : DecidableRel columnLe := fun a b => inferInstanceAs (Decidable (a.2 < b.2 ∨ (a.2 = b.2 ∧ a.1 ≤ b.1)))

/-- tableaux.py:188-193: the loop over the boxes; a tuple is different from the int `c`. -/
def superLoop (T : Tab) : List (Nat × Nat) → Int → Bool
  | [], _ => true
  | b :: l, c =>
    if b.1 = b.2 ∧ T.entry b ≠ some c then false
    else if b.1 ≠ b.2 ∧ T.entry b ≠ some c then false
    else superLoop T l (c + 1)

/-- tableaux.py:184-194 `is_shifted_column_superstandard()`. -/
def isShiftedColumnSuperstandard (T : Tab) : Bool :=
  if T.items.any (fun p => decide (1 < p.2.length)) then false
  else superLoop T ((T.items.map Prod.fst).insertionSort columnLe) 1

end Verif.Tab
