import Verif.Model.Vst

/-!
# Model of `hinge` in /repo/vst.py
-/

namespace Verif.Vst

/-- vst.py:35-37: `tab.get(i, j) in args`; neither None nor a tuple is in the list. -/
def inArgs (T : Tab) (index : Int) (b : Nat × Nat) : Bool :=
  match T.entry b with
  | some v => decide (v ∈ [index, -index, index + 1, -index - 1])
  | none => false

/-- vst.py:33-39 `hinge(index)`; a failing assertion is `none`, and the returned None is `some none`. -/
def hinge? (T : Tab) (index : Int) : Option (Option Nat) :=
  if 0 < index then
    let x := ((T.items.map Prod.fst).filter (fun b => decide (b.1 = b.2) && inArgs T index b && inArgs T index (b.1, b.2 + 1) &&
      inArgs T index (b.1 + 1, b.2 + 1))).map Prod.fst
    if x.length ≤ 1 then some x.head? else none
  else none

end Verif.Vst
