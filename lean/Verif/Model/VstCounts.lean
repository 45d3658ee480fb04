import Verif.Model.VstLines

/-!
# Model of `is_highest_weight` and `primed_groups` in /repo/vst.py, for tableaux with one number in each box
-/

namespace Verif.Vst

/-- vst.py:30-31 `is_highest_weight()`. -/
def isHighestWeight (T G : Tab) : Bool := (T.items.map Prod.fst).all (fun b => decide (G.entry b = some 0))

/-- vst.py:82-87 `primed_groups(*args)`. -/
def primedGroups (T G : Tab) (args : List Int) : Nat :=
  if args.length = 0 then
    ((T.items.map Prod.fst).filter (fun b => decide ((T.entry b).getD 0 < 0) && !truthy G b)).length
  else
    ((T.items.map Prod.fst).filter (fun b => decide ((T.entry b).getD 0 ∈ args.map (fun a => -|a|)) && !truthy G b)).length

end Verif.Vst
