import Verif.Model.TabOps
import Mathlib.Data.Finset.Union
import Mathlib.Data.Finset.Image

/-!
# Model of the generation of valued-set tableaux in /repo/vst.py

A `ValuedSetTableau` is a pair of a tableau and a grouping (two `Tableau` objects); equality is equality of both
(vst.py:647-648).  A failing assertion or a python exception is `none`.  The rows of a tableau are numbered from 1, so that there is
no box in the row `0`.
-/

namespace Verif.Vst

/-- `bool(grp.get(i, j))`: a missing box gives None. -/
def truthy (G : Tab) (b : Nat × Nat) : Bool :=
  match G.get? b with
  | none => false
  | some [v] => decide (v ≠ 0)
  | some s => decide (s ≠ [])

/-- vst.py:137-146 `is_valid_position(tab, grp, i, j)` for a box `b` of the tableau, where `g` is the truth value computed in L140.
Comparing a tuple with `0` raises a TypeError. -/
def isValidPosition (T : Tab) (g : Bool) (b : Nat × Nat) : Option Bool :=
  if g then
    match T.entry b with
    | none => none
    | some a =>
      if 0 < a then some (decide (some a = T.entry (b.1, b.2 + 1)))
      else some (decide (some a = T.entry (b.1 - 1, b.2)))
  else some true

/-- vst.py:148-152 `__init__` for two tableaux; `all` stops at the first failing box, and then the assertion fails. -/
def mk? (T G : Tab) : Option (Tab × Tab) :=
  if T.items.all (fun p => decide (isValidPosition T (truthy G p.1) p.1 = some true)) then some (T, G) else none

/-- vst.py:554: `grp`, in the order of `g` (L555). -/
def validList (T : Tab) : Option (List ((Nat × Nat) × Bool)) :=
  if T.items.all (fun p => (isValidPosition T true p.1).isSome) then
    some (T.items.map (fun p => (p.1, decide (isValidPosition T true p.1 = some true))))
  else none

/-- vst.py:559-564: the loop over the boxes, with the current value of `v`. -/
def groupBits : List ((Nat × Nat) × Bool) → Nat → List ((Nat × Nat) × Int)
  | [], _ => []
  | (b, true) :: t, v => (b, ((v % 2 : Nat) : Int)) :: groupBits t (v / 2)
  | (b, false) :: t, v => (b, 0) :: groupBits t v

/-- vst.py:558-565: `Tableau(next_grp)`. -/
def nextGroup (grp : List ((Nat × Nat) × Bool)) (v : Nat) : Tab :=
  (groupBits grp v).foldl (fun G p => G.set p.1 [p.2]) Tab.empty

/-- vst.py:554-566: the valued-set tableaux made from one tableau. -/
def ofTab (T : Tab) : Option (List (Tab × Tab)) :=
  (validList T).bind (fun grp =>
    let e := (grp.map (fun p => if p.2 then 1 else 0)).sum
    (List.range (2 ^ e)).mapM (fun v => mk? T (nextGroup grp v)))

/-- vst.py:549-567 `_all(max_entry, mu, nu, diagonal_primes)`, where `tabs` lists the tableaux of L552 in the order of iteration. -/
def allOf (tabs : List Tab) : Option (Finset (Tab × Tab)) :=
  tabs.foldlM (fun ans T => (ofTab T).map (fun l => ans ∪ l.toFinset)) ∅

/-- vst.py:91-94: the body of the loop of `weight` for a box `b` of the grouping. -/
def weightStep (T G : Tab) (ans : List Nat) (b : Nat × Nat) : Option (List Nat) :=
  if truthy G b then some ans
  else match T.entry b with
    | none => none
    | some a =>
      let k := if a = 0 then ans.length - 1 else a.natAbs - 1
      if k < ans.length then some (ans.set k (ans.getD k 0 + 1)) else none

/-- vst.py:89-95 `weight(n)`. -/
def weight (T G : Tab) (n : Nat) : Option (List Nat) :=
  (G.items.map Prod.fst).foldlM (weightStep T G) (List.replicate n 0)

end Verif.Vst
