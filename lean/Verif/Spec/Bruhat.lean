import Verif.Model.Involutions
import Mathlib.Logic.Relation

/-! # The Bruhat order on signed permutations, without words and without the length function -/

namespace Verif.PermSpec

open Verif.Perm

/-- `w` has the values of `u`, except that the values at `a` and `b`, and so those at `-a` and `-b`, are exchanged. -/
def Swap (a b : Int) (u w : SPerm) : Prop :=
  w.call a = u.call b ∧ w.call b = u.call a ∧ ∀ x : Int, x.natAbs ≠ a.natAbs → x.natAbs ≠ b.natAbs → w.call x = u.call x

/-- `w` comes from `u` by exchanging two values that stand in increasing order (positions may be negative, not 0). -/
def BruhatStep (u w : SPerm) : Prop := ∃ a b : Int, a ≠ 0 ∧ b ≠ 0 ∧ a < b ∧ u.call a < u.call b ∧ Swap a b u w

/-- The Bruhat order. -/
def BruhatLE : SPerm → SPerm → Prop := Relation.ReflTransGen BruhatStep

/-- `w` covers `v` in the Bruhat order. -/
def BruhatCovers (v w : SPerm) : Prop :=
  BruhatLE v w ∧ v ≠ w ∧ ∀ x, BruhatLE v x → BruhatLE x w → x = v ∨ x = w

end Verif.PermSpec
