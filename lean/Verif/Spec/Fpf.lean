import Verif.Model.Permutations

/-! Notions used to state property C58. -/

namespace Verif.PermSpec

open Verif.Perm

/-- `w` is a permutation of `1..rank` without signs, fixed points, or cycles longer than two. -/
def FpfInvolution (w : SPerm) : Prop :=
  ∀ x : Int, 0 < x → x ≤ w.rank → 0 < w.call x ∧ w.call x ≠ x ∧ w.call (w.call x) = x

/-- `w` is `v` on `1..rank(v)`, followed by the cycles `(m + 1, m + 2), (m + 3, m + 4), ...` up to the rank of `w`; this is
for even `m = rank(v)`. -/
def FpfExtends (v w : SPerm) : Prop :=
  v.rank ≤ w.rank ∧ ∀ x : Int, 0 < x →
    w.call x = if x ≤ v.rank then v.call x else if x ≤ w.rank then (if x % 2 = 1 then x + 1 else x - 1) else x

end Verif.PermSpec
