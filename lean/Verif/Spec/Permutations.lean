import Verif.Model.HeckeLevels

/-! Specification notions for words in the generators of the signed permutation groups.  They use the group operations
of the code (`Permutation.__mul__`, `s_i`, `__len__`) and nothing else. -/

namespace Verif.PermSpec

open Verif.Perm

/-- The product of a word in the 0-Hecke monoid: a letter that does not increase the length is skipped. -/
def demazure (w : List Nat) : SPerm :=
  w.foldl (fun u i => if len u < len (mul u (s i)) then mul u (s i) else u) identity

/-- The number of weak ascents of a word: neighbours `a ≤ b`. -/
def weakAscents (w : List Nat) : Nat := (w.zip w.tail).countP (fun p => p.1 ≤ p.2)

/-- The words with letters `1, ..., n - 1`, of length `t`, with fewer than `ab` weak ascents (if a bound is given). -/
def LevelWord (n : Nat) (ab : Option Int) (t : Nat) (w : List Nat) : Prop :=
  w.length = t ∧ (∀ i ∈ w, 1 ≤ i ∧ i < n) ∧ (t = 0 ∨ ∀ b, ab = some b → (weakAscents w : Int) < b)

/-- The arguments `(n, length_bound, ascent_bound)` of the calls of `hecke_levels` in a history, in order. -/
def createArgs (history : List LevelAction) : List (Nat × Option Int × Option Int) :=
  history.filterMap (fun a => match a with
    | .create n lb ab => some (n, lb, ab)
    | .resume _ => none)

/-- No generator is resumed again after another generator with the same `n` and `ascent_bound` has been resumed.
(Generators with different `n` or `ascent_bound` may be interleaved at will, and generators may be abandoned.) -/
def NoOverlap (history : List LevelAction) : Prop :=
  ∀ (t1 t2 t3 k j : Nat) (n : Nat) (lb lb' ab : Option Int), t1 < t2 → t2 < t3 → history[t1]? = some (LevelAction.resume k) → history[t2]? = some (LevelAction.resume j) →
    history[t3]? = some (LevelAction.resume k) → j ≠ k →
    (createArgs history)[k]? = some (n, lb, ab) → (createArgs history)[j]? ≠ some (n, lb', ab)

end Verif.PermSpec
