import Verif.Model.Dict
import Mathlib.Data.Int.Notation

/-!
# Model of /repo/permutations.py (signed permutations)

A `Permutation` is its field `_oneline`, a tuple of ints.  The fields `_rdes`, `_ldes`, `_len` cache values of the
object and are not modelled.  A failing `assert` is `none`; where an operation calls the constructor the model has a
version with suffix `?` returning an `Option` and one without it for the value, and C32 shows that the former is
always `some` of the latter.
-/

namespace Verif.Perm

/-- permutations.py:36-37: at most `k` rounds of `while oneline and oneline[-1] == len(oneline): oneline = oneline[:-1]`. -/
def trimRounds : Nat → List Int → List Int
  | 0, l => l
  | k + 1, l => if l.getLast? = some (l.length : Int) then trimRounds k l.dropLast else l

/-- permutations.py:36-37: the loop; there are at most `len(oneline)` rounds (`trimLine_eq`). -/
def trimLine (l : List Int) : List Int := trimRounds l.length l

theorem trimLine_eq (l : List Int) :
    trimLine l = if l ≠ [] ∧ l.getLast? = some (l.length : Int) then trimLine l.dropLast else l := by
  rw [trimLine]
  cases h : l.length with
  | zero =>
    rw [List.length_eq_zero_iff] at h
    subst h; simp [trimRounds]
  | succ n =>
    have hne : l ≠ [] := by rintro rfl; simp at h
    rw [trimRounds, trimLine, List.length_dropLast, h]
    simp [hne]

/-- permutations.py:38: `set(range(1, len(oneline) + 1)) == set(abs(i) for i in oneline)`. -/
def isOneline (l : List Int) : Bool :=
  (List.range l.length).all (fun k => (l.map Int.natAbs).contains (k + 1)) &&
    l.all (fun a => 1 ≤ a.natAbs && a.natAbs ≤ l.length)

/-- permutations.py:27-45 a `Permutation`: an object for which the constructor did not raise. -/
structure SPerm where
  oneline : List Int
  ok : isOneline oneline = true
  trimmed : oneline.getLast? ≠ some (oneline.length : Int)

instance : DecidableEq SPerm := fun a b =>
  if h : a.oneline = b.oneline then isTrue (by cases a; cases b; simp_all)
  else isFalse (fun he => h (by rw [he]))

theorem trimLine_trimmed (l : List Int) : (trimLine l).getLast? ≠ some ((trimLine l).length : Int) := by
  rw [trimLine_eq]
  split
  · exact trimLine_trimmed _
  · rename_i h
    intro hc
    exact h ⟨by rintro rfl; simp at hc, hc⟩
termination_by l.length
decreasing_by
  rename_i h
  have := List.length_pos_iff.2 h.1
  simp; omega

/-- permutations.py:33-45 `Permutation(*oneline)`; `none` is the AssertionError. -/
def construct (l : List Int) : Option SPerm :=
  if h : isOneline (trimLine l) = true then some ⟨trimLine l, h, trimLine_trimmed l⟩ else none

/-- permutations.py:54-55 `rank`. -/
def SPerm.rank (w : SPerm) : Nat := w.oneline.length

/-- permutations.py:785-791 `__call__`. -/
def SPerm.call (w : SPerm) (i : Int) : Int :=
  if 0 < i ∧ i ≤ w.rank then w.oneline.getD (i - 1).toNat 0
  else if -(w.rank : Int) ≤ i ∧ i < 0 then -w.oneline.getD (-i - 1).toNat 0
  else i

/-- permutations.py:819-821 `identity()`. -/
def identity : SPerm := ⟨[], by decide, by decide⟩

/-- permutations.py:893: the list `newline` in `__mul__`. -/
def mulLine (u v : SPerm) : List Int :=
  (List.range (max u.rank v.rank)).map (fun i : Nat => u.call (v.call ((i : Int) + 1)))

/-- permutations.py:890-895 `__mul__` of two permutations. -/
def mul? (u v : SPerm) : Option SPerm := construct (mulLine u v)

/-- The value of `u * v`. -/
def mul (u v : SPerm) : SPerm := (mul? u v).getD identity

/-- permutations.py:898-904: the list `newline` in `inverse`. -/
def inverseLine (w : SPerm) : List Int :=
  (List.range w.rank).foldl (fun (nl : List Int) (i : Nat) =>
    let j := w.call ((i : Int) + 1)
    if j > 0 then nl.set (j - 1).toNat ((i : Int) + 1) else nl.set (-j - 1).toNat (-((i : Int) + 1)))
    (List.replicate w.rank 0)

/-- permutations.py:897-905 `inverse`. -/
def inverse? (w : SPerm) : Option SPerm := construct (inverseLine w)

/-- The value of `w.inverse()`. -/
def inverse (w : SPerm) : SPerm := (inverse? w).getD identity

/-- permutations.py:833-836: the list `oneline` in `s_i`, for `i ≥ 0` (negative `i` raise). -/
def sLine (i : Nat) : List Int :=
  if i = 0 then [-1] else (List.range (i - 1)).map (fun k : Nat => (k : Int) + 1) ++ [(i : Int) + 1, (i : Int)]

/-- permutations.py:830-837 `s_i`. -/
def s? (i : Nat) : Option SPerm := construct (sLine i)

/-- The value of `Permutation.s_i(i)`. -/
def s (i : Nat) : SPerm := (s? i).getD identity

/-- permutations.py:839-848 `right_descent_set`, as a list without repetitions. -/
def rightDescents (w : SPerm) : List Nat :=
  (if 1 ≤ w.rank ∧ w.call 1 < 0 then [0] else []) ++
    (List.range w.rank).filter (fun i : Nat => 1 ≤ i ∧ w.call (i : Int) > w.call ((i : Int) + 1))

/-- permutations.py:850-854 `left_descent_set`. -/
def leftDescents (w : SPerm) : List Nat := rightDescents (inverse w)

/-- permutations.py:858 `biline`. -/
def biline (w : SPerm) : List Int := w.oneline.reverse.map (fun a => -a) ++ w.oneline

/-- permutations.py:860 `inv`. -/
def invCount (w : SPerm) : Nat :=
  ((List.range (w.rank * 2)).flatMap (fun i =>
    ((List.range (w.rank * 2)).filter (fun j => i < j ∧ (biline w).getD i 0 > (biline w).getD j 0)).map
      (fun j => (i, j)))).length

/-- permutations.py:861 `inv_zero`. -/
def invZero (w : SPerm) : Nat := (w.oneline.filter (fun a => a < 0)).length

/-- permutations.py:856-864 `__len__`; `none` is the AssertionError. -/
def len? (w : SPerm) : Option Nat :=
  if invCount w % 2 = invZero w % 2 then some ((invCount w + invZero w) / 2) else none

/-- The value of `len(w)`. -/
def len (w : SPerm) : Nat := (len? w).getD 0

/-- permutations.py:94-99 `from_word`. -/
def fromWord (word : List Nat) : SPerm := word.foldl (fun ans i => mul ans (s i)) identity

end Verif.Perm
