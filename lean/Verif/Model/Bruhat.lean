import Verif.Model.Involutions

/-!
# Model of reflections, Bruhat covers and transitions in /repo/permutations.py

The indices of reflections are natural numbers, at least 1 (python's `caller[i - 1]` would wrap around for smaller ones).
-/

namespace Verif.Perm

/-- permutations.py:940 and 962: `caller = list(range(1, j + 1))`. -/
def caller (j : Nat) : List Int := (List.range j).map (fun k : Nat => (k : Int) + 1)

/-- permutations.py:958-965 `reflection_t(i, j)`. -/
def reflectionT? (i j : Nat) : Option SPerm :=
  let (i, j) := if j < i then (j, i) else (i, j)
  construct (((caller j).set (i - 1) (j : Int)).set (j - 1) (i : Int))

/-- permutations.py:958-965 `reflection_t(i, j)` and 946-948 `transposition(i, j)`, where it is defined. -/
def reflectionT (i j : Nat) : SPerm := (reflectionT? i j).getD identity

/-- permutations.py:936-944 `reflection_s(i, j)`. -/
def reflectionS? (i j : Nat) : Option SPerm :=
  if i ≤ j then construct (((caller j).set (i - 1) (-(j : Int))).set (j - 1) (-(i : Int))) else none

/-- permutations.py:1081-1086 `bruhat_covers`, for recursion depth at most `fuel` in `get_reduced_word`. -/
def bruhatCovers? (fuel : Nat) (w : SPerm) : Option (List SPerm) :=
  (getReducedWord? fuel w).map (fun word =>
    ((List.range word.length).map (fun i => fromWord (word.take i ++ word.drop (i + 1)))).filter
      (fun v => decide ((len v : Int) = (len w : Int) - 1)))

/-- permutations.py:1091-1094: the loop of `involution_bruhat_covers`; `from_involution_word` may return `None`, which has no
attribute `involution_length`. -/
def involutionCoversLoop (w : SPerm) (word : List Nat) : List Nat → Except Raised (List SPerm)
  | [] => .ok []
  | i :: rest =>
    match fromInvolutionWord true (word.take i ++ word.drop (i + 1)) with
    | none => .error .attribute
    | some v =>
      (involutionCoversLoop w word rest).map (fun l =>
        if (involutionLength v : Int) = (involutionLength w : Int) - 1 then v :: l else l)

/-- permutations.py:1088-1094 `involution_bruhat_covers`, exhausted. -/
def involutionBruhatCovers? (fuel : Nat) (w : SPerm) : Except Raised (List SPerm) :=
  if isInvolution w then (getInvolutionWord? fuel w).bind (fun word => involutionCoversLoop w word (List.range word.length))
  else .error .assertion

/-- permutations.py:1099-1102: the loop of `fpf_involution_bruhat_covers`. -/
def fpfCoversLoop (w : SPerm) (word : List Nat) : List Nat → Except Raised (List SPerm)
  | [] => .ok []
  | i :: rest =>
    match fromFpfInvolutionWord true (word.take i ++ word.drop (i + 1)) with
    | none => .error .attribute
    | some v =>
      (fpfCoversLoop w word rest).map (fun l => if fpfInvolutionLength v = fpfInvolutionLength w - 1 then v :: l else l)

/-- permutations.py:1096-1102 `fpf_involution_bruhat_covers`, exhausted. -/
def fpfInvolutionBruhatCovers? (fuel : Nat) (w : SPerm) : Except Raised (List SPerm) :=
  if isFpfInvolution w then (getFpfInvolutionWord? fuel w).bind (fun word => fpfCoversLoop w word (List.range word.length))
  else .error .assertion

/-- permutations.py:1149-1155 `upper_transitions(r)`. -/
def upperTransitions (w : SPerm) (r : Nat) : List Nat :=
  ((List.range (w.rank + 1)).filter (fun i => decide (r + 1 ≤ i))).filter (fun i =>
    decide (len (mul (mul (reflectionT r i) w) (reflectionT r i)) = len w + 1))

/-- permutations.py:1157-1162 `lower_transitions(r)`. -/
def lowerTransitions (w : SPerm) (r : Nat) : List Nat :=
  ((List.range r).filter (fun i => decide (1 ≤ i))).filter (fun i =>
    decide (len (mul (mul (reflectionT i r) w) (reflectionT i r)) = len w + 1))

end Verif.Perm
