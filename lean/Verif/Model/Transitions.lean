import Verif.Model.Bruhat

/-!
# Model of the transitions of involutions in /repo/permutations.py

The transpositions of `tau` are only defined for positive numbers: the model is that of unsigned permutations.
-/

namespace Verif.Perm

/-- permutations.py:1108-1114 `t(k, l)`, for positive `k` and `l`. -/
def tauT (k l : Int) : SPerm :=
  if k = l then identity
  else if k > l then reflectionT l.toNat k.toNat
  else reflectionT k.toNat l.toNat

/-- permutations.py:1104-1147 `tau(i, j)`. -/
def tau? (y : SPerm) (i j : Nat) : Except Raised SPerm :=
  if 1 ≤ i ∧ i < j then
    let yi := y.call i
    let yj := y.call j
    let z := if (i : Int) = yj then mul y (tauT i yi) else mul (mul y (tauT i yi)) (tauT j yj)
    if (yi ≤ i ∧ (i : Int) < j ∧ (j : Int) < yj) ∨ (yi < i ∧ (i : Int) < j ∧ (j : Int) ≤ yj) ∨ ((j : Int) < yi ∧ yi < yj) ∨
        (yi < yj ∧ yj < i) then
      .ok (mul (mul (tauT i j) y) (tauT i j))
    else if yi = i ∧ (i : Int) < yj ∧ yj < j then .ok (mul (mul (tauT i yj) y) (tauT i yj))
    else if (i : Int) < yi ∧ yi < j ∧ (j : Int) = yj then .ok (mul (mul (tauT yi j) y) (tauT yi j))
    else if (i : Int) < yj ∧ yj < yi ∧ yi < j then .ok (mul (mul (tauT i yj) y) (tauT i yj))
    else if (i : Int) < yi ∧ yi < yj ∧ yj < j then .ok (mul (tauT i j) z)
    else if (i : Int) < yi ∧ yi < j ∧ (j : Int) < yj then .ok (mul (tauT i yj) z)
    else if yi < i ∧ (i : Int) < yj ∧ yj < j then .ok (mul (tauT yi j) z)
    else if (i : Int) = yi ∧ yi < j ∧ (j : Int) = yj then .ok (mul (tauT i j) y)
    else .ok y
  else .error .assertion

/-- permutations.py:1168-1170 and 1175-1177: the loop over the numbers `l`, for the values `f i` of `tau`. -/
def listTransitions (w : SPerm) (f : Nat → Except Raised SPerm) (l : List Nat) : Except Raised (List Nat) := do
  let zs ← l.mapM (fun i => (f i).map (fun z => (i, z)))
  .ok ((zs.filter (fun p => decide (involutionLength p.2 = involutionLength w + 1))).map Prod.fst)

/-- permutations.py:1164-1170 `upper_involution_transitions(r)`. -/
def upperInvolutionTransitions (w : SPerm) (r : Nat) : Except Raised (List Nat) :=
  if isInvolution w then listTransitions w (fun i => tau? w r i) ((List.range (w.rank + 1)).filter (fun i => decide (r + 1 ≤ i)))
  else .error .assertion

/-- permutations.py:1172-1177 `lower_involution_transitions(r)`. -/
def lowerInvolutionTransitions (w : SPerm) (r : Nat) : Except Raised (List Nat) :=
  if isInvolution w then listTransitions w (fun i => tau? w i r) ((List.range r).filter (fun i => decide (1 ≤ i)))
  else .error .assertion

/-- permutations.py:1179-1190 `upper_fpf_involution_transitions(r)`. -/
def upperFpfTransitions (w : SPerm) (r : Nat) : Except Raised (List Nat) :=
  if isFpfInvolution w then
    let y := mul w (s (w.rank + 1))
    .ok (((List.range (w.rank + 3)).filter (fun j => decide (r + 1 ≤ j))).filter (fun j =>
      decide (fpfInvolutionLength (mul (mul (reflectionT r j) y) (reflectionT r j)) = fpfInvolutionLength y + 1)))
  else .error .assertion

/-- permutations.py:1192-1201 `lower_fpf_involution_transitions(r)`. -/
def lowerFpfTransitions (w : SPerm) (r : Nat) : Except Raised (List Nat) :=
  if isFpfInvolution w then
    .ok (((List.range r).filter (fun j => decide (1 ≤ j))).filter (fun j =>
      decide (fpfInvolutionLength (mul (mul (reflectionT j r) w) (reflectionT j r)) = fpfInvolutionLength w + 1)))
  else .error .assertion

end Verif.Perm
