import Verif.Model.Atoms
import Verif.Model.LittleFpf

/-!
# Model of `involution_little_bump` of /repo/permutations.py with two further arguments
-/

namespace Verif.Perm

/-- permutations.py:430-434 and 446-455 `involution_little_bump(word, j, k)`.  `get_atoms` runs through sets, and `order` is the order
in which Python does so; `depth` bounds the number of its levels. -/
def involutionLittleBumpAt (order : List SPerm → List SPerm) (depth fuel : Nat) (word : List Nat) (j k : Nat) :
    Except LittleError (List Nat) :=
  let w := looseInvolution word
  if involutionLength w = word.length then
    let t := reflectionT j k
    match getAtoms depth w with
    | .error e => .error (.ofRaised e)
    | .ok atoms =>
      let sub := ((order atoms).filter (fun x => decide ((len (mul x t) : Int) = (len x : Int) - 1))).map (fun x => mul x t)
      let sub := sub.filter (fun x => decide (involutionLength (mod (inverse x) x) = len x))
      match sub with
      | [] => .ok word
      | x :: _ => involutionLittleBump fuel word (mod (inverse x) x)
  else .error .assertion

end Verif.Perm
