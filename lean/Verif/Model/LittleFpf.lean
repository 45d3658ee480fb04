import Verif.Model.Little
import Verif.Model.PermGenerators

/-! # Model of the Little bumps for fixed-point-free involution words of /repo/permutations.py -/

namespace Verif.Perm

/-- permutations.py:115-129 `from_fpf_involution_word(word, strict=False)`, which always returns a permutation (C58). -/
def looseFpf (word : List Nat) : SPerm := (fromFpfInvolutionWord false word).getD identity

/-- permutations.py:364-376 `fpf_involution_little_push(word, i)`. -/
def fpfLittlePush (word : List Nat) (i : Nat) : Except LittleError (List Nat × Option Nat) :=
  match word[i]? with
  | none => .error .index
  | some c =>
    let new := word.take i ++ [c + 1] ++ word.drop (i + 1)
    let w := looseFpf new
    if fpfInvolutionLength w = new.length then .ok (new, none)
    else if fpfInvolutionLength w = (new.length : Int) - 1 then .ok (new, some i)
    else
      let v := looseFpf (without word i)
      match (List.range new.length).find? (fun j => decide (i ≠ j) && decide (v = looseFpf (without new j))) with
      | some j => .ok (new, some j)
      | none => .error .exception

/-- permutations.py:392-393: the `while` loop, for at most `fuel` rounds. -/
def fpfBumpLoop : Nat → List Nat → Nat → Except LittleError (List Nat)
  | 0, _, _ => .error .running
  | fuel + 1, word, i =>
    match fpfLittlePush word i with
    | .error e => .error e
    | .ok (new, none) => .ok new
    | .ok (new, some j) => fpfBumpLoop fuel new j

/-- The exceptions of `get_fpf_involution_words` and `get_fpf_atoms`. -/
def LittleError.ofRaised : Raised → LittleError
  | .assertion => .assertion
  | .index => .index
  | _ => .recursion

/-- permutations.py:379-395 `fpf_involution_little_bump(word, y)`; `depth` bounds the recursion of `get_fpf_involution_words`. -/
def fpfLittleBump (depth fuel : Nat) (word : List Nat) (y : SPerm) : Except LittleError (List Nat) :=
  if fpfInvolutionLength (looseFpf word) = word.length then
    if isFpfInvolution y then
      if word = [] then .ok word
      else
        match getFpfInvolutionWords? depth y with
        | .error e => .error (.ofRaised e)
        | .ok words =>
          match (List.range word.length).find? (fun i => decide (without word i ∈ words)) with
          | some i => fpfBumpLoop fuel word i
          | none => .ok word
    else .error .assertion
  else .error .assertion

/-- permutations.py:379-383 and 396-410 `fpf_involution_little_bump(word, j, k)`; `get_fpf_atoms` lists a
set, and `order` is the order in which Python does so. -/
def fpfLittleBumpAt (order : List SPerm → List SPerm) (depth fuel : Nat) (word : List Nat) (j k : Nat) : Except LittleError (List Nat) :=
  let w := looseFpf word
  if fpfInvolutionLength w = word.length then
    let t := reflectionT j k
    match minfpf? (fpfSize word) with
    | none => .error .assertion
    | some m =>
      match getFpfAtoms? depth w with
      | .error e => .error (.ofRaised e)
      | .ok atoms =>
        let sub := ((order atoms).filter (fun x => decide ((len (mul x t) : Int) = (len x : Int) - 1))).map (fun x => mul x t)
        let sub := sub.filter (fun x => decide (fpfInvolutionLength (mul (mul (inverse x) m) x) = len x))
        match sub with
        | [] => .ok word
        | x :: _ => fpfLittleBump depth fuel word (mul (mul (inverse x) m) x)
  else .error .assertion

end Verif.Perm
