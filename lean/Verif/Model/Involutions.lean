import Verif.Model.PermWords

/-!
# Model of the (fixed-point-free) involutions in /repo/permutations.py

`Except Raised` distinguishes python's exceptions from a returned `None`.  Recursive methods carry a bound on the
recursion depth.
-/

namespace Verif.Perm

/-- The exceptions that occur. -/
inductive Raised where
  | assertion
  | index
  | attribute
  | type
  | key
  | value
  | recursion
deriving DecidableEq

/-- permutations.py:353-354 `is_involution`. -/
def isInvolution (w : SPerm) : Bool := w = inverse w

/-- permutations.py:350-351 `is_fpf_involution`. -/
def isFpfInvolution (w : SPerm) : Bool :=
  decide (w = inverse w) && (List.range w.rank).all (fun k : Nat => decide (w.call ((k : Int) + 1) ≠ (k : Int) + 1))

/-- permutations.py:359-360 `is_unsigned`. -/
def isUnsigned (w : SPerm) : Bool := w.oneline.all (fun a => 0 < a)

/-- permutations.py:796-802 `pair`. -/
def pairs (w : SPerm) : List (Int × Int) :=
  ((List.range (2 * w.rank + 1)).filter (fun k : Nat =>
      let a := (k : Int) - w.rank
      0 < a.natAbs ∧ (a.natAbs : Int) < w.call a)).map
    (fun k : Nat => ((k : Int) - w.rank, w.call ((k : Int) - w.rank)))

/-- permutations.py:804-806 `neg`. -/
def negations (w : SPerm) : List (Int × Int) :=
  ((List.range w.rank).filter (fun k : Nat => w.call ((k : Int) + 1) = -((k : Int) + 1))).map
    (fun k : Nat => (-((k : Int) + 1), -((k : Int) + 1)))

/-- permutations.py:870-872 `involution_length`. -/
def involutionLength (w : SPerm) : Nat := ((negations w).length + (pairs w).length + len w) / 2

/-- permutations.py:874-876 `fpf_involution_length` (an int, it can be negative). -/
def fpfInvolutionLength (w : SPerm) : Int := (involutionLength w : Int) - (w.rank / 2 : Nat)

/-- permutations.py:104-112: the loop of `from_involution_word` with current value `w`; `none` is the returned `None`. -/
def fromInvolutionLoop (strict : Bool) : SPerm → List Nat → Option SPerm
  | w, [] => some w
  | w, i :: word =>
    if i ∈ rightDescents w ∧ strict then none
    else if mul (s i) w = mul w (s i) then fromInvolutionLoop strict (mul w (s i)) word
    else fromInvolutionLoop strict (mul (mul (s i) w) (s i)) word

/-- permutations.py:101-112 `from_involution_word(word, strict)`; `none` is the returned `None`. -/
def fromInvolutionWord (strict : Bool) (word : List Nat) : Option SPerm := fromInvolutionLoop strict identity word

/-- permutations.py:702-710 `get_involution_word`. -/
def getInvolutionWord? : Nat → SPerm → Except Raised (List Nat)
  | 0, _ => .error .recursion
  | fuel + 1, w =>
    if isInvolution w then
      match (leftDescents w).min? with
      | some i =>
        let v := if mul w (s i) = mul (s i) w then mul w (s i) else mul (mul (s i) w) (s i)
        (getInvolutionWord? fuel v).map (fun a => a ++ [i])
      | none => .ok []
    else .error .assertion

/-- permutations.py:116-120: the starting value of `from_fpf_involution_word`, for the number `n` of L117. -/
def fpfStart (n : Nat) : SPerm :=
  ((List.range n).filter (fun i => i % 2 = 1)).foldl (fun w i => mul w (s i)) identity

/-- permutations.py:116-117: `n`. -/
def fpfSize (word : List Nat) : Nat :=
  let n := if word = [] then 0 else 1 + word.foldl max 0
  if n % 2 = 0 then n else n + 1

/-- permutations.py:121-129: the loop of `from_fpf_involution_word`; `none` is the returned `None`. -/
def fromFpfLoop (strict : Bool) : SPerm → List Nat → Option SPerm
  | w, [] => some w
  | w, i :: word =>
    if i ∈ rightDescents w ∧ strict then none
    else if mul (s i) w = mul w (s i) ∧ strict then none
    else fromFpfLoop strict (mul (mul (s i) w) (s i)) word

/-- permutations.py:114-129 `from_fpf_involution_word(word, strict)`; `none` is the returned `None`. -/
def fromFpfInvolutionWord (strict : Bool) (word : List Nat) : Option SPerm :=
  fromFpfLoop strict (fpfStart (fpfSize word)) word

/-- permutations.py:716-724 `get_fpf_involution_word`. -/
def getFpfInvolutionWord? : Nat → SPerm → Except Raised (List Nat)
  | 0, _ => .error .recursion
  | fuel + 1, w =>
    if isFpfInvolution w then
      match ((leftDescents w).filter (fun i : Nat => w.call i ≠ (i : Int) + 1)).min? with
      | some i => (getFpfInvolutionWord? fuel (mul (mul (s i) w) (s i))).map (fun a => a ++ [i])
      | none => .ok []
    else .error .assertion

/-- permutations.py:773-774: at most `k` rounds of the loop that removes a final `n, n - 1` from a one-line notation of
length `n`; `.error .index` is the IndexError of `oneline[-2]`. -/
def fpfTrim : Nat → List Int → Except Raised (List Int)
  | 0, l => .ok l
  | k + 1, l =>
    if l = [] then .ok l
    else if l.length < 2 then .error .index
    else if l.getD (l.length - 2) 0 = l.length ∧ l.getD (l.length - 1) 0 = (l.length : Int) - 1 then
      fpfTrim k (l.take (l.length - 2))
    else .ok l

/-- permutations.py:769-783 `get_fpf_involution_words`; the result is a set, listed here with possible repetitions.  The
dictionary `FPF_INVOLUTION_WORDS` caches complete results and is not modelled. -/
def getFpfInvolutionWords? : Nat → SPerm → Except Raised (List (List Nat))
  | 0, _ => .error .recursion
  | fuel + 1, w =>
    if isFpfInvolution w then do
      let l ← fpfTrim w.rank w.oneline
      if l = [] then .ok [[]]
      else
        match construct l with
        | none => .error .assertion
        | some v => do
          let parts ← ((rightDescents v).filter (fun i : Nat => v.call i ≠ (i : Int) + 1)).mapM (fun i => do
            let r ← getFpfInvolutionWords? fuel (mul (mul (s i) v) (s i))
            pure (r.map (fun a => a ++ [i])))
          pure parts.flatten
    else .error .assertion

/-- permutations.py:991-1006 `get_fpf_atoms`; the result is a list without repetitions made from a set, listed here with
possible repetitions.  The dictionary `ATOMS_FPF_CACHE` caches complete results and is not modelled. -/
def getFpfAtoms? : Nat → SPerm → Except Raised (List SPerm)
  | 0, _ => .error .recursion
  | fuel + 1, w =>
    if isFpfInvolution w ∧ isUnsigned w then do
      let des := (rightDescents w).filter (fun i : Nat => w.call i ≠ (i : Int) + 1)
      if des ≠ [] then do
        let parts ← des.mapM (fun i => do
          let r ← getFpfAtoms? fuel (mul (mul (s i) w) (s i))
          pure (r.map (fun x => mul x (s i))))
        pure parts.flatten
      else .ok [identity]
    else .error .assertion

end Verif.Perm
