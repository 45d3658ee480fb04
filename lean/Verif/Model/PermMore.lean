import Verif.Model.Bruhat

/-!
# Model of cycles, powers and the star operation in /repo/permutations.py

Recursion and loops carry fuel; `Raised.recursion` stands for exhausted fuel.
-/

namespace Verif.Perm

/-- permutations.py:47-49 `star`; `none` stands for the failed assertion of the constructor. -/
def star? (w : SPerm) : Option SPerm := construct (w.oneline.reverse.map (fun i => (w.rank : Int) + 1 - i))

/-- permutations.py:950-956 `cycle(*args)`, for arguments at least 1. -/
def cycle (args : List Nat) : SPerm :=
  (args.zip args.tail).foldl (fun ans p => mul ans (reflectionT p.1 p.2)) identity

/-- permutations.py:77-80: the inner loop of `cycles`; `numbers.remove` raises a `ValueError` if there is nothing to remove. -/
def cycleLoop (oneline : List Int) : Nat → List Int → Int → List Int → Except Raised (List Int × List Int)
  | 0, _, _, _ => .error .recursion
  | fuel + 1, c, nxt, numbers =>
    if nxt = c.headD 0 then .ok (c, numbers)
    else if nxt ∈ numbers then cycleLoop oneline fuel (c ++ [nxt]) (oneline.getD (nxt - 1).toNat 0) (numbers.erase nxt)
    else .error .value

/-- permutations.py:73-81: the outer loop of `cycles`. -/
def cyclesLoop (oneline : List Int) (fuel : Nat) : Nat → List (List Int) → List Int → Except Raised (List (List Int))
  | 0, _, _ => .error .recursion
  | _ + 1, cs, [] => .ok cs
  | k + 1, cs, a :: numbers => do
    let r ← cycleLoop oneline fuel [a] (oneline.getD (a - 1).toNat 0) numbers
    cyclesLoop oneline fuel k (cs ++ [r.1]) r.2

/-- permutations.py:68-82 `cycles`. -/
def cycles (fuel : Nat) (w : SPerm) : Except Raised (List (List Int)) :=
  cyclesLoop w.oneline fuel fuel [] (caller w.rank)

/-- permutations.py:920-925 `__pow__` for `n ≥ 1`, and 918-919 for `n = 0`: `identity` takes no argument. -/
def powNat (w : SPerm) (n : Nat) : Except Raised SPerm :=
  if n = 0 then .error .type
  else if n = 1 then .ok w
  else do
    let a ← powNat w (n / 2)
    let b ← powNat w (n - n / 2)
    .ok (mul a b)
termination_by n

/-- permutations.py:915-925 `__pow__`. -/
def pow (w : SPerm) (n : Int) : Except Raised SPerm :=
  if n < 0 then powNat (inverse w) (-n).toNat else powNat w n.toNat

/-- permutations.py:826-828 `longest_unsigned(n)`. -/
def longestUnsigned? (n : Nat) : Option SPerm := construct (caller n).reverse

/-- permutations.py:819-824 `longest_element(n, signed)`. -/
def longestElement? (n : Nat) (signed : Bool) : Option SPerm :=
  if signed then construct ((caller n).map (fun i => -i)) else longestUnsigned? n

/-- permutations.py:930-934 `last_descent`. -/
def lastDescent (w : SPerm) : Option Nat :=
  (((List.range w.rank).filter (fun i => decide (1 ≤ i))).filter (fun i : Nat => decide (w.call ((i : Int) + 1) < w.call i))).max?

/-- permutations.py:927-928 `is_even_signed`. -/
def isEvenSigned (w : SPerm) : Bool := (w.oneline.countP (fun i => i < 0)) % 2 = 0

end Verif.Perm
