import Verif.Model.PolyVal
import Verif.Model.Vector
import Verif.Model.Partitions
import Verif.Model.Tableau
import Mathlib.Data.List.Permutation

/-!
# Model of /repo/symmetric.py (monomials, products, tableau generating functions)

The number of variables `n` is a parameter; `SymmetricMonomial(n, mu)` is represented by its sorted and trimmed `mu`.
Mixing monomials with different `n` raises an AssertionError in python (L153) and is not modelled.  Coefficients are
`PolyVal`s (ints and `Polynomial`s up to `==`).  The caches of `cached_value` are not modelled here (see C38); the
module level MONOMIAL_PRODUCT_CACHE is (`multiplyCached`).  `printer` is not modelled.
-/

namespace Verif.Symm

open Partition

/-- partitions.py:206-210 `sort(mu, trim=True)`. -/
def sortTrim (mu : List Nat) : List Nat := trim (mu.insertionSort (· ≤ ·)).reverse

/-- symmetric.py:34-37 `SymmetricMonomial(n, mu)`; `none` is the AssertionError. -/
def mkMono (n : Nat) (mu : List Nat) : Option (List Nat) := if mu.length ≤ n then some (sortTrim mu) else none

/-- symmetric.py:69-79 `polynomial(variable)`: the term for `alpha` and `index`; `v` is `Polynomial.x` or
`Polynomial.y`. -/
def monoTerm (v : Int → Poly) (alpha index : List Nat) : Poly :=
  (List.range alpha.length).foldl
    (fun term i => Poly.mul term (Poly.powNat (v (index.getD i 0 : Nat)) (alpha.getD i 0))) Poly.one

/-- symmetric.py:69-79 `SymmetricMonomial.polynomial(variable)`.  `set(permutations(mu))` is modelled by a list
without repetitions. -/
def monoPoly (v : Int → Poly) (n : Nat) (mu : List Nat) : Poly :=
  mu.permutations.dedup.foldl (fun ans alpha =>
    (combinations ((List.range n).map (· + 1)) alpha.length).foldl (fun ans index =>
      Poly.add ans (monoTerm v alpha index)) ans) Dict.empty

/-- polynomials.py:333-335 `Polynomial.y`. -/
def y (i : Int) : Poly := Poly.monomial (-i) 1

/-- symmetric.py:131-148 `_destandardize(n, mu)`. -/
def destandardize : Nat → List Nat → List (List Nat)
  | 0, mu => if mu = [] then [[]] else []
  | n + 1, mu =>
    if mu = [] then [List.replicate (n + 1) 0]
    else (destandardize n mu).map (0 :: ·) ++
      (List.range mu.length).flatMap (fun i =>
        if i = 0 ∨ mu.getD i 0 ≠ mu.getD (i - 1) 0 then
          (destandardize n (mu.eraseIdx i)).map (mu.getD i 0 :: ·)
        else [])

/-- symmetric.py:158-165: the body of the double loop. -/
def multiplyStep (n : Nat) (alpha blpha : List Nat) (ans : Dict (List Nat) Int) : Dict (List Nat) Int :=
  let gamma := (List.range n).map (fun i => alpha.getD i 0 + blpha.getD i 0)
  if isPartition (gamma.map (fun a : Nat => (a : Int))) then Tableaux.bump ans (trim gamma) 1 else ans

/-- symmetric.py:157-165: the dict computed on a cache miss, with `n` the number of variables used. -/
def multiplyAt (n : Nat) (mu nu : List Nat) : Dict (List Nat) Int :=
  (destandardize n mu).foldl (fun ans alpha =>
    (destandardize n nu).foldl (fun ans blpha => multiplyStep n alpha blpha ans) ans) Dict.empty

/-- symmetric.py:150-167 `_multiply` for monomials in `n` variables, without the cache. -/
def multiply (n : Nat) (mu nu : List Nat) : Dict (List Nat) Int := multiplyAt (min n (mu.length + nu.length)) mu nu

/-- symmetric.py:29 `MONOMIAL_PRODUCT_CACHE`. -/
abbrev MulCache := Dict (List Nat × List Nat × Nat) (Dict (List Nat) Int)

/-- symmetric.py:150-167 `_multiply` with the cache. -/
def multiplyCached (C : MulCache) (n : Nat) (mu nu : List Nat) : Dict (List Nat) Int × MulCache :=
  let n' := min n (mu.length + nu.length)
  match C.get? (mu, nu, n') with
  | some d => (d, C)
  | none => (multiplyAt n' mu nu, C.set (mu, nu, n') (multiplyAt n' mu nu))

/-- symmetric.py:181-183: the multiplier `m` of every `SymmetricPolynomial`. -/
def multiplier (n : Nat) (a b : List Nat) : List (List Nat × PolyVal) :=
  (multiply n a b).items.map (fun gc => (sortTrim gc.1, (gc.2 : PolyVal)))

/-- symmetric.py:177-185 a `SymmetricPolynomial`. -/
abbrev SymPoly := Vec (List Nat) PolyVal

/-- symmetric.py:177-185 `SymmetricPolynomial(dictionary)`. -/
def mkSym (n : Nat) (d : Dict (List Nat) PolyVal) : SymPoly := Vec.mk' d (some (multiplier n))

/-- symmetric.py:81-82 `symmetric_polynomial(coefficient)`. -/
def ofMono (n : Nat) (mu : List Nat) (c : PolyVal := 1) : SymPoly := mkSym n (Dict.empty.set mu c)

/-- symmetric.py:121-125 `SymmetricMonomial * SymmetricMonomial`. -/
def monoMul (n : Nat) (a b : List Nat) : SymPoly :=
  mkSym n ((multiply n a b).items.foldl (fun d gc => d.set (sortTrim gc.1) (gc.2 : PolyVal)) Dict.empty)

/-- vectors.py:175-185 `SymmetricPolynomial * SymmetricPolynomial`.  The product of keys is never used, there is
always a multiplier. -/
def mul (f g : SymPoly) : SymPoly := Vec.mul (fun a _ => a) f g

/-- symmetric.py:212-216 `SymmetricPolynomial.polynomial(variable)`. -/
def polynomial (v : Int → Poly) (n : Nat) (f : SymPoly) : PolyVal :=
  f.dict.items.foldl (fun ans mc => ans + PolyVal.mk (monoPoly v n mc.1) * mc.2) (PolyVal.mk Dict.empty)

/-- symmetric.py:218-223 `truncate(degree_bound)`. -/
def truncate (n : Nat) (f : SymPoly) (bound : Int) : SymPoly :=
  mkSym n (f.dict.filter (fun mu _ => decide ((mu.sum : Int) ≤ bound)))

/-- symmetric.py:258-261: one round of the loop; `none` is the AssertionError of the constructor. -/
def vectorizeStep (n : Nat) (signs : Option PolyVal) (d : Dict (List Nat) PolyVal) (pc : List Nat × Int) :
    Option (Dict (List Nat) PolyVal) :=
  let count : PolyVal := (pc.2 : PolyVal) * (match signs with
    | some s => if s = 0 then 1 else s ^ pc.1.sum
    | none => 1)
  match mkMono n pc.1 with
  | some key => some (d.set key (d.getD key 0 + count))
  | none => none

/-- symmetric.py:256-264 `_vectorize(n, tableaux, signs, degree_bound)`. -/
def vectorize (n : Nat) (tableaux : Dict (List Nat) Int) (signs : Option PolyVal) (bound : Option Int) :
    Option SymPoly :=
  match tableaux.items.foldlM (vectorizeStep n signs) Dict.empty with
  | none => none
  | some d => some (mkSym n (match bound with
      | some b => d.filter (fun mu _ => decide ((mu.sum : Int) ≤ b))
      | none => d))

/-- symmetric.py:266-273 `schur(num_variables, mu, nu)`. -/
def schur (n : Nat) (mu nu : List Nat) : Option SymPoly :=
  vectorize n (Tableaux.countSemistandard false nu n mu) none none

/-- symmetric.py:361-368 `stable_grothendieck(num_variables, mu, nu, degree_bound)`.  `none` also for
`None * _vectorize(...)`, a TypeError. -/
def stableGrothendieck (n : Nat) (mu nu : List Nat) (bound : Option Int) : Option SymPoly :=
  match vectorize n (Tableaux.countSemistandard true nu n mu) (some (PolyVal.mk Poly.beta)) bound with
  | none => none
  | some f =>
    match Poly.pow Poly.beta ((nu.sum : Int) - mu.sum) with
    | none => none
    | some b => some (Vec.smul f (PolyVal.mk b))

end Verif.Symm
