import Verif.Model.Dict
import Mathlib.Data.List.Sort
import Mathlib.Data.Int.Order.Basic

/-!
# Model of /repo/polynomials.py

Laurent polynomials with integer coefficients in variables indexed by integers
(`x_0` is beta, positive indices are `x_i`, negative ones are `y_i`).
-/

namespace Verif

/-- polynomials.py:3-11 `HashableDict`: a monomial, i.e. a dict from variable index to exponent.
Python compares (dict equality) and hashes (sorted items) it without regard to insertion order, so the model keeps
its items sorted by variable.  Every monomial built by the code (`monomial` L88-93, `__mul__` L207-208, `__pow__`
L232-235, `coefficient` L99-101) has no exponent 0; that is part of the type. -/
structure Mono where
  items : List (Int × Int)
  sorted : items.Pairwise (fun a b => a.1 < b.1)
  nonzero : ∀ p ∈ items, p.2 ≠ 0
deriving DecidableEq

namespace Mono

/-- `ind.keys()`. -/
def keys (m : Mono) : List Int := m.items.map Prod.fst

/-- `i.get(t, 0)` as used in polynomials.py:207. -/
def get (m : Mono) (t : Int) : Int := (Dict.lookup t m.items).getD 0

/-- `{t: f(t) for t in ts}` with the zero values dropped, as in polynomials.py:207-208. -/
def ofFn (ts : List Int) (f : Int → Int) : Mono where
  items := ((ts.dedup.insertionSort (· ≤ ·)).map (fun t => (t, f t))).filter (fun p => decide (p.2 ≠ 0))
  sorted := by
    apply List.Pairwise.filter
    rw [List.pairwise_map]
    have h1 := List.pairwise_insertionSort (· ≤ ·) ts.dedup
    have h2 : (ts.dedup.insertionSort (· ≤ ·)).Nodup :=
      (List.perm_insertionSort (· ≤ ·) ts.dedup).nodup_iff.2 ts.nodup_dedup
    exact (h1.and h2).imp (fun h => lt_of_le_of_ne h.1 h.2)
  nonzero := by
    intro p hp
    simpa using (List.mem_filter.1 hp).2

/-- `HashableDict({})`. -/
def one : Mono := ⟨[], by simp, by simp⟩

/-- polynomials.py:207-208: the key of the product of two monomials. -/
def mul (i j : Mono) : Mono :=
  ofFn (i.keys ++ j.keys) (fun t => i.get t + j.get t)

/-- polynomials.py:232-235: every exponent multiplied by `e`. -/
def scale (m : Mono) (e : Int) : Mono := ofFn m.keys (fun t => m.get t * e)

/-- polynomials.py:99-101: `new_term = HashableDict(term.copy()); del new_term[index]`. -/
def erase (m : Mono) (index : Int) : Mono :=
  ⟨m.items.filter (fun p => decide (p.1 ≠ index)), m.sorted.filter _,
    fun p hp => m.nonzero p (List.mem_filter.1 hp).1⟩

/-- polynomials.py:7-11 `HashableDict.degree`. -/
def degree (m : Mono) : Int := m.items.foldl (fun d p => d + p.2) 0

/-- `HashableDict({index: power})`, with power 0 giving the empty dict (polynomials.py:88-93). -/
def var (index power : Int) : Mono := ofFn [index] (fun _ => power)

end Mono

/-- polynomials.py:28,64-65 `Polynomial`: the dict `coeffs` from monomials to coefficients.  The constructor does
not filter zero coefficients. -/
abbrev Poly := Dict Mono Int

namespace Poly

/-- polynomials.py:144-148 `__getitem__`. -/
def coeff (p : Poly) (m : Mono) : Int := p.getD m 0

/-- `Polynomial({HashableDict({}): c})`, polynomials.py:201. -/
def const (c : Int) : Poly := Dict.empty.set Mono.one c

/-- polynomials.py:87-93 `monomial(index, power)`. -/
def monomial (index : Int) (power : Int) : Poly :=
  if power = 0 then Dict.empty.set Mono.one 1 else Dict.empty.set (Mono.var index power) 1

/-- One pass of the loop in polynomials.py:170-173. -/
def addStep (p q : Poly) (new : Poly) (i : Mono) : Poly :=
  let new := new.set i (p.coeff i + q.coeff i)
  if coeff new i = 0 then new.del i else new

/-- polynomials.py:165-175 `__add__` for a polynomial argument. -/
def add (p q : Poly) : Poly := q.keys.foldl (addStep p q) p

/-- One pass of the inner loop body in polynomials.py:207-214. -/
def mulStep (p f : Poly) (new : Poly) (ij : Mono × Mono) : Poly :=
  let k := ij.1.mul ij.2
  let new := if new.contains k then new.set k (coeff new k + p.coeff ij.1 * f.coeff ij.2)
             else new.set k (p.coeff ij.1 * f.coeff ij.2)
  if coeff new k = 0 then new.del k else new

/-- polynomials.py:199-215 `__mul__` for a polynomial argument: the double loop visits the pairs of keys in
lexicographic order. -/
def mul (p f : Poly) : Poly :=
  p.keys.foldl (fun new i => f.keys.foldl (fun new j => mulStep p f new (i, j)) new) Dict.empty

/-- polynomials.py:200-201 `__mul__` for an int argument. -/
def mulInt (p : Poly) (c : Int) : Poly := mul p (const c)

/-- polynomials.py:166-167 `__add__` for an int argument: `other * Polynomial.monomial(0, 0)` is
`monomial(0,0).__rmul__(other)` (L217-221), i.e. `monomial(0,0) * other`. -/
def addInt (p : Poly) (c : Int) : Poly := add p (mulInt (monomial 0 0) c)

/-- polynomials.py:182-183 `__neg__`. -/
def neg (p : Poly) : Poly := mulInt p (-1)

/-- polynomials.py:185-186 `__sub__` for a polynomial argument. -/
def sub (p q : Poly) : Poly := add p (neg q)

/-- polynomials.py:185-186 `__sub__` for an int argument. -/
def subInt (p : Poly) (c : Int) : Poly := addInt p (-c)

/-- polynomials.py:188-189 `__rsub__` for an int argument: `c - p`. -/
def rsubInt (p : Poly) (c : Int) : Poly := neg (subInt p c)

/-- polynomials.py:122-124 `one`. -/
def one : Poly := monomial 1 0

/-- polynomials.py:118-120 `zero`. -/
def zero : Poly := mulInt one 0

/-- polynomials.py:329-331 `x(i)`. -/
def x (i : Int) : Poly := monomial i 1

/-- polynomials.py:14-18 `X(i)`: raises AssertionError (`none`) for negative `i`. -/
def X (i : Int) : Option Poly := if 0 ≤ i then some (x i) else none

/-- polynomials.py:21-25 `Y(i)`: raises AssertionError (`none`) for positive `i`. -/
def Y (i : Int) : Option Poly := if i ≤ 0 then some (x i) else none

/-- polynomials.py:338 `beta = X(0)`. -/
def beta : Poly := x 0

/-- polynomials.py:240-245 `nnz`. -/
def nnz (p : Poly) : Nat := p.keys.foldl (fun n i => if p.coeff i ≠ 0 then n + 1 else n) 0

/-- polynomials.py:247-248 `is_zero`. -/
def isZero (p : Poly) : Bool := nnz p == 0

/-- polynomials.py:58-59 `__bool__`. -/
def toBool (p : Poly) : Bool := !(isZero p)

/-- polynomials.py:159-160 `__eq__` for a polynomial argument. -/
def eq (p q : Poly) : Bool := nnz (sub p q) == 0

/-- polynomials.py:159-160 `__eq__` for an int argument. -/
def eqInt (p : Poly) (c : Int) : Bool := nnz (subInt p c) == 0

/-- polynomials.py:61-62 `__xor__`: `self + other + X(0) * self * other`. -/
def xor (p q : Poly) : Poly := add (add p q) (mul (mul (x 0) p) q)

/-- polynomials.py:223-238 `__pow__` for exponents `n ≥ 0`. -/
def powNat (p : Poly) : Nat → Poly
  | 0 => monomial 0 0
  | n + 1 => mul p (powNat p n)

/-- polynomials.py:223-238 `__pow__`; `none` is the python value `None`. -/
def pow (p : Poly) (i : Int) : Option Poly :=
  if i = 0 then some (monomial 0 0)
  else if i < 0 then
    match p.items with
    | [(ind, c)] => if c.natAbs > 1 then none else some (Dict.empty.set (ind.scale i) c)
    | _ => none
  else some (powNat p i.toNat)

/-- polynomials.py:67-69 `__mod__`; `none` is the ZeroDivisionError raised by the first term when `o = 0`. -/
def mod (p : Poly) (o : Int) : Option Poly :=
  if o = 0 ∧ p.items ≠ [] then none
  else some ((p.mapVal (fun _ v => v.fmod o)).filter (fun _ v => decide (v ≠ 0)))

/-- polynomials.py:76-78 `__floordiv__`; `none` as in `mod`. -/
def floordiv (p : Poly) (o : Int) : Option Poly :=
  if o = 0 ∧ p.items ≠ [] then none
  else some ((p.mapVal (fun _ v => v.fdiv o)).filter (fun _ v => decide (v ≠ 0)))

/-- polynomials.py:71-74 `__truediv__`; `none` is the AssertionError of L73, or the ZeroDivisionError as in `mod`. -/
def truediv (p : Poly) (o : Int) : Option Poly :=
  if o = 0 ∧ p.items ≠ [] then none
  else if p.values.all (fun v => v.fmod o == 0) then some (p.mapVal (fun _ v => v.fdiv o)) else none

/-- polynomials.py:80-85 `truncate`. -/
def truncate (p : Poly) (bound : Int) : Poly := p.filter (fun m _ => decide (m.degree ≤ bound))

/-- polynomials.py:105-113 `total_degree`. -/
def totalDegree (p : Poly) : Option Int :=
  p.keys.foldl (fun ans ind => match ans with
    | none => some ind.degree
    | some a => some (max a ind.degree)) none

/-- polynomials.py:95-103 `coefficient(index, power)`. -/
def coefficient (p : Poly) (index power : Int) : Poly :=
  p.keys.foldl (fun acc term =>
    if (index ∈ term.keys ∧ term.get index = power) ∨ (power = 0 ∧ index ∉ term.keys) then
      let newTerm := if power ≠ 0 then term.erase index else term
      add acc (Dict.empty.set newTerm (p.coeff term))
    else acc) Dict.empty

/-- polynomials.py:250-251 `constant_term`. -/
def constantTerm (p : Poly) : Int := p.coeff Mono.one

/-- polynomials.py:253-254 `is_integer`. -/
def isInteger (p : Poly) : Bool := eqInt p (constantTerm p)

/-- polynomials.py:191-193 `__lt__` for a polynomial argument. -/
def lt (p q : Poly) : Bool := (sub q p).values.all (fun v => decide (0 < v))

/-- polynomials.py:195-197 `__gt__` for a polynomial argument. -/
def gt (p q : Poly) : Bool := (sub p q).values.all (fun v => decide (0 < v))

/-- polynomials.py:191-192 `__lt__` for an int argument: compares with `Polynomial.one() * other`. -/
def ltInt (p : Poly) (c : Int) : Bool := lt p (mulInt one c)

/-- polynomials.py:195-196 `__gt__` for an int argument. -/
def gtInt (p : Poly) (c : Int) : Bool := gt p (mulInt one c)

/-- polynomials.py:130-135: the factor contributed by the variable `j` of a term in `substitute(i, e)`.
`none` is the AssertionError of L134. -/
def substFactor (i : Int) (e : Poly) (term : Poly) (je : Int × Int) : Option Poly :=
  if i ≠ je.1 then some (mul term (monomial je.1 je.2))
  else if 0 ≤ je.2 then some (mul term (powNat e je.2.toNat))
  else none

/-- polynomials.py:129-135: one term of `substitute(i, e)`.  The variables of a term are visited in sorted order
(python: in insertion order). -/
def substTerm (i : Int) (e : Poly) (ind : Mono) (c : Int) : Option Poly :=
  ind.items.foldlM (substFactor i e) (mulInt one c)

/-- polynomials.py:126-137 `substitute(i, e)` for a polynomial `e`.  `none` is the AssertionError.  The python
accumulator starts as the int 0 and becomes a polynomial with the first term (`0 + term` is `term.__radd__(0)`);
for a polynomial without terms the int 0 is returned, here the empty polynomial, which is `==` to it. -/
def substitute (p : Poly) (i : Int) (e : Poly) : Option Poly :=
  p.keys.foldlM (fun ans ind => (substTerm i e ind (p.coeff ind)).map (fun t => add ans t)) Dict.empty

end Poly
end Verif
