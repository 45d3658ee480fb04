import Mathlib.Data.Nat.Init

/-! `cached_value` (cached.py).

The decorated function is a deterministic computation that may call the decorated function recursively, may catch the
exceptions of these calls, and may return or raise.  Not modelled: the class argument `cls` (it is not part of the cache
key, so functions whose value depends on `cls` are excluded), unhashable arguments, and mutation of returned values. -/

namespace Verif.Cached

/-- The body of a python function from arguments `A` to values `R`, with exceptions `E`. -/
inductive Comp (A R E : Type*) where
  | ret (r : R)
  | raise (e : E)
  /-- call the decorated function on `a` and go on with the outcome -/
  | call (a : A) (k : Except E R → Comp A R E)

variable {A R E : Type*} [DecidableEq A]

/-- Running the body with the undecorated function (recursion depth plus number of calls at most the first argument). -/
def plain (f : A → Comp A R E) : Nat → Comp A R E → Option (Except E R)
  | 0, _ => none
  | _ + 1, .ret r => some (.ok r)
  | _ + 1, .raise e => some (.error e)
  | n + 1, .call a k =>
    match plain f n (f a) with
    | none => none
    | some o => plain f n (k o)

/-- The dictionary `cache` and the list of all arguments on which the body of `f` has been started. -/
structure State (A R : Type*) where
  cache : A → Option R
  log : List A

/-- cached.py:5-9 `wrapped_f`, where `body` runs the computations. `cache[key] = f(cls, *args)` is not executed when `f`
raises. -/
def wrapped (body : State A R → Comp A R E → Option (Except E R × State A R)) (f : A → Comp A R E) (st : State A R) (a : A) :
    Option (Except E R × State A R) :=
  match st.cache a with
  | some r => some (.ok r, st)
  | none =>
    match body { st with log := st.log ++ [a] } (f a) with
    | none => none
    | some (.ok r, st') => some (.ok r, { st' with cache := fun b => if b = a then some r else st'.cache b })
    | some (.error e, st') => some (.error e, st')

/-- Running the body with the decorated function. -/
def run (f : A → Comp A R E) : Nat → State A R → Comp A R E → Option (Except E R × State A R)
  | 0, _, _ => none
  | _ + 1, st, .ret r => some (.ok r, st)
  | _ + 1, st, .raise e => some (.error e, st)
  | n + 1, st, .call a k =>
    match wrapped (run f n) f st a with
    | none => none
    | some (o, st') => run f n st' (k o)

/-- A sequence of calls of the decorated function, each with its outcome. -/
def runCalls (f : A → Comp A R E) (n : Nat) : State A R → List A → Option (List (Except E R) × State A R)
  | st, [] => some ([], st)
  | st, a :: as =>
    match wrapped (run f n) f st a with
    | none => none
    | some (o, st') =>
      match runCalls f n st' as with
      | none => none
      | some (os, st'') => some (o :: os, st'')

/-- The state of a new cache `{}`. -/
def State.init : State A R := ⟨fun _ => none, []⟩

end Verif.Cached
