import Verif.Lemmas.Cached

/-! # C38: `cached_value` -/

namespace Verif.Cached

variable {A R E : Type*} [DecidableEq A]

/-- C38: in every sequence of calls of the decorated function, starting with an empty cache, each call returns or raises
what the undecorated function returns or raises. -/
theorem C38_transparent {f : A → Comp A R E} {n : Nat} {as : List A} {os} {st : State A R}
    (h : runCalls f n State.init as = some (os, st)) :
    List.Forall₂ (fun a o => ∃ m, plain f m (f a) = some o) as os :=
  (runCalls_spec (good_init f) (counted_init f) h).2.2

/-- C38: the calls terminate whenever those of the undecorated function do. -/
theorem C38_terminates {f : A → Comp A R E} {n : Nat} {as : List A} (h : ∀ a ∈ as, ∃ o, plain f n (f a) = some o) :
    ∃ os st, runCalls f n State.init as = some (os, st) := runCalls_complete (good_init f) h

/-- C38: the undecorated function is a function: its outcome does not depend on the bound. -/
theorem C38_plain_unique {f : A → Comp A R E} {n m : Nat} {a : A} {o o'} (h : plain f n (f a) = some o)
    (h' : plain f m (f a) = some o') : o = o' := plain_unique h h'

/-- C38: an argument on which the function returns is evaluated at most once. -/
theorem C38_once {f : A → Comp A R E} {n : Nat} {as : List A} {os} {st : State A R}
    (h : runCalls f n State.init as = some (os, st)) {a : A} {r : R} {m : Nat} (ha : plain f m (f a) = some (.ok r)) :
    st.log.count a ≤ 1 := by
  rw [(runCalls_spec (good_init f) (counted_init f) h).2.1 a r m ha]
  split <;> omega

/-- C38: an argument on which the function raises is never cached. -/
theorem C38_raise {f : A → Comp A R E} {n : Nat} {as : List A} {os} {st : State A R}
    (h : runCalls f n State.init as = some (os, st)) {a : A} {e : E} {m : Nat} (ha : plain f m (f a) = some (.error e)) :
    st.cache a = none := by
  cases hc : st.cache a with
  | none => rfl
  | some r =>
    obtain ⟨k, hk⟩ := (runCalls_spec (good_init f) (counted_init f) h).1 a r hc
    cases plain_unique ha hk

/-- The Fibonacci function, which raises on arguments above 50 (as a function of its argument, with recursive calls). -/
def fib (a : Nat) : Comp Nat Nat String :=
  if a > 50 then .raise "ValueError"
  else if a < 2 then .ret a
  else .call (a - 1) (fun o => match o with
    | .ok x => .call (a - 2) (fun o => match o with
      | .ok y => .ret (x + y)
      | .error e => .raise e)
    | .error e => .raise e)

/-- Three calls of the cached function, with the list of all evaluations: the second call of `fib(10)` evaluates nothing,
and the raising call is evaluated again each time. -/
example : (runCalls fib 100 State.init [10, 60, 12, 10, 60]).map (fun p =>
    (p.1.map (fun o => match o with | .ok r => some r | .error _ => none), p.2.log)) =
    some ([some 55, none, some 144, some 55, none], [10, 9, 8, 7, 6, 5, 4, 3, 2, 1, 0, 60, 12, 11, 60]) := by
  decide +kernel

example : plain fib 30 (fib 10) = some (.ok 55) := by decide +kernel

end Verif.Cached
