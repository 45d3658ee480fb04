import Mathlib.Data.Int.Notation
import Mathlib.Data.Int.Order.Basic

/-!
# Specification: words that are equal in the 0-Hecke monoid

Independent of the model.
-/

namespace Verif.Words

/-- The congruence on words generated by `a a = a`, `a b = b a` for `b ≥ a + 2`, and `a b a = b a b` for `b = a + 1`. -/
inductive HeckeEquiv : List Int → List Int → Prop
  | refl (u : List Int) : HeckeEquiv u u
  | symm {u v : List Int} (h : HeckeEquiv u v) : HeckeEquiv v u
  | trans {u v w : List Int} (h : HeckeEquiv u v) (h' : HeckeEquiv v w) : HeckeEquiv u w
  | context {u v : List Int} (p s : List Int) (h : HeckeEquiv u v) : HeckeEquiv (p ++ u ++ s) (p ++ v ++ s)
  | idem (a : Int) : HeckeEquiv [a, a] [a]
  | comm {a b : Int} (h : a + 2 ≤ b) : HeckeEquiv [a, b] [b, a]
  | braid (a : Int) : HeckeEquiv [a, a + 1, a] [a + 1, a, a + 1]

end Verif.Words
