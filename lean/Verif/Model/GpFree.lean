import Verif.Model.MarkedRppPoly

/-! # Model of /repo/symmetric.py, `gp_free_expansion` -/

namespace Verif.Symm

/-- symmetric.py:538-540: the product of `dual_stable_grothendieck_p(n, (part,))` over the parts of `mu`.  The product starts with the
int 1.  For `mu = ()` it is this int, and then `f - c * g` in L541 subtracts a `Polynomial` from a `SymmetricPolynomial`: this
is `-(c + -f)`, and `Polynomial.__add__` raises an AttributeError because `-f` has no `coeffs`.  This is `none`. -/
def gpProduct (n : Nat) (mu : List Nat) : Option SymPoly :=
  match mu with
  | [] => none
  | a :: rest =>
    match dualStableGrothendieckP n [a] [] with
    | none => none
    | some g => rest.foldlM (fun g part => (dualStableGrothendieckP n [part] []).map (fun h => mul g h)) (Vec.smul g 1)

/-- symmetric.py:531-544 `gp_free_expansion(f)` for a symmetric polynomial in `n` variables.  `none` if an exception is raised, or if
the recursion is deeper than `fuel`. -/
def gpFreeExpansion (n : Nat) : Nat → SymPoly → Option (Vec (List Nat) PolyVal)
  | 0, _ => none
  | fuel + 1, f =>
    if f.len = 0 then some (Vec.mk' Dict.empty none)
    else
      match gpExpansion n fuel f with
      | none => none
      | some exp =>
        match maxKey exp with
        | none => none
        | some mu =>
          match gpProduct n mu with
          | none => none
          | some g =>
            match gpFreeExpansion n fuel (Vec.sub f (Vec.smul g (exp.get mu))) with
            | none => none
            | some ans => some (Vec.add ans (Vec.mk' (Dict.empty.set mu (exp.get mu)) none))

end Verif.Symm
