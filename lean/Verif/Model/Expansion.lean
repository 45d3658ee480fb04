import Verif.Model.Symmetric
import Verif.Lemmas.PolySubst

/-!
# Model of the expansions in /repo/symmetric.py

`_expansion` and its helpers.  Coefficients are `PolyVal`s, that is ints and `Polynomial`s up to `==`.  The methods
`total_degree`, `%`, `//` and `substitute` of polynomials.py look at stored terms; the arithmetic of polynomials.py
stores no zero coefficients (C01, C02), and here they are applied to the stored terms with nonzero coefficient
(`Poly.clean`).  An int `c` is treated by `_expansion` (L446-448) as the polynomial `c` is.  The tracebacks printed
before an exception is raised again are not modelled, nor is python's bound on the depth of recursion.
-/

namespace Verif

/-- The polynomial without its stored zeros. -/
def Poly.clean (p : Poly) : Poly := p.filter (fun _ v => decide (v ≠ 0))

namespace Poly

theorem get?_clean (p : Poly) (m : Mono) : (clean p).get? m = if coeff p m = 0 then none else some (coeff p m) := by
  rw [clean, Dict.get?_filter, coeff, Dict.getD]
  cases p.get? m with
  | none => simp
  | some v =>
    by_cases h : v = 0 <;> simp [h]

@[simp] theorem coeff_clean (p : Poly) (m : Mono) : coeff (clean p) m = coeff p m := by
  rw [coeff, Dict.getD, get?_clean]
  split
  · rename_i h; rw [h]; rfl
  · rfl

theorem noZero_clean (p : Poly) : NoZero (clean p) := by
  intro m c h
  rw [get?_clean] at h
  split at h
  · cases h
  · rename_i h0; exact fun hc => h0 (by rw [← Option.some.inj h] at hc; exact hc)

theorem mem_keys_clean (p : Poly) (m : Mono) : m ∈ (clean p).keys ↔ coeff p m ≠ 0 := by
  rw [Dict.mem_keys, get?_clean]
  split
  · rename_i h; simp [h]
  · rename_i h; simp [h]

@[simp] theorem den_clean (p : Poly) : (clean p).den = p.den := den_eq_iff.2 (fun m => coeff_clean p m)

theorem coeff_of_eq {p q : Poly} (h : Poly.eq p q = true) (m : Mono) : coeff p m = coeff q m :=
  den_eq_iff.1 ((Poly.eq_iff p q).1 h) m

theorem totalDegree_clean {p q : Poly} (h : Poly.eq p q = true) : totalDegree (clean p) = totalDegree (clean q) := by
  have key : ∀ p q : Poly, (∀ m, coeff p m = coeff q m) → ∀ d, totalDegree (clean p) = some d →
      totalDegree (clean q) = some d := by
    intro p q hc d hd
    obtain ⟨⟨m, hm, hmd⟩, hle⟩ := totalDegree_some _ d hd
    rw [mem_keys_clean, hc, ← mem_keys_clean] at hm
    cases hq : totalDegree (clean q) with
    | none => rw [(totalDegree_none _).1 hq] at hm; simp at hm
    | some d' =>
      obtain ⟨⟨m', hm', hmd'⟩, hle'⟩ := totalDegree_some _ d' hq
      have h1 := hle' m hm
      rw [mem_keys_clean, ← hc, ← mem_keys_clean] at hm'
      have h2 := hle m' hm'
      rw [hmd] at h1
      rw [hmd'] at h2
      rw [show d' = d by omega]
  have h' := coeff_of_eq h
  cases hp : totalDegree (clean p) with
  | some d => exact (key p q h' d hp).symm
  | none =>
    cases hq : totalDegree (clean q) with
    | none => rfl
    | some d => rw [key q p (fun m => (h' m).symm) d hq] at hp; cases hp

theorem clean_items {p q : Poly} (h : Poly.eq p q = true) : (clean p).items = [] ↔ (clean q).items = [] := by
  have : ∀ p : Poly, p.items = [] ↔ ∀ m, m ∉ p.keys := by
    intro p
    rw [Dict.keys]
    constructor
    · intro h; simp [h]
    · intro h
      rw [← List.map_eq_nil_iff (f := Prod.fst)]
      exact List.eq_nil_iff_forall_not_mem.2 h
  rw [this, this]
  exact forall_congr' (fun m => by rw [mem_keys_clean, mem_keys_clean, coeff_of_eq h])

theorem coeff_mapVal_filter (p : Poly) (f : ℤ → ℤ) (h0 : f 0 = 0) (m : Mono) :
    Poly.coeff ((p.mapVal (fun _ v => f v)).filter (fun _ v => decide (v ≠ 0))) m = f (p.coeff m) := by
  unfold Poly.coeff Dict.getD
  rw [Dict.get?_filter, Dict.get?_mapVal]
  cases p.get? m with
  | none => simp [h0]
  | some v => by_cases h : f v = 0 <;> simp [Option.filter, h]

theorem mod_clean {p q : Poly} (h : Poly.eq p q = true) (o : Int) :
    (mod (clean p) o).map PolyVal.mk = (mod (clean q) o).map PolyVal.mk := by
  simp only [mod, ne_eq, clean_items h]
  split
  · rfl
  · rw [Option.map_some, Option.map_some, PolyVal.mk_eq.2 (den_eq_iff.2 (fun m => ?_))]
    rw [coeff_mapVal_filter _ (fun v => v.fmod o) (by simp), coeff_mapVal_filter _ (fun v => v.fmod o) (by simp),
      coeff_clean, coeff_clean, coeff_of_eq h]

theorem floordiv_clean {p q : Poly} (h : Poly.eq p q = true) (o : Int) :
    (floordiv (clean p) o).map PolyVal.mk = (floordiv (clean q) o).map PolyVal.mk := by
  simp only [floordiv, ne_eq, clean_items h]
  split
  · rfl
  · rw [Option.map_some, Option.map_some, PolyVal.mk_eq.2 (den_eq_iff.2 (fun m => ?_))]
    rw [coeff_mapVal_filter _ (fun v => v.fdiv o) (by simp), coeff_mapVal_filter _ (fun v => v.fdiv o) (by simp),
      coeff_clean, coeff_clean, coeff_of_eq h]

theorem substitute_clean {p q : Poly} (h : Poly.eq p q = true) (i : Int) (e : Poly) :
    (substitute (clean p) i e).map PolyVal.mk = (substitute (clean q) i e).map PolyVal.mk := by
  by_cases hp : ∀ m ∈ (clean p).keys, 0 ≤ m.get i
  · obtain ⟨r, hr, hd⟩ := substitute_some (clean p) i e hp
    obtain ⟨r', hr', hd'⟩ := substitute_some (clean q) i e (fun m hm => hp m (by
      rw [mem_keys_clean] at hm ⊢; rwa [coeff_of_eq h]))
    rw [hr, hr', Option.map_some, Option.map_some, PolyVal.mk_eq.2]
    rw [hd, hd', den_clean, den_clean, (Poly.eq_iff p q).1 h]
  · push Not at hp
    obtain ⟨m, hm, hlt⟩ := hp
    rw [substitute_none (clean p) i e ⟨m, hm, hlt⟩, substitute_none (clean q) i e ⟨m, by
      rw [mem_keys_clean] at hm ⊢; rwa [← coeff_of_eq h], hlt⟩]

end Poly

namespace PolyVal

/-- polynomials.py:105-113 `total_degree`. -/
def totalDegree (a : PolyVal) : Option Int :=
  Quotient.lift (fun p => Poly.totalDegree (Poly.clean p)) (fun _ _ h => Poly.totalDegree_clean h) a

/-- polynomials.py:95-103 `coefficient(index, power)`. -/
def coefficient (a : PolyVal) (index power : Int) : PolyVal :=
  Quotient.map (fun p => Poly.coefficient p index power) (fun p q h => (Poly.eq_iff _ _).2 (Poly.den_eq_iff.2 (fun m => by
    rw [Poly.coeff_coefficient, Poly.coeff_coefficient, Poly.coeff_of_eq h]))) a

/-- polynomials.py:250-251 `constant_term`. -/
def constantTerm (a : PolyVal) : Int := Quotient.lift Poly.constantTerm (fun _ _ h => Poly.coeff_of_eq h _) a

/-- polynomials.py:253-254 `is_integer`. -/
def isInteger (a : PolyVal) : Bool := decide (a = (constantTerm a : PolyVal))

/-- polynomials.py:67-69 `%`; `none` is the ZeroDivisionError. -/
def mod (a : PolyVal) (o : Int) : Option PolyVal :=
  Quotient.lift (fun p => (Poly.mod (Poly.clean p) o).map mk) (fun _ _ h => Poly.mod_clean h o) a

/-- polynomials.py:76-78 `//`; `none` is the ZeroDivisionError. -/
def floordiv (a : PolyVal) (o : Int) : Option PolyVal :=
  Quotient.lift (fun p => (Poly.floordiv (Poly.clean p) o).map mk) (fun _ _ h => Poly.floordiv_clean h o) a

/-- polynomials.py:126-137 `substitute(i, e)`; `none` is the AssertionError. -/
def substitute (a : PolyVal) (i : Int) (e : Poly) : Option PolyVal :=
  Quotient.lift (fun p => (Poly.substitute (Poly.clean p) i e).map mk) (fun _ _ h => Poly.substitute_clean h i e) a

end PolyVal

namespace Symm

/-- symmetric.py:240-246 `lowest_degree_terms()`. -/
def lowestDegreeTerms (n : Nat) (f : SymPoly) : SymPoly :=
  let m := match f.dict.keys.map List.sum with
    | [] => 0
    | d :: ds => ds.foldl min d
  mkSym n (f.dict.filter (fun mu _ => decide (mu.sum = m)))

/-- symmetric.py:248-254 `highest_degree_terms()`. -/
def highestDegreeTerms (n : Nat) (f : SymPoly) : SymPoly :=
  let m := match f.dict.keys.map List.sum with
    | [] => 0
    | d :: ds => ds.foldl max d
  mkSym n (f.dict.filter (fun mu _ => decide (mu.sum = m)))

/-- python's `max(f)` for a vector, i.e. of its keys, with symmetric.py:51-54 `__lt__` (the order of python's tuples);
`none` is the ValueError for a vector without keys. -/
def maxKey (f : SymPoly) : Option (List Nat) :=
  match f.dict.keys with
  | [] => none
  | k :: ks => some (ks.foldl (fun m k => if m < k then k else m) k)

/-- symmetric.py:490-492 `_get_term_from_lowest_degree(f)`. -/
def termFromLowest (n : Nat) (f : SymPoly) : Option (List Nat) := maxKey (lowestDegreeTerms n f)

/-- symmetric.py:494-498 `_get_term_from_highest_degree(f)`; what follows the first return is dead code. -/
def termFromHighest (n : Nat) (f : SymPoly) : Option (List Nat) := maxKey (highestDegreeTerms n f)

/-- `sum(...)` of symmetric polynomials; `none` is the int 0 returned for an empty sum. -/
def sumVecs (l : List SymPoly) : Option SymPoly :=
  l.foldl (fun acc v => match acc with
    | none => some v
    | some u => some (Vec.add u v)) none

/-- symmetric.py:472-473: the recombination `expected`, compared with `f`.  `none` if `function` raises. -/
def recombines (function : List Nat → Option SymPoly) (f : SymPoly) (ans : Vec (List Nat) PolyVal) : Option Bool :=
  match ans.dict.items.mapM (fun xy => (function xy.1).map (fun g => Vec.smul g xy.2)) with
  | none => none
  | some l => match sumVecs l with
    | none => some (decide (f.len = 0))
    | some expected => some (Vec.eq expected f)

/-- symmetric.py:434-488 `_expansion(f, function, get_term)`; `function` has its first argument `n` filled in.
`none` if an exception is raised, or if the recursion is deeper than `fuel`. -/
def expansion (function : List Nat → Option SymPoly) (getTerm : SymPoly → Option (List Nat)) :
    Nat → SymPoly → Option (Vec (List Nat) PolyVal)
  | 0, _ => none
  | fuel + 1, f =>
    if f.len = 0 then some (Vec.mk' Dict.empty none)
    else do
      let t ← getTerm f
      let g ← function t
      let cdeg ← (f.get t).totalDegree
      let c := (f.get t).coefficient 0 cdeg
      if (g.get t).isInteger then
        let d := (g.get t).constantTerm
        let r ← c.mod d
        if r = 0 then
          let q ← c.floordiv d
          let b ← Poly.pow Poly.beta cdeg
          let c := q * PolyVal.mk b
          let ans ← expansion function getTerm fuel (Vec.sub f (Vec.smul g c))
          let ans := Vec.add ans (Vec.mk' (Dict.empty.set t c) none)
          let ok ← recombines function f ans
          if ok then some ans else none
        else none
      else none

/-- symmetric.py:500-502 `schur_expansion(f)`. -/
def schurExpansion (n fuel : Nat) (f : SymPoly) : Option (Vec (List Nat) PolyVal) :=
  expansion (fun mu => schur n mu []) (termFromLowest n) fuel f

/-- symmetric.py:511-513 `grothendieck_expansion(f)`. -/
def grothendieckExpansion (n fuel : Nat) (f : SymPoly) : Option (Vec (List Nat) PolyVal) :=
  expansion (fun mu => stableGrothendieck n mu [] none) (termFromLowest n) fuel f

/-- symmetric.py:370-373 `negate_beta(f)`; `none` if `substitute` raises. -/
def negateBeta (f : SymPoly) : Option SymPoly :=
  (f.dict.items.foldlM (fun (d : Dict (List Nat) PolyVal) (kv : List Nat × PolyVal) => (kv.2.substitute 0 (Poly.neg Poly.beta)).map (fun v => d.set kv.1 v))
    Dict.empty).map (fun d => Vec.mk' d f.multiplier)

/-- symmetric.py:387-389 `mn_stable_grothendieck(n, mu, nu)`. -/
def mnStableGrothendieck (n : Nat) (mu nu : List Nat) : Option SymPoly :=
  (stableGrothendieck n mu nu none).bind negateBeta

/-- symmetric.py:515-517 `mn_grothendieck_expansion(f)`. -/
def mnGrothendieckExpansion (n fuel : Nat) (f : SymPoly) : Option (Vec (List Nat) PolyVal) :=
  expansion (fun mu => mnStableGrothendieck n mu []) (termFromLowest n) fuel f

end Symm
end Verif
