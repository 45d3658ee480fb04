import Verif.Model.TabCrystals
import Verif.Model.Insertion

/-!
# Model of /repo/crystals.py

`CrystalMixin` (edges, components, strings), `TableauCrystalGenerator` and the factorizations of `WordCrystalGenerator`.  A failing
assertion, an exception, or a loop that uses up its fuel, is `none`; where python returns None, the inner option is `none`.
-/

namespace Verif.Crystal

open Verif

/-- crystals.py:411-415 `is_increasing(x)`. -/
def isIncreasing (decreasing : Bool) (x : List Int) : Bool :=
  (List.range' 1 (x.length - 1)).all (fun i =>
    if decreasing then decide (x.getD i 0 < x.getD (i - 1) 0) else decide (x.getD i 0 ≥ x.getD (i - 1) 0))

/-- crystals.py:409-429 `get_increasing_factorizations(w, k, decreasing)`: the list of the tuples that the generator yields.  The
`break` in L428-429 ends the loop over `i` at the first `w[:i]` that is not increasing. -/
def increasingFactorizations (decreasing : Bool) : Nat → List Int → List (List (List Int))
  | 0, w => if w.length = 0 then [[]] else []
  | k + 1, w =>
    if w.length = 0 then [List.replicate (k + 1) []]
    else ((List.range (w.length + 1)).takeWhile (fun i => isIncreasing decreasing (w.take i))).flatMap
      (fun i => (increasingFactorizations decreasing k (w.drop i)).map (fun tup => w.take i :: tup))

/-- crystals.py:375-383 `factorization_tuple_to_array(tup)`; the loop carries `(w, i, index)`. -/
def factorizationTupleToArray (tup : List (List Int)) : List Int × List Int :=
  let r := tup.foldl (fun (s : List Int × List Int × Int) part =>
    (s.1 ++ part, s.2.1 ++ List.replicate part.length s.2.2, s.2.2 + 1)) ([], [], 1)
  (r.1, r.2.1)

/-- crystals.py:130-137 `TableauCrystalGenerator.f_crystal_operator(element_index, operator_index)`.  `elements` is the list of
the tableaux (crystals.py:117; its order is that of a python set, hence arbitrary). -/
def fIndex? (elements : List Tab) (multisetvalued : Bool) (x : Nat) (i : Int) : Option (Option Nat) :=
  match elements[x]? with
  | none => none
  | some T =>
    match T.f? i multisetvalued with
    | none => none
    | some none => some none
    | some (some t) =>
      let elementIndices := (List.range elements.length).filter (fun y => decide (elements[y]? = some t))
      if elementIndices.length = 1 then some elementIndices[0]? else none

/-- crystals.py:77-81: the loop over the pairs `(x, i)`. -/
def edgesLoop (f : Nat → Int → Option (Option Nat)) : List (Nat × Nat) → Option (List (Nat × Nat × Nat))
  | [] => some []
  | (x, i) :: l =>
    match f x i with
    | none => none
    | some none => edgesLoop f l
    | some (some y) => (edgesLoop f l).map (fun r => (x, y, i) :: r)

/-- crystals.py:73-82 `edges`, with `n = len(self)`. -/
def edges? (f : Nat → Int → Option (Option Nat)) (n rank : Nat) : Option (List (Nat × Nat × Nat)) :=
  edgesLoop f ((List.range n).flatMap (fun x => (List.range rank).map (fun i => (x, i))))

/-- crystals.py:54-59: the vertices connected by an edge with a vertex in `added`. -/
def connected (E : List (Nat × Nat × Nat)) (added : Finset Nat) : Finset Nat :=
  added.biUnion (fun s =>
    ((E.filter (fun e => decide (s = e.1))).map (fun e => e.2.1)).toFinset ∪
      ((E.filter (fun e => decide (s = e.2.1))).map (fun e => e.1)).toFinset)

/-- crystals.py:53-60: the `while` loop of `dfs`. -/
def dfsLoop (E : List (Nat × Nat × Nat)) : Nat → Finset Nat → Finset Nat → Option (Finset Nat)
  | 0, _, _ => none
  | fuel + 1, seen, added =>
    if added = ∅ then some seen
    else
      let added' := connected E added \ seen
      dfsLoop E fuel (seen ∪ added') added'

/-- crystals.py:50-62 `dfs(seed)`. -/
def dfs? (E : List (Nat × Nat × Nat)) (fuel : Nat) (seed : Nat) : Option (Finset Nat) := dfsLoop E fuel {seed} {seed}

/-- crystals.py:66-70: the `while` loop.  `pick` says which element `rest.pop()` takes out of a set. -/
def componentsLoop (pick : Finset Nat → Nat) (E : List (Nat × Nat × Nat)) (dfsFuel : Nat) : Nat → Finset Nat → Option (List (Finset Nat))
  | 0, _ => none
  | fuel + 1, rest =>
    if rest = ∅ then some []
    else
      let seed := pick rest
      match dfs? E dfsFuel seed with
      | none => none
      | some comp => (componentsLoop pick E dfsFuel fuel ((rest.erase seed) \ comp)).map (fun r => comp :: r)

/-- crystals.py:48-71 `components`. -/
def components? (pick : Finset Nat → Nat) (E : List (Nat × Nat × Nat)) (n fuel : Nat) : Option (List (Finset Nat)) :=
  componentsLoop pick E fuel fuel (Finset.range n)

/-- crystals.py:12-16: the `while` loop that extends the string ending in `x`; the result does not contain `x`. -/
def stringLoop (f : Nat → Int → Option (Option Nat)) (i : Int) : Nat → Nat → Option (List Nat)
  | 0, _ => none
  | fuel + 1, x =>
    match f x i with
    | none => none
    | some none => some []
    | some (some y) => (stringLoop f i fuel y).map (fun r => y :: r)

/-- crystals.py:10: the indices `x` for which `self[x].e_crystal_operator(i)` is None.  The call leaves `multisetvalued` at its
default value True (tableaux.py:252). -/
def stringHeads? (elements : List Tab) (i : Int) : List Nat → Option (List Nat)
  | [] => some []
  | x :: l =>
    match elements[x]? with
    | none => none
    | some T =>
      match T.e? i true with
      | none => none
      | some none => (stringHeads? elements i l).map (fun r => x :: r)
      | some (some _) => stringHeads? elements i l

/-- crystals.py:11-17: the loop over `j`. -/
def stringsLoop (f : Nat → Int → Option (Option Nat)) (i : Int) (fuel : Nat) : List Nat → Option (List (List Nat))
  | [] => some []
  | x :: l =>
    match stringLoop f i fuel x with
    | none => none
    | some r => (stringsLoop f i fuel l).map (fun rest => (x :: r) :: rest)

/-- crystals.py:9-17 `istrings(i)` of a `TableauCrystalGenerator`. -/
def istrings? (elements : List Tab) (multisetvalued : Bool) (i : Int) (fuel : Nat) : Option (List (List Nat)) :=
  (stringHeads? elements i (List.range elements.length)).bind (stringsLoop (fIndex? elements multisetvalued) i fuel)

end Verif.Crystal
