import Verif.Model.Crystals
import Verif.Model.StableG

/-!
# Model of `WordCrystalGenerator` in /repo/crystals.py

The crystal of the increasing (or decreasing) factorizations of the Hecke words of a permutation.  As in Model/Crystals.lean a failing
assertion, an exception, or a loop that uses up its fuel, is `none`; where python returns None, the inner option is `none`.
-/

namespace Verif.Crystal

open Verif Verif.Perm Verif.Insertion

/-- crystals.py:360 `self.words`, for `w = Permutation(*oneline)` and `length >= 0`; `entry` is what the cache of
`hecke_levels` (permutations.py:500-531) holds for the key `(w.rank, None)`.  The result contains the new content of the cache. -/
def crystalWords? (w : SPerm) (length fuel : Nat) (entry : List Level) : Option (List (List Int) × List Level) :=
  ((heckeKind w.rank none).run fuel (some (length : Int)) entry).map (fun r =>
    (((wordsOf w r.1).filter (fun u => decide (u.length = length))).map (fun u => u.map (fun a : Nat => (a : Int))), r.2))

/-- crystals.py:393 the order of `sorted(fac, key=lambda f: tuple(len(a) for a in f), reverse=True)`: pairs of lengths, in the
lexicographic order, the largest first. -/
def lengthsGe (a b : List Int × List Int) : Prop :=
  b.1.length < a.1.length ∨ (b.1.length = a.1.length ∧ b.2.length ≤ a.2.length)

instance : DecidableRel lengthsGe := fun a b => inferInstanceAs (Decidable (_ ∨ _))

/-- crystals.py:385-394 `factorizations`. -/
def wordElements (words : List (List Int)) (k : Nat) (decreasing : Bool) : List (List Int × List Int) :=
  (words.flatMap (fun w => (increasingFactorizations decreasing k w).map factorizationTupleToArray)).insertionSort lengthsGe

/-- crystals.py:396-407 `WordCrystalGenerator.f_crystal_operator(element_index, operator_index)`; `C` is the cache of the
insertion (insertion.py:8, 298-313), whose new content is part of the result. -/
def wordIndex (elements : List (List Int × List Int)) (decreasing : Bool) (C : HCache) (x : Nat) (i : Int) :
    Option (Option Nat) × HCache :=
  match elements[x]? with
  | none => (none, C)
  | some (w, record) =>
    match hecke C w (some record) (!decreasing) with
    | (none, C') => (none, C')
    | (some (p, q), C') =>
      match q.f? i (!decreasing) with
      | none => (none, C')
      | some none => (some none, C')
      | some (some q') =>
        match inverseHecke p q' (!decreasing) with
        | none => (none, C')
        | some ans =>
          let elementIndices := (List.range elements.length).filter (fun y => decide (elements[y]? = some ans))
          (if elementIndices.length = 1 then some elementIndices[0]? else none, C')

/-- crystals.py:77-81: the loop over the pairs `(x, i)`, for a word crystal. -/
def wordEdgesLoop (elements : List (List Int × List Int)) (decreasing : Bool) :
    HCache → List (Nat × Nat) → Option (List (Nat × Nat × Nat)) × HCache
  | C, [] => (some [], C)
  | C, (x, i) :: l =>
    match wordIndex elements decreasing C x i with
    | (none, C') => (none, C')
    | (some none, C') => wordEdgesLoop elements decreasing C' l
    | (some (some y), C') =>
      let r := wordEdgesLoop elements decreasing C' l
      (r.1.map (fun E => (x, y, i) :: E), r.2)

/-- crystals.py:73-82 `edges` of a word crystal; `rank` is `num_factors` (L368-369). -/
def wordEdges (elements : List (List Int × List Int)) (decreasing : Bool) (C : HCache) (rank : Nat) :
    Option (List (Nat × Nat × Nat)) × HCache :=
  wordEdgesLoop elements decreasing C ((List.range elements.length).flatMap (fun x => (List.range rank).map (fun i => (x, i))))

end Verif.Crystal
