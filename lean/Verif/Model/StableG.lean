import Verif.Model.HeckeLevels
import Verif.Model.Involutions
import Verif.Model.Symmetric

/-!
# Model of the stable Grothendieck polynomials of permutations in /repo/permutations.py

The three generators `hecke_levels`, `symplectic_hecke_levels` and `involution_hecke_levels` have the same structure; the
model takes what differs as a parameter (`LevelKind`).  Here they are run without interruption (for generators that are
interleaved see `Verif.Model.HeckeLevels`).  A level (a python set) is a list without repetitions in the order of
insertion.
-/

namespace Verif.Words

/-- words.py:208: the first index in `range(1, len(v) - 1)` with `v[i - 1] <= v[i] >= v[i + 1]`. -/
def firstPeak (v : List Int) : Option Nat :=
  ((List.range (v.length - 2)).map (· + 1)).find?
    (fun i => decide (v.getD (i - 1) 0 ≤ v.getD i 0 ∧ v.getD (i + 1) 0 ≤ v.getD i 0))

theorem firstPeak_lt {v : List Int} {k : Nat} (h : firstPeak v = some k) : k < v.length := by
  have := List.mem_of_find?_eq_some h
  simp only [List.mem_map, List.mem_range] at this
  obtain ⟨a, ha, rfl⟩ := this
  omega

/-- words.py:206-209 `peaks`. -/
def peaks (v : List Int) : Nat :=
  match h : firstPeak v with
  | some k => 1 + peaks (v.drop (k + 1))
  | none => if v = [] then 0 else 1
termination_by v.length
decreasing_by have := firstPeak_lt h; simp; omega

end Verif.Words

namespace Verif.Perm

/-- What the three generators of levels differ in: the start (L511, L559-562, L608), the range of letters (L518, L569,
L614), the new permutation for a letter, if any (L519-520, L570-572 and 575, L615-616 and 619), and the test for the new
word (L522, L574, L618). -/
structure LevelKind where
  start : SPerm
  letters : List Nat
  step : SPerm → Nat → Option SPerm
  ok : List Nat → Bool

/-- permutations.py:500-531 `hecke_levels(n, ..., ascent_bound)`. -/
def heckeKind (n : Nat) (ab : Option Int) : LevelKind :=
  ⟨identity, letters n, fun pi i => some (mod pi (s i)), ascentOk ab⟩

/-- permutations.py:547-583 `symplectic_hecke_levels(n, ..., ascent_bound, hecke)`, after the assertion in L548. -/
def symplecticKind (n : Nat) (ab : Option Int) (hecke : Bool) : LevelKind :=
  ⟨fpfStart n, letters n,
    fun pi i =>
      if pi.call i ≠ (i : Int) + 1 then
        let sigma := mod (mod (s i) pi) (s i)
        if hecke ∨ sigma ≠ pi then some sigma else none
      else none,
    ascentOk ab⟩

/-- permutations.py:618: the test `peak_bound is None or Word.peaks(v) <= peak_bound`. -/
def peakOk (pb : Option Int) (v : List Nat) : Bool :=
  match pb with
  | none => true
  | some b => decide (((Words.peaks (v.map (fun a : Nat => (a : Int))) : Nat) : Int) ≤ b)

/-- permutations.py:597-629 `involution_hecke_levels(n, ..., peak_bound, hecke)`. -/
def orthogonalKind (n : Nat) (pb : Option Int) (hecke : Bool) : LevelKind :=
  ⟨identity, List.range n,
    fun pi i =>
      let sigma := mod (mod (s i) pi) (s i)
      if hecke ∨ sigma ≠ pi then some sigma else none,
    peakOk pb⟩

/-- permutations.py:515-523 (564-576, 610-620): `next_level` computed from `level`. -/
def LevelKind.next (K : LevelKind) (level : Level) : Level :=
  level.foldl (fun nl p =>
    K.letters.foldl (fun (nl : Level) i =>
      match K.step p.1 i with
      | some sigma => if K.ok (p.2 ++ [i]) then nl.add (sigma, p.2 ++ [i]) else nl
      | none => nl) nl) []

/-- permutations.py:508-516 (555-566, 604-612): from the end of the first loop to the first `yield level` in the `while`
loop. -/
def LevelKind.afterSlice (K : LevelKind) (levels : List Level) : Option Level × Phase :=
  let level := match levels.getLast? with
    | some l => l
    | none => [(K.start, [])]
  if level ≠ [] then (some level, .loop level) else (none, .stopped)

/-- permutations.py:505-524 (552-576, 601-621): resume `generate()`; `levels` is the current entry of the cache. -/
def LevelKind.pull (K : LevelKind) (levels : List Level) : Phase → Option Level × Phase
  | .fresh =>
    match levels.dropLast with
    | x :: rest => (some x, .replay rest)
    | [] => K.afterSlice levels
  | .replay (x :: rest) => (some x, .replay rest)
  | .replay [] => K.afterSlice levels
  | .loop level =>
    let next := K.next level
    if next ≠ [] then (some next, .loop next) else (none, .stopped)
  | .stopped => (none, .stopped)

/-- permutations.py:525-531 (577-583, 623-629): the outer loop, until it ends; `none` if it makes more than `fuel` rounds.
The result is the list of levels yielded and the final entry of the cache. -/
def LevelKind.drain (K : LevelKind) : (fuel : Nat) → Phase → (bound : Int) → (index : Nat) → (entry : List Level) →
    Option (List Level × List Level)
  | 0, _, _, _, _ => none
  | fuel + 1, phase, bound, index, entry =>
    match K.pull entry phase with
    | (none, _) => some ([], entry)
    | (some level, phase') =>
      let entry' := if index ≥ entry.length then entry ++ [level] else entry
      if bound = 0 then some ([level], entry')
      else (K.drain fuel phase' (bound - 1) (index + 1) entry').map (fun r => (level :: r.1, r.2))

/-- A complete run of the generator called with `length_bound`, when the cache holds `entry` for its key. -/
def LevelKind.run (K : LevelKind) (fuel : Nat) (lengthBound : Option Int) (entry : List Level) :
    Option (List Level × List Level) := K.drain fuel .fresh (lengthBound.getD (-1)) 0 entry

/-- permutations.py:533-537 (586-590, 631-635) `get_hecke_words`: the words of the levels whose permutation is `self`. -/
def wordsOf (w : SPerm) (levels : List Level) : List (List Nat) :=
  levels.flatMap (fun level => (level.filter (fun p => decide (w = p.1))).map Prod.snd)

/-- permutations.py:639-640 `sort(t)`. -/
def sortDesc (t : List Nat) : List Nat := (t.insertionSort (· ≤ ·)).reverse

/-- python's `max` for the comparison `gt`; `none` is the ValueError for an empty argument. -/
def pyMax {α : Type*} (gt : α → α → Bool) : List α → Option α
  | [] => none
  | x :: l => some (l.foldl (fun m y => if gt y m then y else m) x)

/-- permutations.py:642-645: one entry of the dict. -/
def symmetrizeStep (gt : PolyVal → PolyVal → Bool) (v : Vec (List Nat) PolyVal) (n : Nat) (d : Dict (List Nat) PolyVal)
    (alpha : List Nat) : Except Raised (Dict (List Nat) PolyVal) :=
  match Symm.mkMono n alpha with
  | none => .error .assertion
  | some key =>
    match pyMax gt ((v.dict.keys.filter (fun a => sortDesc a = sortDesc alpha)).map v.get) with
    | none => .error .value
    | some m => .ok (d.set key m)

/-- permutations.py:648-651: the test for one `alpha`; `vector.dictionary[sort(alpha)]` can raise a KeyError. -/
def symmetrizeCheck (v : Vec (List Nat) PolyVal) (_ : Unit) (alpha : List Nat) : Except Raised Unit :=
  match v.dict.get? (sortDesc alpha) with
  | none => .error .key
  | some x => if x = v.get alpha then .ok () else .error .assertion

/-- permutations.py:637-652 `_symmetrize(vector, n, check=True)`.  The comparison of polynomials used by `max`
(polynomials.py:195-197 `__gt__`) is a parameter. -/
def symmetrize (gt : PolyVal → PolyVal → Bool) (v : Vec (List Nat) PolyVal) (n : Nat) : Except Raised Symm.SymPoly := do
  let d ← (v.dict.keys.filter (fun alpha => decide (sortDesc alpha = alpha ∧ alpha.length ≤ n))).foldlM
    (symmetrizeStep gt v n) Dict.empty
  let _ ← (v.dict.keys.filter (fun alpha => decide (alpha.length ≤ n))).foldlM (symmetrizeCheck v) ()
  pure (Symm.mkSym n d)

/-- permutations.py:659 (667, 675, 683): one round of the loop.  `.error .type` would be `None * Vector`. -/
def sumStep (zeta : List Int → Int) (ell : Int) (ans : Vec (List Nat) PolyVal) (w : List Nat) :
    Except Raised (Vec (List Nat) PolyVal) :=
  match Poly.pow Poly.beta ((w.length : Int) - ell) with
  | none => .error .type
  | some b =>
    let q := (Words.quasisymmetrize zeta (w.map (fun a : Nat => (a : Int)))).mapVal (fun _ c => (c : PolyVal))
    .ok (Vec.add ans (Vec.smul (Vec.mk' q none) (PolyVal.mk b)))

/-- permutations.py:656-660 (664-668, 672-676, 680-684): the common part of the four methods.  The result is the symmetric
polynomial and the final entry of the cache of levels; `.error .recursion` if the generator makes more than `fuel`
rounds.  Python draws the words one at a time, here all of them are drawn first. -/
def sumWords (gt : PolyVal → PolyVal → Bool) (K : LevelKind) (zeta : List Int → Int) (ell : Int) (w : SPerm) (n : Nat)
    (bound : Option Int) (fuel : Nat) (entry : List Level) : Except Raised (Symm.SymPoly × List Level) :=
  match K.run fuel bound entry with
  | none => .error .recursion
  | some (levels, entry') => do
    let ans ← (wordsOf w levels).foldlM (sumStep zeta ell) ⟨Dict.empty, none⟩
    let f ← symmetrize gt ans n
    pure (f, entry')

/-- permutations.py:654-660 `stable_grothendieck(n, degree_bound)`. -/
def stableGrothendieckOf (gt : PolyVal → PolyVal → Bool) (w : SPerm) (n : Nat) (bound : Option Int) (fuel : Nat)
    (entry : List Level) : Except Raised (Symm.SymPoly × List Level) :=
  if isUnsigned w then
    sumWords gt (heckeKind w.rank (some n)) Words.decreasingZeta (len w) w n bound fuel entry
  else .error .assertion

/-- permutations.py:662-668 `signed_involution_stable_grothendieck(n, degree_bound)`. -/
def signedInvolutionStableGrothendieck (gt : PolyVal → PolyVal → Bool) (w : SPerm) (n : Nat) (bound : Option Int)
    (fuel : Nat) (entry : List Level) : Except Raised (Symm.SymPoly × List Level) :=
  if isInvolution w then
    sumWords gt (orthogonalKind w.rank (some n) true) Words.unimodalZeta (involutionLength w) w n bound fuel entry
  else .error .assertion

/-- permutations.py:670-676 `symplectic_stable_grothendieck(n, degree_bound)`; the second test is the assertion of
`symplectic_hecke_levels` (L548). -/
def symplecticStableGrothendieck (gt : PolyVal → PolyVal → Bool) (w : SPerm) (n : Nat) (bound : Option Int)
    (fuel : Nat) (entry : List Level) : Except Raised (Symm.SymPoly × List Level) :=
  if isUnsigned w ∧ isFpfInvolution w then
    if w.rank % 2 = 0 then
      sumWords gt (symplecticKind w.rank (some n) true) Words.decreasingZeta (fpfInvolutionLength w) w n bound fuel entry
    else .error .assertion
  else .error .assertion

/-- permutations.py:678-684 `involution_stable_grothendieck(n, degree_bound)`. -/
def involutionStableGrothendieck (gt : PolyVal → PolyVal → Bool) (w : SPerm) (n : Nat) (bound : Option Int)
    (fuel : Nat) (entry : List Level) : Except Raised (Symm.SymPoly × List Level) :=
  if isInvolution w ∧ isUnsigned w then
    sumWords gt (orthogonalKind w.rank (some n) true) Words.decreasingZeta (involutionLength w) w n bound fuel entry
  else .error .assertion

end Verif.Perm
