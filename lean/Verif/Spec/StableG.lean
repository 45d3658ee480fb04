import Verif.Spec.Permutations
import Verif.Model.StableG
import Verif.Spec.Laurent
import Verif.Spec.Partitions
import Mathlib.Algebra.BigOperators.Finprod
import Mathlib.Data.Set.Card

/-!
# Notions used to state property C59

Products of decreasing words, products of unimodal words, and the words of three kinds attached to a permutation.
-/

namespace Verif.PermSpec

open Verif.Perm

/-- Sequences of strictly decreasing words (some may be empty) whose concatenation satisfies `P`. -/
def DecProducts (P : List Nat → Prop) : Set (List (List Nat)) :=
  {fs | (∀ f ∈ fs, f.Pairwise (· > ·)) ∧ P fs.flatten}

/-- Sequences of unimodal words with a marked split: a strictly decreasing word followed by a strictly increasing word; the
concatenation satisfies `P`. -/
def UniProducts (P : List Nat → Prop) : Set (List (List Nat × List Nat)) :=
  {fs | (∀ f ∈ fs, f.1.Pairwise (· > ·) ∧ f.2.Pairwise (· < ·)) ∧ P (fs.flatMap (fun f => f.1 ++ f.2))}

/-- `w` is a Hecke word of `z`: its Demazure product is `z`. -/
def HeckeWord (z : SPerm) (w : List Nat) : Prop := demazure w = z

/-- `w` is an involution Hecke word of `z`: the Demazure product of its reverse and itself is `z`. -/
def InvolutionHeckeWord (z : SPerm) (w : List Nat) : Prop := demazure (w.reverse ++ w) = z

/-- `w` is a symplectic Hecke word of `z`, an involution of `1, ..., N` without fixed points.  The empty word belongs to
`(1,2)(3,4)...(N-1,N)`; a letter `i` conjugates by `s_i` at an ascent, changes nothing at a descent, and is not allowed if
`i` and `i + 1` form a cycle. -/
inductive SymplecticHeckeWord (N : Nat) : SPerm → List Nat → Prop
  | nil {z : SPerm} (h : ∀ x : Int, 0 < x → z.call x = if x ≤ N then (if x % 2 = 1 then x + 1 else x - 1) else x) :
    SymplecticHeckeWord N z []
  | stay {z : SPerm} {w : List Nat} {i : Nat} (h : SymplecticHeckeWord N z w) (h1 : 1 ≤ i) (h2 : i < N)
    (h3 : z.call (i + 1) < z.call i) (h4 : z.call i ≠ i + 1) : SymplecticHeckeWord N z (w ++ [i])
  | conj {z : SPerm} {w : List Nat} {i : Nat} (h : SymplecticHeckeWord N z w) (h1 : 1 ≤ i) (h2 : i < N)
    (h3 : z.call i < z.call (i + 1)) : SymplecticHeckeWord N (mul (mul (s i) z) (s i)) (w ++ [i])

/-- The length bound is not exceeded; `None` and negative numbers mean that there is no bound. -/
def Within (bound : Option Int) (t : Nat) : Prop := ∀ d, bound = some d → 0 ≤ d → (t : Int) ≤ d

/-- What the cache can hold for one kind of generator: nothing, or what a run of the generator left there. -/
inductive CacheEntry (K : LevelKind) : List Level → Prop
  | empty : CacheEntry K []
  | run {L L' levels : List Level} {fuel : Nat} {bound : Option Int} (h : CacheEntry K L)
    (hr : K.run fuel bound L = some (levels, L')) : CacheEntry K L'

/-- The symmetric polynomial `F` in `n` variables enumerates the sequences in `A` by the lengths of their members:
* the number of sequences in `A` with given lengths does not depend on the order of the lengths;
* the coefficient of `m_mu` is `beta^(|mu| - ell)` times the number of sequences in `A` with lengths `mu`, if the bound
  allows it, and otherwise 0;
* `F` itself is the sum over all sequences of `n` members, possibly of length 0, of `beta^(total length - ell)` times
  `x_1^(length of the first) x_2^(length of the second) ...`; there are finitely many, and none has total length less than
  `ell`. -/
structure Enumerates {Y : Type} (len : Y → Nat) (empty : Y) (A : Set (List Y)) (ell : Int) (n : Nat) (bound : Option Int)
    (F : Symm.SymPoly) : Prop where
  symmetric : ∀ α β : List Nat, α.Perm β → Set.ncard {fs ∈ A | fs.map len = α} = Set.ncard {fs ∈ A | fs.map len = β}
  coefficient : ∀ mu, Part.IsPartition mu → mu.length ≤ n → Within bound mu.sum →
    (F.get mu).den = Laurent.xpow 0 ((mu.sum : Int) - ell) * ((Set.ncard {fs ∈ A | fs.map len = mu} : ℤ) : Laurent)
  other : ∀ mu, ¬ (Part.IsPartition mu ∧ mu.length ≤ n ∧ Within bound mu.sum) → (F.get mu).den = 0
  finite : {fs ∈ A | fs.length = n}.Finite
  minimal : ∀ fs ∈ A, ell ≤ ((fs.map len).sum : Nat)
  polynomial : (Symm.polynomial Poly.x n F).den =
    ∑ᶠ fs ∈ {fs ∈ A | fs.length = n ∧ Within bound (fs.map len).sum},
      Laurent.xpow 0 (((fs.map len).sum : Int) - ell) *
        ∏ i ∈ Finset.range n, Laurent.xpow ((i : ℤ) + 1) ((len (fs.getD i empty) : Nat) : ℤ)

end Verif.PermSpec
