import Verif.Model.Dict
import Verif.Model.Partitions
import Mathlib.Data.Finset.Union
import Mathlib.Data.List.Sort
import Mathlib.Data.Finset.Image

/-!
# Model of parts of /repo/tableaux.py

A `Tableau` is a python dict from boxes `(i, j)` to sorted tuples of ints.  Two tableaux are equal when their dicts
are (tableaux.py:108-110), irrespective of insertion order, and every method that iterates sorts the boxes first
(tableaux.py:121-123).  The model keeps the items sorted by box; this is the only simplification of the data.
-/

namespace Verif

/-- Python's order on boxes (pairs). -/
def boxLt (a b : Nat × Nat) : Prop := a.1 < b.1 ∨ (a.1 = b.1 ∧ a.2 < b.2)

instance (a b : Nat × Nat) : Decidable (boxLt a b) := by unfold boxLt; infer_instance

/-- tableaux.py:54-77 `Tableau`: boxes in increasing order, with their entries. -/
structure Tab where
  items : List ((Nat × Nat) × List Int)
  sorted : (items.map Prod.fst).Pairwise boxLt
deriving DecidableEq

namespace Tab

/-- Assignment in the sorted list of items. -/
def insertBox (b : Nat × Nat) (s : List Int) :
    List ((Nat × Nat) × List Int) → List ((Nat × Nat) × List Int)
  | [] => [(b, s)]
  | (b', s') :: t =>
    if b' = b then (b, s) :: t
    else if boxLt b b' then (b, s) :: (b', s') :: t
    else (b', s') :: insertBox b s t

theorem mem_insertBox_keys {b c : Nat × Nat} {s : List Int} {l : List ((Nat × Nat) × List Int)}
    (h : c ∈ (insertBox b s l).map Prod.fst) : c = b ∨ c ∈ l.map Prod.fst := by
  induction l with
  | nil => simpa [insertBox] using h
  | cons a t ih =>
    obtain ⟨b', s'⟩ := a
    rw [insertBox] at h
    split at h
    · rename_i hb
      simp only [List.map_cons, List.mem_cons] at h ⊢
      tauto
    · split at h
      · simp only [List.map_cons, List.mem_cons] at h ⊢
        tauto
      · simp only [List.map_cons, List.mem_cons] at h ⊢
        rcases h with h | h
        · tauto
        · rcases ih h with h | h <;> tauto

theorem boxLt_trans {a b c : Nat × Nat} (h1 : boxLt a b) (h2 : boxLt b c) : boxLt a c := by
  unfold boxLt at *; omega

theorem boxLt_total {a b : Nat × Nat} (h1 : a ≠ b) (h2 : ¬ boxLt b a) : boxLt a b := by
  unfold boxLt at *
  have : ¬ (a.1 = b.1 ∧ a.2 = b.2) := fun h => h1 (Prod.ext h.1 h.2)
  omega

theorem sorted_insertBox (b : Nat × Nat) (s : List Int) (l : List ((Nat × Nat) × List Int))
    (h : (l.map Prod.fst).Pairwise boxLt) : ((insertBox b s l).map Prod.fst).Pairwise boxLt := by
  induction l with
  | nil => simp [insertBox]
  | cons a t ih =>
    obtain ⟨b', s'⟩ := a
    rw [List.map_cons, List.pairwise_cons] at h
    rw [insertBox]
    split
    · rename_i hb
      subst hb
      rw [List.map_cons, List.pairwise_cons]
      exact h
    · split
      · rename_i h1 h2
        rw [List.map_cons, List.pairwise_cons]
        refine ⟨?_, List.pairwise_cons.2 h⟩
        intro c hc
        rcases List.mem_cons.1 hc with rfl | hc
        · exact h2
        · exact boxLt_trans h2 (h.1 c hc)
      · rename_i h1 h2
        rw [List.map_cons, List.pairwise_cons]
        refine ⟨?_, ih h.2⟩
        intro c hc
        rcases mem_insertBox_keys hc with rfl | hc
        · exact boxLt_total h1 h2
        · exact h.1 c hc

/-- `Tableau()`: no boxes. -/
def empty : Tab := ⟨[], by simp⟩

/-- `self.boxes.get(b)`. -/
def get? (T : Tab) (b : Nat × Nat) : Option (List Int) := Dict.lookup b T.items

/-- `mapping = self.boxes.copy(); mapping[b] = s`, with `s` already a sorted tuple. -/
def set (T : Tab) (b : Nat × Nat) (s : List Int) : Tab :=
  ⟨insertBox b s T.items, sorted_insertBox b s T.items T.sorted⟩

/-- `mapping = self.boxes.copy(); del mapping[b]`. -/
def del (T : Tab) (b : Nat × Nat) : Tab :=
  ⟨T.items.filter (fun p => decide (p.1 ≠ b)), T.sorted.sublist ((List.filter_sublist).map _)⟩

/-- python's `sorted` on ints. -/
def sortInts (l : List Int) : List Int := l.insertionSort (· ≤ ·)

/-- tableaux.py:352-359 `add(i, j, v)` (for boxes with positive coordinates, as asserted in L353). -/
def add (T : Tab) (b : Nat × Nat) (v : Int) : Tab :=
  match T.get? b with
  | none => T.set b [v]
  | some s => T.set b (sortInts (s ++ [v]))

end Tab

namespace Tableaux

open Partition

/-- tableaux.py:46-52 `nchoosek(m, k)`; python's `//` on ints is `Int.fdiv`. -/
def nchoosek (m : Int) (k : Nat) : Int :=
  let ans := (List.range k).foldl (fun ans (i : Nat) => ans * (m - i)) 1
  (List.range k).foldl (fun ans (i : Nat) => Int.fdiv ans (i + 1)) ans

/-- tableaux.py:523-526: the smallest `nu` such that `mu/nu` is a horizontal strip and `nu` contains `lam`. -/
def stripCore (mu lam : List Nat) : List Nat :=
  (List.range mu.length).map (fun i =>
    if i < lam.length then max (mu.getD (i + 1) 0) (lam.getD i 0) else mu.getD (i + 1) 0)

/-- tableaux.py:536-541: the next level, a python set (duplicates removed). -/
def nextLevel (mu : List Nat) (level : List (List Nat)) : List (List Nat) :=
  ((List.range mu.length).flatMap (fun i =>
    (level.filter (fun nu => decide (nu.getD i 0 < mu.getD i 0))).map
      (fun nu => nu.set i (nu.getD i 0 + 1)))).dedup

/-- tableaux.py:531-535: the triple `(nu, diff, corners)` recorded for one element of the level. -/
def stripRecord (mu core nu : List Nat) : List Nat × List (Nat × Nat) × List (Nat × Nat) :=
  let diff := (List.range mu.length).flatMap (fun i =>
    (List.range' (nu.getD i 0) (mu.getD i 0 - nu.getD i 0)).map (fun j => (i + 1, j + 1)))
  let nu := if nu.getLastD 0 > 0 then nu else nu.dropLast
  let corners := ((List.range nu.length).filter (fun i => decide (core.getD i 0 < nu.getD i 0))).map
    (fun i => (i + 1, nu.getD i 0))
  (nu, diff, corners)

/-- tableaux.py:528-541: the `while level` loop; `none` if it has not ended after `fuel` rounds. -/
def stripLoop (mu core : List Nat) :
    Nat → List (List Nat) → Option (List (List Nat × List (Nat × Nat) × List (Nat × Nat)))
  | 0, _ => none
  | fuel + 1, level =>
    if level.isEmpty then some []
    else (stripLoop mu core fuel (nextLevel mu level)).map (fun rest => level.map (stripRecord mu core) ++ rest)

/-- tableaux.py:518-542 `_horizontal_strips(mu, lam)`.  Sets (`level`, `diff`) are lists without repetition; their
order is irrelevant to the callers.  The while loop gets `sum(mu) + 2` rounds, which suffice
(`Tableaux.horizontalStrips_spec`).  The decorator `cached_value` is the subject of C38. -/
def horizontalStrips? (mu lam : List Nat) : Option (List (List Nat × List (Nat × Nat) × List (Nat × Nat))) :=
  if contains mu lam then stripLoop mu (stripCore mu lam) (mu.sum + 2) [stripCore mu lam] else some []

/-- The list returned by `_horizontal_strips` (see `horizontalStrips?`). -/
def horizontalStrips (mu lam : List Nat) : List (List Nat × List (Nat × Nat) × List (Nat × Nat)) :=
  (horizontalStrips? mu lam).getD []

/-- tableaux.py:1238-1240: `thisdiff | {corners[i]}` for the set bits of `v`. -/
def subsetBits (diff : List (Nat × Nat)) : Nat → List (Nat × Nat) → List (Nat × Nat)
  | _, [] => diff
  | v, c :: corners =>
    subsetBits (if v % 2 = 0 then diff else if c ∈ diff then diff else diff ++ [c]) (v / 2) corners

/-- tableaux.py:1234-1244 `_subsets(diff, corners, setvalued)`. -/
def subsets (diff corners : List (Nat × Nat)) (setvalued : Bool) : List (List (Nat × Nat)) :=
  if setvalued then (List.range (2 ^ corners.length)).map (fun v => subsetBits diff v corners)
  else [diff]

/-- tableaux.py:910-914: `for (i, j) in aug: tab = tab.add(i, j, v)`. -/
def addAll (aug : List (Nat × Nat)) (v : Int) (T : Tab) : Tab := aug.foldl (fun T b => T.add b v) T

/-- tableaux.py:901-917 `_semistandard(max_entry, mu, lam, setvalued)`; the result is a python set. -/
def semistandard (setvalued : Bool) (lam : List Nat) : Nat → List Nat → Finset Tab
  | 0, mu => if mu = lam then {Tab.empty} else ∅
  | n + 1, mu =>
    if mu = lam then {Tab.empty}
    else if contains mu lam then
      (horizontalStrips mu lam).toFinset.biUnion (fun s =>
        (subsets s.2.1 s.2.2 setvalued).toFinset.biUnion (fun aug =>
          (semistandard setvalued lam n s.1).image (addAll aug (n + 1))))
    else ∅

/-- `ans[key] += v` for a `defaultdict(int)`. -/
def bump {K : Type} [DecidableEq K] (ans : Dict K Int) (key : K) (v : Int) : Dict K Int :=
  ans.set key (ans.getD key 0 + v)

/-- tableaux.py:736-745: the innermost loop, over the remaining values of `i`. -/
def countLoop (maxEntry d k : Nat) (partition : List Nat) (count : Int) :
    List Nat → Dict (List Nat) Int → Dict (List Nat) Int
  | [], ans => ans
  | i :: is, ans =>
    let m := d + i
    if m = 0 then countLoop maxEntry d k partition count is (bump ans partition count)
    else if partition.length < maxEntry - 1 ∨ (partition ≠ [] ∧ m > partition.getLastD 0) then ans
    else countLoop maxEntry d k partition count is (bump ans (partition ++ [m]) (count * nchoosek k i))

/-- tableaux.py:726-747 `_count_semistandard(max_entry, mu, lam, setvalued)`. -/
def countSemistandard (setvalued : Bool) (lam : List Nat) : Nat → List Nat → Dict (List Nat) Int
  | 0, mu => if mu = lam then Dict.empty.set [] 1 else Dict.empty
  | n + 1, mu =>
    if mu = lam then Dict.empty.set [] 1
    else if contains mu lam then
      (horizontalStrips mu lam).foldl (fun ans s =>
        (countSemistandard setvalued lam n s.1).items.foldl (fun ans pc =>
          countLoop (n + 1) s.2.1.length s.2.2.length pc.1 pc.2
            (List.range (if setvalued then s.2.2.length + 1 else 1)) ans) ans) Dict.empty
    else Dict.empty

/-- tableaux.py:483-494 `weight(n)` for entries with `1 ≤ |x| ≤ n`: how often `x` or `-x` occurs, for `x = 1..n`. -/
def weight (n : Nat) (T : Tab) : List Nat :=
  T.items.foldl (fun ans p => p.2.foldl (fun ans x =>
    ans.set (x.natAbs - 1) (ans.getD (x.natAbs - 1) 0 + 1)) ans) (List.replicate n 0)

end Tableaux
end Verif
