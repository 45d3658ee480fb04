import Verif.Model.Vector
import Mathlib.Data.List.Sort
import Mathlib.Algebra.Ring.Int.Defs

/-!
# Model of `Vector.rref` and `Vector.is_expressable` (vectors.py:22-101)

A matrix is a list of rows.  The code mutates a copy of its argument; the model passes the current matrix along.  The
matrices are rectangular (`is_expressable` builds only such); a failing assertion or an exception is `none`.  Python's
`%` and `//` on ints are `Int.fmod` and `Int.fdiv`.
-/

namespace Verif.Rref

/-- vectors.py:54-56 the loop of `gcd(a, b)`: `while b != 0: a, b = b, a % b`, at most `fuel` rounds. -/
def gcdLoop : Nat → Int → Int → Int
  | 0, a, _ => a
  | fuel + 1, a, b => if b ≠ 0 then gcdLoop fuel b (a.fmod b) else a

/-- vectors.py:53-57 `gcd(a, b)`; the absolute value of `b` decreases in each round. -/
def gcd2 (a b : Int) : Int := gcdLoop b.natAbs a b

/-- vectors.py:48-57 `gcd(*args)`; `none` is the IndexError for no arguments. -/
def gcdAll : List Int → Option Int
  | [] => none
  | [a] => some a
  | a :: l => (gcdAll l).map (gcd2 a)

/-- `mat[i][j]`. -/
def at' (mat : List (List Int)) (i j : Nat) : Int := (mat.getD i []).getD j 0

/-- vectors.py:59-60 `swap(mat, i, j)`. -/
def swap (mat : List (List Int)) (i j : Nat) : List (List Int) := (mat.set i (mat.getD j [])).set j (mat.getD i [])

/-- vectors.py:62-64 `scale(mat, i, v)`. -/
def scale (mat : List (List Int)) (i : Nat) (v : Int) : List (List Int) := mat.set i ((mat.getD i []).map (fun e => e * v))

/-- vectors.py:66-70 `iscale(mat, i, v)`; `none` is the ZeroDivisionError or the AssertionError. -/
def iscale (mat : List (List Int)) (i : Nat) (v : Int) : Option (List (List Int)) :=
  if v ≠ 0 ∧ (mat.getD i []).all (fun e => decide (e.fmod v = 0)) then
    some (mat.set i ((mat.getD i []).map (fun e => e.fdiv v)))
  else none

/-- vectors.py:72-74 `replace(mat, i, j, v)`. -/
def replace (mat : List (List Int)) (i j : Nat) (v : Int) : List (List Int) :=
  mat.set j (List.zipWith (fun x y => x + v * y) (mat.getD j []) (mat.getD i []))

/-- vectors.py:76-77 `find_nonzeros_in_column(mat, rowstart, j)`. -/
def nonzeros (mat : List (List Int)) (rowstart j : Nat) : List Nat :=
  (List.range' rowstart (mat.length - rowstart)).filter (fun t => decide (at' mat t j ≠ 0))

/-- vectors.py:90-94: the body of the loop over `nonzeros[1:]`. -/
def eliminate (i col : Nat) (mat : List (List Int)) (j : Nat) : List (List Int) :=
  let a := at' mat i col
  let b := at' mat j col
  let d := gcd2 a b
  replace (scale mat j (a.fdiv d)) i j ((-b).fdiv d)

/-- vectors.py:85-88: make the pivot row primitive with positive pivot. -/
def normalize (mat : List (List Int)) (i col : Nat) : Option (List (List Int)) :=
  match (gcdAll (mat.getD i [])).bind (iscale mat i) with
  | none => none
  | some mat => if at' mat i col < 0 then iscale mat i (-1) else some mat

/-- vectors.py:80-99: the body of the loop over the columns; the state is `matrix, row`. -/
def column (st : List (List Int) × Nat) (col : Nat) : Option (List (List Int) × Nat) :=
  let mat := st.1
  let row := st.2
  match nonzeros mat row col with
  | [] => some (mat, row)
  | i :: rest =>
    match normalize mat i col with
    | none => none
    | some mat =>
      let mat := rest.foldl (eliminate i col) mat
      some (if i ≠ row then swap mat row i else mat, row + 1)

/-- vectors.py:42-101 `rref(matrix)`. -/
def rref (mat : List (List Int)) : Option (List (List Int)) :=
  ((List.range (mat.headD []).length).foldlM column (mat, 0)).map Prod.fst

variable {K : Type*} [LinearOrder K]

/-- vectors.py:23-26: the sorted list of the keys of all vectors. -/
def keylist (v : Vec K Int) (args : List (Vec K Int)) : List K :=
  ((v.dict.keys ++ args.flatMap (fun a => a.dict.keys)).dedup).insertionSort (· ≤ ·)

/-- vectors.py:29: the matrix whose columns are the vectors `args` and the vector itself. -/
def matrixOf (v : Vec K Int) (args : List (Vec K Int)) : List (List Int) :=
  (keylist v args).map (fun k => args.map (fun a => a.get k) ++ [v.get k])

/-- vectors.py:33-38: the column of the first nonzero entry of a row, if any. -/
def pivot (n : Nat) (row : List Int) : Option Nat := (List.range n).find? (fun j => decide (row.getD j 0 ≠ 0))

/-- vectors.py:22-40 `v.is_expressable(*args)`. -/
def isExpressable (v : Vec K Int) (args : List (Vec K Int)) : Option Bool :=
  match rref (matrixOf v args) with
  | none => none
  | some m => some (!(m.filterMap (pivot (args.length + 1))).contains args.length)

end Verif.Rref
