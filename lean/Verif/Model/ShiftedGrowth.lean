import Verif.Model.Skew

/-!
# Model of `shifted_growth_diagram` in /repo/partitions.py

The four arrays of the code are kept together: a cell has a partition (`g`), a flag (`edges`) and a number or `None` (`corners`).  The array
`reasons` of labels for printing is left out.
-/

namespace Verif.Partition

/-- The entries of `g`, `edges` and `corners` at one place. -/
structure GCell where
  shape : List Nat
  edge : Bool
  corner : Option Nat
deriving DecidableEq, Repr

/-- partitions.py:543-545: the initial entries. -/
def GCell.init : GCell := ⟨[], false, none⟩

/-- partitions.py:577-602: the cases (5) to (8), for `lam != nu`; `none` is an exception. -/
def growthBox (lam nu mu : List Nat) (edge : Bool) : Option GCell :=
  match skew nu lam true with
  | [] => none
  | (a, b) :: _ =>
    let row := (skew mu lam true).filter (fun q => decide (q.1 = a + 1))
    let col := (skew mu lam true).filter (fun q => decide (q.2 = b + 1))
    if edge = false ∧ a ≠ b then
      if row = [] then some ⟨addBoxToRow mu (a + 1), false, none⟩
      else some ⟨mu, false, some (a + 1)⟩
    else if col = [] then (addBoxToColumn mu (b + 1) true).map (fun gamma => ⟨gamma, true, none⟩)
    else some ⟨mu, true, some (b + 1)⟩

/-- partitions.py:603-634: the cases (9) to (12), for `lam == nu` and no edge; `a` is the entry of `corners`. -/
def growthRowCorner (lam nu mu : List Nat) (a : Nat) : Option GCell :=
  let b := get nu a + a - 1
  let sk := skew mu lam true
  if (a, b + 1) ∉ sk ∧ (a + 1, b) ∉ sk then some ⟨mu, false, some a⟩
  else if (a + 1, b) ∈ sk then some ⟨mu, false, some (a + 1)⟩
  else if (a, b + 1) ∈ sk then
    if sk.any (fun q => decide (q.1 = a + 1)) then some ⟨mu, false, some (a + 1)⟩
    else if a = b then some ⟨mu, true, some (b + 1)⟩
    else some ⟨addBoxToRow mu (a + 1), false, none⟩
  else none

/-- partitions.py:636-665: the cases (13) to (15), for `lam == nu` and an edge; `b` is the entry of `corners`. -/
def growthColCorner (lam nu mu : List Nat) (b : Nat) : Option GCell :=
  match (((shiftedShape nu).filter (fun q => decide (q.2 = b))).map (fun q => q.1)).max? with
  | none => none
  | some a =>
    let sk := skew mu lam true
    if (a, b + 1) ∉ sk ∧ (a + 1, b) ∉ sk then some ⟨mu, true, some b⟩
    else if (a, b + 1) ∈ sk then some ⟨mu, true, some (b + 1)⟩
    else if (a + 1, b) ∈ sk then
      if sk.any (fun q => decide (q.2 = b + 1)) then some ⟨mu, true, some (b + 1)⟩
      else (addBoxToColumn mu (b + 1) true).map (fun gamma => ⟨gamma, true, none⟩)
    else none

/-- partitions.py:550-669: the cell `(i, j)` from `v`, the partitions at `(i-1, j-1)`, `(i-1, j)` and `(i, j-1)`, and the flag and the number
at `(i-1, j)`; `none` is an exception. -/
def growthStep (v : Nat) (lam nu mu : List Nat) (edge : Bool) (corner : Option Nat) : Option GCell :=
  if ¬ (v = 0 ∨ v = 1) then none
  else if v = 1 ∧ get lam 1 = get mu 1 then some ⟨addBoxToRow mu 1, false, none⟩
  else if v = 1 then if get lam 1 + 1 = get mu 1 then some ⟨mu, false, some 1⟩ else none
  else if mu = lam then some ⟨nu, edge, corner⟩
  else if nu = lam ∧ edge = false ∧ corner = none then some ⟨mu, false, none⟩
  else if contains mu nu = false then some ⟨union nu mu, edge, none⟩
  else if lam ≠ nu then growthBox lam nu mu edge
  else match corner with
    | none => none
    | some c => if edge = false then growthRowCorner lam nu mu c else growthColCorner lam nu mu c

/-- partitions.py:549: the cells `j, j + 1, ...` of a row, from the rest of the row before it, the cell at `(i-1, j-1)` and the cell at
`(i, j-1)`. -/
def growthCells (v : Nat → Nat) : Nat → GCell → GCell → List GCell → Option (List GCell)
  | _, _, _, [] => some []
  | j, diag, left, up :: rest =>
    match growthStep (v j) diag.shape up.shape left.shape up.edge up.corner with
    | none => none
    | some c => (growthCells v (j + 1) up c rest).map (fun l => c :: l)

/-- partitions.py:549: a row from the row before it. -/
def growthLine (v : Nat → Nat) : List GCell → Option (List GCell)
  | [] => some []
  | diag :: rest => (growthCells v 1 diag GCell.init rest).map (fun l => GCell.init :: l)

/-- partitions.py:548: the rows `i, i + 1, ...`; the second argument counts them. -/
def growthLines (d : Nat → Nat → Nat) : Nat → Nat → List GCell → Option (List (List GCell))
  | _, 0, _ => some []
  | i, n + 1, prev =>
    match growthLine (d i) prev with
    | none => none
    | some r => (growthLines d (i + 1) n r).map (fun l => r :: l)

/-- partitions.py:532-671 `shifted_growth_diagram(dictionary, m, n)`; `d i j` is the value for the key `(i, j)`, 0 if there is none. -/
def shiftedGrowth (d : Nat → Nat → Nat) (m n : Nat) : Option (List (List GCell)) :=
  let row0 := List.replicate (m + 1) GCell.init
  (growthLines d 1 n row0).map (fun l => row0 :: l)

/-- partitions.py:537-538: the dictionary of a word. -/
def wordDict (w : List Nat) (i j : Nat) : Nat := if 1 ≤ j ∧ w[j - 1]? = some i then 1 else 0

/-- partitions.py:532-671 `shifted_growth_diagram(w)` for a tuple `w` of non-negative ints. -/
def shiftedGrowthWord (w : List Nat) : Option (List (List GCell)) := shiftedGrowth (wordDict w) w.length (w.foldl max 0)

end Verif.Partition
