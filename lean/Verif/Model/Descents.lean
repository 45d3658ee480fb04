import Verif.Model.TabCrystals

/-!
# Model of `shifted_reading_word` and `descent_set` (tableaux.py 165-168, 496-516)
-/

namespace Verif.Tab

/-- tableaux.py:165-168 `shifted_reading_word()`. -/
def shiftedReadingWord (T : Tab) : List Int :=
  let x := ((columnReadingWord T).reverse.filter (fun a => decide (a < 0))).map (fun a => -a)
  let y := (rowReadingWord T).filter (fun a => decide (0 < a))
  x ++ y

/-- tableaux.py:500-501: the values with their boxes, in the order of iteration. -/
def cellValues (T : Tab) : List ((Nat × Nat) × Int) := T.items.flatMap (fun p => p.2.map (fun v => (p.1, v)))

/-- tableaux.py:500-506: the loop that makes `rows` and `cols`; a failing assertion is `none`. -/
def descentLoop : List ((Nat × Nat) × Int) → Dict Int Nat → Dict Int Nat → Option (Dict Int Nat × Dict Int Nat)
  | [], rows, cols => some (rows, cols)
  | (b, v) :: t, rows, cols =>
    if rows.contains |v| || cols.contains |v| then none
    else if 0 < v then descentLoop t (rows.set v b.1) cols
    else descentLoop t rows (cols.set (-v) b.2)

/-- tableaux.py:510-515: the condition for `i`. -/
def isDescent (rows cols : Dict Int Nat) (i : Int) : Bool :=
  (rows.contains i && cols.contains (i + 1)) ||
    (match rows.get? i, rows.get? (i + 1) with
      | some a, some b => decide (a < b)
      | _, _ => false) ||
    (match cols.get? i, cols.get? (i + 1) with
      | some a, some b => decide (a < b)
      | _, _ => false)

/-- tableaux.py:496-516 `descent_set()`; the set is given as a list without repetitions. -/
def descentSet? (T : Tab) : Option (List Int) :=
  (descentLoop T.cellValues Dict.empty Dict.empty).bind (fun st =>
    let n := st.1.len + st.2.len
    let want := (List.range n).map (fun (k : Nat) => (k : Int) + 1)
    if (∀ k ∈ st.1.keys ++ st.2.keys, k ∈ want) ∧ (∀ k ∈ want, k ∈ st.1.keys ++ st.2.keys) then
      some (want.dropLast.filter (isDescent st.1 st.2))
    else none)

end Verif.Tab
