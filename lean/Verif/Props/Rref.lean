import Verif.Lemmas.Expressable

/-! # Property C43: Gaussian elimination over the integers (vectors.py) -/

namespace Verif

open Rref LinAlg

/-- C43: on a rectangular integer matrix `rref` does not raise, keeps the dimensions and the rational row space, and
returns a matrix in row echelon form with positive leading entries. -/
theorem C43_rref (n : ℕ) (M : List (List ℤ)) (hM : ∀ r ∈ M, r.length = n) :
    ∃ N, rref M = some N ∧ N.length = M.length ∧ (∀ r ∈ N, r.length = n) ∧
      rowSpan (fun i j => (N.getD i []).getD j 0) = rowSpan (fun i j => (M.getD i []).getD j 0) ∧
      IsEchelon (fun i j => (N.getD i []).getD j 0) := by
  have hr : Rect n M := by
    intro t ht
    rw [List.getD_eq_getElem _ _ ht]
    exact hM _ (List.getElem_mem ht)
  obtain ⟨N, row, p, h1, h2, h3, h4, _, h6, h7, h8, h9⟩ := rref_spec hr
  refine ⟨N, h1, h2, ?_, h4, row, p, h6, h8, h9⟩
  intro r hrN
  obtain ⟨t, ht, rfl⟩ := List.mem_iff_getElem.1 hrN
  rw [← List.getD_eq_getElem N [] ht]
  exact h3 t ht

example : rref [[0, 4, -6], [2, 3, 5], [4, 2, 16]] = some [[2, 3, 5], [0, 2, -3], [0, 0, 0]] := by decide +kernel

example : rref [[0, -2], [0, 0], [3, 3]] = some [[1, 1], [0, 0], [0, 1]] ∨
    rref [[0, -2], [0, 0], [3, 3]] = some [[1, 1], [0, 1], [0, 0]] := by decide +kernel

variable {K : Type*} [LinearOrder K]

/-- C43: `v.is_expressable(*args)` does not raise, and returns True iff `v` is a linear combination of `args` with
rational coefficients. -/
theorem C43_is_expressable (v : Vec K ℤ) (args : List (Vec K ℤ)) : ∃ b, isExpressable v args = some b ∧
    (b = true ↔ ∃ c : Fin args.length → ℚ, ∀ k, (v.get k : ℚ) = ∑ j, c j * ((args[j]).get k : ℚ)) :=
  isExpressable_spec v args

/-- `a + b` is half the sum of `2a - b` and `3b`, although not an integer combination. -/
example : isExpressable (Vec.add (Vec.base 1) (Vec.base 2) : Vec ℕ ℤ)
    [Vec.sub (Vec.smul (Vec.base 1) 2) (Vec.base 2), Vec.smul (Vec.base 2) 3] = some true := by decide +kernel

example : isExpressable (Vec.base 3 : Vec ℕ ℤ)
    [Vec.sub (Vec.smul (Vec.base 1) 2) (Vec.base 3), Vec.smul (Vec.base 2) 3] = some false := by decide +kernel

example : isExpressable (Vec.smul (Vec.base 1) 0 : Vec ℕ ℤ) [] = some true := by decide +kernel

end Verif
