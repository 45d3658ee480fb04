import Verif.Model.Bruhat
import Verif.Lemmas.PermHecke

/-! # Reflections as functions -/

namespace Verif.Perm

/-- Exchanges `i` and `j`, and `-i` and `-j`. -/
def tFun (i j : Nat) (a : Int) : Int :=
  if a = i then j else if a = j then i else if a = -i then -j else if a = -j then -i else a

theorem tFun_odd {i j : Nat} (hi : 1 ≤ i) (hij : i ≤ j) : Odd (tFun i j) j := by
  refine ⟨fun a => ?_, fun a b => ?_, fun a => ?_, fun a => ?_⟩ <;> unfold tFun <;> (repeat' split) <;> omega

/-- Exchanges `i` and `-j`, and `-i` and `j`. -/
def uFun (i j : Nat) (a : Int) : Int :=
  if a = i then -j else if a = j then -i else if a = -i then j else if a = -j then i else a

theorem uFun_odd {i j : Nat} (hi : 1 ≤ i) (hij : i ≤ j) : Odd (uFun i j) j := by
  refine ⟨fun a => ?_, fun a b => ?_, fun a => ?_, fun a => ?_⟩ <;> unfold uFun <;> (repeat' split) <;> omega

theorem tLine_eq {i j : Nat} (hi : 1 ≤ i) (hij : i ≤ j) :
    ((caller j).set (i - 1) (j : Int)).set (j - 1) (i : Int) = line (tFun i j) j := by
  refine List.ext_getElem (by simp [caller]) (fun k h1 h2 => ?_)
  rw [getElem_line, List.getElem_set, List.getElem_set]
  simp only [length_line] at h2
  unfold tFun caller
  rw [List.getElem_map, List.getElem_range]
  (repeat' split) <;> omega

theorem uLine_eq {i j : Nat} (hi : 1 ≤ i) (hij : i ≤ j) :
    ((caller j).set (i - 1) (-(j : Int))).set (j - 1) (-(i : Int)) = line (uFun i j) j := by
  refine List.ext_getElem (by simp [caller]) (fun k h1 h2 => ?_)
  rw [getElem_line, List.getElem_set, List.getElem_set]
  simp only [length_line] at h2
  unfold uFun caller
  rw [List.getElem_map, List.getElem_range]
  (repeat' split) <;> omega

theorem tFun_comm (i j : Nat) (a : Int) : tFun i j a = tFun j i a := by
  unfold tFun; (repeat' split) <;> omega

theorem reflectionT?_spec {i j : Nat} (hi : 1 ≤ i) (hj : 1 ≤ j) : ∃ w, reflectionT? i j = some w ∧ ∀ a, w.call a = tFun i j a := by
  unfold reflectionT?
  by_cases h : j < i
  · rw [if_pos h]
    simp only
    rw [tLine_eq hj (by omega)]
    obtain ⟨w, h1, h2⟩ := construct_line (tFun_odd hj (by omega : j ≤ i))
    exact ⟨w, h1, fun a => by rw [h2, tFun_comm]⟩
  · rw [if_neg h]
    simp only
    rw [tLine_eq hi (by omega)]
    exact construct_line (tFun_odd hi (by omega))

theorem call_reflectionT {i j : Nat} (hi : 1 ≤ i) (hj : 1 ≤ j) (a : Int) : (reflectionT i j).call a = tFun i j a := by
  obtain ⟨w, h, hw⟩ := reflectionT?_spec hi hj
  rw [reflectionT, h]; exact hw a

theorem reflectionT?_eq {i j : Nat} (hi : 1 ≤ i) (hj : 1 ≤ j) : reflectionT? i j = some (reflectionT i j) := by
  obtain ⟨w, h, hw⟩ := reflectionT?_spec hi hj
  rw [reflectionT, h]; rfl

theorem reflectionS?_spec {i j : Nat} (hi : 1 ≤ i) (hij : i ≤ j) : ∃ w, reflectionS? i j = some w ∧ ∀ a, w.call a = uFun i j a := by
  unfold reflectionS?
  rw [if_pos hij, uLine_eq hi hij]
  exact construct_line (uFun_odd hi hij)

end Verif.Perm
