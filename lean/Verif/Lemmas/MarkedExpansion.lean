import Verif.Lemmas.ExpansionSpan
import Verif.Lemmas.MarkedTriang

/-! The polynomials of shifted marked tableaux are a triangular family. -/

attribute [-simp] List.getD_eq_getElem?_getD

namespace Verif.Symm

open Tableaux Verif.Part Partition

variable {sv dp : Bool} {n : Nat}

theorem markedCount_self {mu : List Nat} (hm : IsStrict mu) (hl : mu.length ≤ n) :
    (markedCount true sv dp [] n mu).getD mu 0 = if dp then 2 ^ mu.length else 1 := by
  have hnil : IsShape true [] := ⟨by simp, by simp⟩
  rw [markedCount_weights (by simp) hnil hm, if_pos ⟨isStrict_isPartition hm, hl⟩, wCount]
  rw [card_top hm hl]
  cases dp <;> simp

theorem markedCount_before {mu k : List Nat} (hm : IsStrict mu)
    (hk : (markedCount true sv dp [] n mu).getD k 0 ≠ 0) (hne : k ≠ mu) : before mu k := by
  have hnil : IsShape true [] := ⟨by simp, by simp⟩
  have hge := (markedCount_ge (by simp) hnil hm hk).1
  obtain ⟨h1, h2, T, hT, hw, hs⟩ := markedCount_exists (by simp) hnil hm hk
  rw [List.sum_nil, add_zero] at hge
  rcases Nat.lt_or_ge mu.sum k.sum with h | h
  · exact Or.inl h
  have he : mu.sum = k.sum := by omega
  refine Or.inr ⟨he, ?_⟩
  have hlen : T.entries.length = T.items.length := by
    have := isTab_length hT
    rw [List.sum_nil] at this
    omega
  refine (lex_of_dominance (a := mu) (b := k) (fun x hx => h1.2 x hx) (fun j => ?_)).resolve_left hne
  have hdom : ∀ j ≤ n, ∑ i ∈ Finset.range j, k.getD i 0 ≤ ∑ i ∈ Finset.range j, mu.getD i 0 := by
    intro j hj
    rw [← Finset.sum_congr rfl (fun i hi => hw i (by have := Finset.mem_range.1 hi; omega))]
    exact mark_dominance hm hT hlen j
  rcases Nat.lt_or_ge n j with hj | hj
  · have h3 := hdom n le_rfl
    rw [sum_range_length h2] at h3
    have h4 : ∑ i ∈ Finset.range n, mu.getD i 0 ≤ ∑ i ∈ Finset.range j, mu.getD i 0 :=
      Finset.sum_le_sum_of_subset (Finset.range_mono (by omega))
    rw [sum_range_length (by omega : k.length ≤ j)]
    omega
  · exact hdom j hj

/-- `function` gives the polynomials of shifted marked tableaux, and `none` for partitions that are not strict. -/
def IsMarkedFamily (sv dp : Bool) (n : Nat) (w : PolyVal) (function : List Nat → Option SymPoly) : Prop :=
  (∀ mu, ¬ mu.Pairwise (· > ·) → function mu = none) ∧ ∀ mu, IsStrict mu → ∃ g, function mu = some g ∧ IsSym n g ∧
    ∀ k, g.get k = ((markedCount true sv dp [] n mu).getD k 0 : PolyVal) * w ^ (k.sum + ([] : List Nat).sum - mu.sum)

theorem marked_triangular {w : PolyVal} (hw : BetaOnly w.den) {function : List Nat → Option SymPoly}
    (hF : IsMarkedFamily sv dp n w function) :
    TriangularOn n (fun mu => IsStrict mu ∧ mu.length ≤ n) (fun mu => if dp then 2 ^ mu.length else 1) function before := by
  refine ⟨before_trans, before_irrefl, fun mu ⟨hm, hl⟩ => ⟨by cases dp <;> simp, ?_⟩⟩
  obtain ⟨g, h1, h2, h3⟩ := hF.2 mu hm
  refine ⟨g, h1, h2, ?_, fun k => ?_, fun k hk hne => ?_⟩
  · rw [h3, markedCount_self hm hl]; simp
  · rw [h3, PolyVal.den_mul, PolyVal.den_intCast, PolyVal.den_pow]
    exact betaOnly_mul (betaOnly_int _) (betaOnly_pow hw _)
  · refine markedCount_before (sv := sv) (dp := dp) (n := n) hm ?_ hne
    intro h
    rw [h3, h] at hk
    simp at hk

/-- The generating function of the shifted marked tableaux of shape `mu`. -/
noncomputable def markedSum (sv dp : Bool) (w : Laurent) (n : Nat) (mu : List Nat) : Laurent :=
  tabSum w n ((semistandardShiftedMarked dp sv [] n mu).getD ∅)

theorem phi_markedFamily {w : PolyVal} {function : List Nat → Option SymPoly}
    (hF : IsMarkedFamily sv dp n w function) {mu : List Nat} (hm : IsStrict mu) :
    phi (xden Poly.x) n (fden function mu) = markedSum sv dp w.den n mu := by
  have hnil : IsShape true [] := ⟨by simp, by simp⟩
  obtain ⟨g, h1, h2, h3⟩ := hF.2 mu hm
  rw [fden, h1, Option.map_some, Option.getD_some, phi_marked (sv := sv) (dp := dp) (by simp) hnil hm n w (fun k => by
    rw [Vec.den_apply]; exact h3 k), markedSum, semistandardShiftedMarked_eq hnil n hm, Option.getD_some]

end Verif.Symm
