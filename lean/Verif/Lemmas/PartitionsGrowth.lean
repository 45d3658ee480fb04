import Verif.Lemmas.Partitions
import Mathlib.Algebra.BigOperators.Intervals
import Mathlib.Algebra.BigOperators.Ring.Finset
import Mathlib.Algebra.Order.BigOperators.Group.List

set_option linter.unusedSectionVars false

/-! Lemmas about growth diagrams. -/

namespace Verif.Partition

open Part Finset

attribute [-simp] List.getD_eq_getElem?_getD
attribute [local simp] List.getD_cons_zero List.getD_cons_succ

/-- `mu` is obtained from `rho` by adding a horizontal strip. -/
def HS (rho mu : List Nat) : Prop := ∀ k, rho.getD k 0 ≤ mu.getD k 0 ∧ mu.getD (k + 1) 0 ≤ rho.getD k 0

/-- The carry going into row `k` (from 0). -/
def carryF (rho mu nu : List Nat) (c : Nat) : Nat → Int
  | 0 => c
  | k + 1 => min (mu.getD k 0 : Int) (nu.getD k 0 : Int) - rho.getD k 0

/-- Row `k` (from 0) of the result of the local rule. -/
def lamF (rho mu nu : List Nat) (c : Nat) (k : Nat) : Int :=
  max (mu.getD k 0 : Int) (nu.getD k 0 : Int) + carryF rho mu nu c k

theorem growthLoop_spec (rho mu nu : List Nat) (c : Nat) (hnn : ∀ k, 0 ≤ lamF rho mu nu c k)
    (hanti : ∀ k, lamF rho mu nu c (k + 1) ≤ lamF rho mu nu c k) :
    ∀ fuel k, lamF rho mu nu c (k + fuel) = 0 →
      ∃ l : List Int, growthLoop rho mu nu (fuel + 1) (k + 1) (carryF rho mu nu c k) = some l ∧
        (∀ a ∈ l, 0 < a) ∧ ∀ j, l.getD j 0 = lamF rho mu nu c (k + j) := by
  have hmono : Antitone (lamF rho mu nu c) := antitone_nat_of_succ_le hanti
  have hzero : ∀ k, lamF rho mu nu c k = 0 → ∀ j, lamF rho mu nu c (k + j) = 0 := by
    intro k hk j
    have := hmono (Nat.le_add_right k j)
    have := hnn (k + j)
    omega
  intro fuel
  induction fuel with
  | zero =>
    intro k hk
    refine ⟨[], ?_, by simp, ?_⟩
    · rw [growthLoop]
      simp only [get_succ]
      rw [if_pos]; exact hk
    · intro j
      rw [hzero k hk j]; simp
  | succ fuel ih =>
    intro k hk
    rw [growthLoop]
    simp only [get_succ]
    by_cases hv : lamF rho mu nu c k = 0
    · refine ⟨[], ?_, by simp, ?_⟩
      · rw [if_pos]; exact hv
      · intro j
        rw [hzero k hv j]; simp
    · obtain ⟨l, h1, h2, h3⟩ := ih (k + 1) (by rw [← hk]; congr 1; omega)
      refine ⟨lamF rho mu nu c k :: l, ?_, ?_, ?_⟩
      · rw [if_neg (by exact hv)]
        have : carryF rho mu nu c (k + 1) = min (mu.getD k 0 : Int) (nu.getD k 0 : Int) - rho.getD k 0 := rfl
        rw [← this, h1]; rfl
      · intro a ha
        rcases List.mem_cons.1 ha with rfl | ha
        · have := hnn k; omega
        · exact h2 a ha
      · intro j
        cases j with
        | zero => simp
        | succ j =>
          rw [List.getD_cons_succ, h3]; congr 1; omega

theorem lamF_bounds {rho mu nu : List Nat} (h1 : HS rho mu) (h2 : HS rho nu) (c k : Nat) :
    (mu.getD k 0 : Int) ≤ lamF rho mu nu c k ∧ (nu.getD k 0 : Int) ≤ lamF rho mu nu c k ∧
      lamF rho mu nu c (k + 1) ≤ mu.getD k 0 ∧ lamF rho mu nu c (k + 1) ≤ nu.getD k 0 := by
  have e1 := h1 k
  have e2 := h2 k
  refine ⟨?_, ?_, ?_, ?_⟩
  · cases k with
    | zero => simp only [lamF, carryF]; omega
    | succ k => have := h1 k; have := h2 k; simp only [lamF, carryF]; omega
  · cases k with
    | zero => simp only [lamF, carryF]; omega
    | succ k => have := h1 k; have := h2 k; simp only [lamF, carryF]; omega
  · simp only [lamF, carryF]; omega
  · simp only [lamF, carryF]; omega

theorem growthEntry_spec {rho mu nu : List Nat} (h1 : HS rho mu) (h2 : HS rho nu) (c : Nat) :
    ∃ lam, growthEntry rho mu nu c = some lam ∧ IsPartition lam ∧
      ∀ k, (lam.getD k 0 : Int) = lamF rho mu nu c k := by
  have hb := lamF_bounds h1 h2 c
  have hnn : ∀ k, 0 ≤ lamF rho mu nu c k := fun k => by have := hb k; omega
  have hanti : ∀ k, lamF rho mu nu c (k + 1) ≤ lamF rho mu nu c k := fun k => by have := hb k; omega
  have hstop : lamF rho mu nu c (0 + (mu.length + nu.length + 1)) = 0 := by
    have := (hb (mu.length + nu.length)).2.2.1
    rw [List.getD_eq_default mu 0 (by omega)] at this
    have h3 := hnn (mu.length + nu.length + 1)
    rw [Nat.zero_add]; omega
  obtain ⟨l, hl, hpos, hget⟩ := growthLoop_spec rho mu nu c hnn hanti _ 0 hstop
  have hg : ∀ k, ((l.map Int.toNat).getD k 0 : Int) = lamF rho mu nu c k := by
    intro k
    have := hget k
    rw [Nat.zero_add] at this
    rw [← this]
    by_cases hk : k < l.length
    · rw [List.getD_eq_getElem _ _ (by simpa using hk), List.getD_eq_getElem _ _ hk]
      simp
      have := hpos _ (List.getElem_mem hk)
      omega
    · rw [List.getD_eq_default _ _ (by simpa using hk), List.getD_eq_default _ _ (by simpa using hk)]
      simp
  refine ⟨trim (l.map Int.toNat), ?_, ?_, ?_⟩
  · rw [growthEntry]
    have : carryF rho mu nu c 0 = c := rfl
    rw [← this, hl]
    rfl
  · apply trim_isPartition
    rw [pairwise_ge_iff]
    intro i
    have := hg i
    have := hg (i + 1)
    have := hanti i
    omega
  · intro k
    rw [getD_trim]; exact hg k

theorem sum_eq_range (mu : List Nat) (N : Nat) (h : mu.length ≤ N) : mu.sum = ∑ k ∈ range N, mu.getD k 0 := by
  induction mu generalizing N with
  | nil => simp
  | cons a mu ih =>
    cases N with
    | zero => simp at h
    | succ N =>
      rw [Finset.sum_range_succ', List.sum_cons, ih N (by simpa using h)]
      simp; omega

theorem lamF_sum (rho mu nu : List Nat) (c N : Nat) :
    ∑ k ∈ range (N + 1), lamF rho mu nu c k + ∑ k ∈ range N, (rho.getD k 0 : Int) =
      ∑ k ∈ range N, (mu.getD k 0 : Int) + ∑ k ∈ range N, (nu.getD k 0 : Int) + c +
        max (mu.getD N 0 : Int) (nu.getD N 0) := by
  induction N with
  | zero => simp [lamF, carryF]; omega
  | succ N ih =>
    rw [Finset.sum_range_succ, Finset.sum_range_succ (fun k => (rho.getD k 0 : Int)) N,
      Finset.sum_range_succ (fun k => (mu.getD k 0 : Int)) N,
      Finset.sum_range_succ (fun k => (nu.getD k 0 : Int)) N]
    have : lamF rho mu nu c (N + 1) = max (mu.getD (N + 1) 0 : Int) (nu.getD (N + 1) 0) +
      (min (mu.getD N 0 : Int) (nu.getD N 0) - rho.getD N 0) := rfl
    rw [this]
    have := min_add_max (mu.getD N 0 : Int) (nu.getD N 0)
    linarith

theorem growthEntry_sum {rho mu nu : List Nat} (c : Nat) {lam : List Nat}
    (hlam : ∀ k, (lam.getD k 0 : Int) = lamF rho mu nu c k) :
    lam.sum + rho.sum = mu.sum + nu.sum + c := by
  obtain ⟨N, hN⟩ : ∃ N, N = mu.length + nu.length + lam.length + rho.length := ⟨_, rfl⟩
  have h := lamF_sum rho mu nu c N
  rw [List.getD_eq_default mu 0 (by omega : mu.length ≤ N), List.getD_eq_default nu 0 (by omega : nu.length ≤ N)] at h
  simp only [← hlam] at h
  rw [sum_eq_range lam (N + 1) (by omega), sum_eq_range rho N (by omega), sum_eq_range mu N (by omega),
    sum_eq_range nu N (by omega)]
  zify
  simpa using h

/-! ### the array -/

/-- The entries of the growth diagram, as a recursive function. -/
def gEntry (c : Nat → Nat → Nat) : Nat → Nat → List Nat
  | 0, _ => []
  | _ + 1, 0 => []
  | i + 1, j + 1 =>
    (growthEntry (gEntry c i j) (gEntry c i (j + 1)) (gEntry c (i + 1) j) (c (i + 1) (j + 1))).getD []
termination_by i j => i + j

theorem HS_nil : HS [] [] := fun k => by simp

theorem gEntry_zero_left (c : Nat → Nat → Nat) (j : Nat) : gEntry c 0 j = [] := by rw [gEntry]

theorem gEntry_zero_right (c : Nat → Nat → Nat) (i : Nat) : gEntry c i 0 = [] := by
  cases i <;> rw [gEntry]

theorem gEntry_inv (c : Nat → Nat → Nat) (i j : Nat) :
    IsPartition (gEntry c i j) ∧ HS (gEntry c (i - 1) j) (gEntry c i j) ∧ HS (gEntry c i (j - 1)) (gEntry c i j) := by
  have hn : IsPartition [] := ⟨by simp, by simp⟩
  induction i generalizing j with
  | zero => simp only [Nat.zero_sub, gEntry_zero_left]; exact ⟨hn, HS_nil, HS_nil⟩
  | succ i ihi =>
    induction j with
    | zero => simp only [Nat.zero_sub, gEntry_zero_right]; exact ⟨hn, HS_nil, HS_nil⟩
    | succ j ihj =>
      have hmu := (ihi (j + 1)).2.2
      have hnu := ihj.2.1
      simp only [Nat.add_sub_cancel] at hmu hnu ⊢
      obtain ⟨lam, h1, h2, h3⟩ := growthEntry_spec hmu hnu (c (i + 1) (j + 1))
      have he : gEntry c (i + 1) (j + 1) = lam := by rw [gEntry, h1]; rfl
      rw [he]
      have hb := lamF_bounds hmu hnu (c (i + 1) (j + 1))
      refine ⟨h2, ?_, ?_⟩
      · intro k
        have := hb k
        have := h3 k
        have := h3 (k + 1)
        omega
      · intro k
        have := hb k
        have := h3 k
        have := h3 (k + 1)
        omega

theorem gEntry_step (c : Nat → Nat → Nat) (i j : Nat) :
    growthEntry (gEntry c i j) (gEntry c i (j + 1)) (gEntry c (i + 1) j) (c (i + 1) (j + 1)) =
      some (gEntry c (i + 1) (j + 1)) ∧
    ∀ k, ((gEntry c (i + 1) (j + 1)).getD k 0 : Int) =
      lamF (gEntry c i j) (gEntry c i (j + 1)) (gEntry c (i + 1) j) (c (i + 1) (j + 1)) k := by
  have hmu := (gEntry_inv c i (j + 1)).2.2
  have hnu := (gEntry_inv c (i + 1) j).2.1
  simp only [Nat.add_sub_cancel] at hmu hnu
  obtain ⟨lam, h1, h2, h3⟩ := growthEntry_spec hmu hnu (c (i + 1) (j + 1))
  have he : gEntry c (i + 1) (j + 1) = lam := by rw [gEntry, h1]; rfl
  rw [he]
  exact ⟨h1, h3⟩

theorem gEntry_sum (c : Nat → Nat → Nat) (i j : Nat) :
    (gEntry c i j).sum = ∑ a ∈ range i, ∑ b ∈ range j, c (a + 1) (b + 1) := by
  induction i generalizing j with
  | zero => simp [gEntry_zero_left]
  | succ i ihi =>
    induction j with
    | zero => simp [gEntry_zero_right]
    | succ j ihj =>
      have := growthEntry_sum _ (gEntry_step c i j).2
      rw [ihi, ihi, ihj] at this
      rw [Finset.sum_range_succ (fun a => ∑ b ∈ range j, c (a + 1) (b + 1)) i] at this
      rw [Finset.sum_range_succ, Finset.sum_range_succ]
      omega

theorem lamF_comm (rho mu nu : List Nat) (c k : Nat) : lamF rho mu nu c k = lamF rho nu mu c k := by
  cases k <;> simp only [lamF, carryF, max_comm, min_comm]

theorem gEntry_transpose (c : Nat → Nat → Nat) (i j : Nat) :
    gEntry (fun a b => c b a) j i = gEntry c i j := by
  induction i generalizing j with
  | zero => rw [gEntry_zero_right, gEntry_zero_left]
  | succ i ihi =>
    induction j with
    | zero => rw [gEntry_zero_right, gEntry_zero_left]
    | succ j ihj =>
      apply row_ext (gEntry_inv _ _ _).1.2 (gEntry_inv _ _ _).1.2
      intro k
      have h1 := (gEntry_step c i j).2 k
      have h2 := (gEntry_step (fun a b => c b a) j i).2 k
      rw [ihi, ihi, ihj, lamF_comm, ← h1] at h2
      exact_mod_cast h2

theorem growthRow_eq (c : Nat → Nat → Nat) (i : Nat) (n : Nat) :
    ∀ j, growthRow (c (i + 1)) (j + 1) (gEntry c i j) (gEntry c (i + 1) j)
      ((List.range' (j + 1) n).map (gEntry c i)) = some ((List.range' (j + 1) n).map (gEntry c (i + 1))) := by
  induction n with
  | zero => intro j; simp [growthRow]
  | succ n ih =>
    intro j
    rw [List.range'_succ, List.map_cons, List.map_cons, growthRow, (gEntry_step c i j).1]
    have := ih (j + 1)
    simp only [Option.bind_eq_bind, Option.bind_some, this]
    rfl

theorem growthRows_eq (c : Nat → Nat → Nat) (m : Nat) (n : Nat) :
    ∀ i, growthRows c n (i + 1) ((List.range (m + 1)).map (gEntry c i)) =
      some ((List.range' (i + 1) n).map (fun i => (List.range (m + 1)).map (gEntry c i))) := by
  have hr : ∀ i, (List.range (m + 1)).map (gEntry c i) = [] :: (List.range' 1 m).map (gEntry c i) := by
    intro i
    rw [List.range_eq_range', List.range'_succ, List.map_cons, gEntry_zero_right]
  induction n with
  | zero => intro i; simp [growthRows]
  | succ n ih =>
    intro i
    have hrow := growthRow_eq c i m 0
    rw [gEntry_zero_right, gEntry_zero_right, Nat.zero_add] at hrow
    rw [growthRows, hr i]
    simp only [List.headD_cons, List.tail_cons, hrow, Option.bind_eq_bind, Option.bind_some]
    rw [← hr (i + 1), ih (i + 1)]
    rw [List.range'_succ]
    rfl

theorem growthDiagram_eq (c : Nat → Nat → Nat) (m n : Nat) :
    growthDiagram c m n =
      some ((List.range (n + 1)).map (fun i => (List.range (m + 1)).map (gEntry c i))) := by
  have h0 : List.replicate (m + 1) [] = (List.range (m + 1)).map (gEntry c 0) := by
    symm
    rw [List.eq_replicate_iff]
    simp [gEntry_zero_left]
  have := growthRows_eq c m n 0
  rw [growthDiagram, h0, this, List.range_eq_range' (n := n + 1), List.range'_succ]
  rfl

theorem HS_diagram {rho mu : List Nat} (hm : mu.Pairwise (· ≥ ·)) (h : HS rho mu) :
    Diagram rho ⊆ Diagram mu ∧ IsHorizontalStrip (Diagram mu \ Diagram rho) := by
  refine ⟨diagram_subset.2 fun k => (h k).1, ?_⟩
  have key : ∀ i i' j, i < i' → (i, j) ∈ Diagram mu \ Diagram rho → (i', j) ∈ Diagram mu \ Diagram rho → False := by
    rintro i i' j hlt ⟨h1, h2⟩ ⟨h3, h4⟩
    rw [mem_diagram] at h1 h2 h3
    have e1 := (h (i - 1)).2
    rw [Nat.sub_add_cancel h1.1] at e1
    have e2 : mu.getD (i' - 1) 0 ≤ mu.getD i 0 := getD_antitone hm (by omega)
    omega
  rintro ⟨i, j⟩ hb ⟨i', j'⟩ hb' he
  simp only at he
  subst he
  rcases lt_trichotomy i i' with h1 | h1 | h1
  · exact (key _ _ _ h1 hb hb').elim
  · rw [h1]
  · exact (key _ _ _ h1 hb' hb).elim

end Verif.Partition
