import Verif.Lemmas.Count
import Verif.Model.Rpp

/-! The dicts made by `_count_semistandard_rpp` and `_count_semistandard_marked_rpp`, in general. -/

attribute [-simp] List.getD_eq_getElem?_getD

namespace Verif.Tableaux

open Verif.Part Partition

theorem rppCountLoop_getD (m : Nat) (d : Dict (List Nat) Int) (ans : Dict (List Nat) Int) (key : List Nat) :
    (rppCountLoop m d.items ans).getD key 0 = ans.getD key 0 +
      (if key ≠ [] ∧ key.getLastD 0 = m ∧ (key.dropLast = [] ∨ m ≤ key.dropLast.getLastD 0) then
        d.getD key.dropLast 0 else 0) := by
  unfold rppCountLoop
  rw [foldl_getD d.items _ key (fun pc => if pc.1 = key.dropLast then
    (if key ≠ [] ∧ key.getLastD 0 = m ∧ (key.dropLast = [] ∨ m ≤ key.dropLast.getLastD 0) then pc.2 else 0) else 0)]
  · rw [sum_items_eq d key.dropLast (fun v =>
      if key ≠ [] ∧ key.getLastD 0 = m ∧ (key.dropLast = [] ∨ m ≤ key.dropLast.getLastD 0) then v else 0) (by simp)]
  · rintro ⟨p, c⟩ _ ans
    simp only
    have happ : p ++ [m] = key ↔ p = key.dropLast ∧ key ≠ [] ∧ key.getLastD 0 = m := by
      constructor
      · rintro rfl; simp
      · rintro ⟨rfl, h1, rfl⟩
        rw [List.getLastD_eq_getLast?, List.getLast?_eq_getLast_of_ne_nil h1, Option.getD_some, List.dropLast_append_getLast]
    split
    · rename_i h
      rw [left_eq_add]
      by_cases hp : p = key.dropLast
      · rw [if_pos hp, if_neg]
        rintro ⟨_, _, h3⟩
        rw [← hp] at h3
        rcases h3 with h3 | h3
        · exact h.1 h3
        · omega
      · rw [if_neg hp]
    · rename_i h
      rw [getD_bump]
      congr 1
      by_cases hp : p = key.dropLast
      · rw [if_pos hp]
        have h' : key.dropLast = [] ∨ m ≤ key.dropLast.getLastD 0 := by
          rw [← hp]
          by_cases he : p = []
          · exact Or.inl he
          · right
            by_contra hc
            exact h ⟨he, by omega⟩
        have happ' : p ++ [m] = key ↔ key ≠ [] ∧ key.getLastD 0 = m := by
          rw [happ]; exact and_iff_right hp
        by_cases hc : key ≠ [] ∧ key.getLastD 0 = m
        · rw [if_pos (happ'.2 hc), if_pos ⟨hc.1, hc.2, h'⟩]
        · rw [if_neg (fun e => hc (happ'.1 e)), if_neg (fun e => hc ⟨e.1, e.2.1⟩)]
      · rw [if_neg hp, if_neg (fun e => hp (happ.1 e).1)]

/-- The conditions under which a dict of counts is right.  `N k mu alpha` is the number to be counted. -/
structure CountSetup (lam : List Nat) (C : Nat → List Nat → Dict (List Nat) Int) (ok inc : List Nat → Prop)
    (steps : List Nat → List (List Nat × Nat)) (N : Nat → List Nat → (Nat → Nat) → Int) : Prop where
  zero : ∀ mu, C 0 mu = if mu = lam then Dict.empty.set [] 1 else Dict.empty
  self : ∀ n, C (n + 1) lam = Dict.empty.set [] 1
  succ : ∀ n mu, ok mu → mu ≠ lam → inc mu → C (n + 1) mu =
    (steps mu).foldl (fun ans s => if mu = s.1 then ans else rppCountLoop s.2 (C n s.1).items ans) Dict.empty
  off : ∀ n mu, ok mu → mu ≠ lam → ¬ inc mu → C (n + 1) mu = Dict.empty
  ok_step : ∀ mu, ok mu → ∀ s ∈ steps mu, ok s.1
  pos : ∀ mu, ok mu → ∀ s ∈ steps mu, s.2 = 0 ↔ s.1 = mu
  once : ∀ mu, ok mu → inc mu → (steps mu).countP (fun s => decide (s.1 = mu)) = 1
  lam_step : ∀ s ∈ steps lam, s.1 ≠ lam → ¬ inc s.1
  N_zero : ∀ mu, ok mu → ∀ alpha, N 0 mu alpha = if mu = lam then 1 else 0
  N_succ : ∀ mu, ok mu → ∀ k alpha, inc mu → N (k + 1) mu alpha =
    ((steps mu).map (fun s => if s.2 = alpha k then N k s.1 alpha else 0)).sum
  N_off : ∀ mu, ok mu → ∀ k alpha, ¬ inc mu → N k mu alpha = 0
  N_congr : ∀ k mu alpha alpha', (∀ i < k, alpha i = alpha' i) → N k mu alpha = N k mu alpha'
  inc_lam : inc lam
  ok_lam : ok lam

variable {lam : List Nat} {C : Nat → List Nat → Dict (List Nat) Int} {ok inc : List Nat → Prop}
  {steps : List Nat → List (List Nat × Nat)} {N : Nat → List Nat → (Nat → Nat) → Int}

theorem getD_unit (q : List Nat) : (Dict.empty.set ([] : List Nat) (1 : Int)).getD q 0 = if q = [] then 1 else 0 := by
  rw [Dict.getD_set, Dict.getD_empty]
  by_cases h : q = []
  · rw [if_pos h, if_pos h.symm]
  · rw [if_neg h, if_neg (fun e => h e.symm)]

theorem isPartition_dropLast {q : List Nat} (hne : q ≠ []) :
    IsPartition q ↔ IsPartition q.dropLast ∧ 0 < q.getLastD 0 ∧ (q.dropLast = [] ∨ q.getLastD 0 ≤ q.dropLast.getLastD 0) := by
  have hq : q.dropLast ++ [q.getLastD 0] = q := by
    rw [List.getLastD_eq_getLast?, List.getLast?_eq_getLast_of_ne_nil hne, Option.getD_some, List.dropLast_append_getLast]
  conv_lhs => rw [← hq]
  rw [isPartition_append]
  constructor
  · rintro ⟨h1, h2, h3⟩
    refine ⟨h1, h2, ?_⟩
    by_cases he : q.dropLast = []
    · exact Or.inl he
    · exact Or.inr (h3 he)
  · rintro ⟨h1, h2, h3⟩
    refine ⟨h1, h2, fun he => ?_⟩
    rcases h3 with h3 | h3
    · exact absurd h3 he
    · exact h3

open scoped Classical in
theorem CountSetup.count (S : CountSetup lam C ok inc steps N) (n : Nat) : ∀ mu, ok mu → ∀ q,
    (C n mu).getD q 0 = if IsPartition q ∧ q.length ≤ n then N q.length mu (fun i => q.getD i 0) else 0 := by
  induction n with
  | zero =>
    intro mu hmu q
    have e : (C 0 mu).getD q 0 = if mu = lam then (if q = [] then 1 else 0) else 0 := by
      rw [S.zero]
      by_cases h : mu = lam
      · rw [if_pos h, if_pos h, getD_unit]
      · rw [if_neg h, if_neg h, Dict.getD_empty]
    rw [e]
    by_cases hq : q = []
    · have hP : IsPartition q ∧ q.length ≤ 0 := by
        subst hq; exact ⟨⟨List.Pairwise.nil, by simp⟩, by simp⟩
      rw [if_pos hP, if_pos hq, hq, List.length_nil, S.N_zero mu hmu]
    · have hP : ¬ (IsPartition q ∧ q.length ≤ 0) := fun h => hq (List.eq_nil_of_length_eq_zero (by omega))
      rw [if_neg hP, if_neg hq, ite_self]
  | succ n ih =>
    intro mu hmu q
    by_cases hl : mu = lam
    · subst hl
      rw [S.self, getD_unit]
      by_cases hq : q = []
      · subst hq
        rw [if_pos rfl, if_pos ⟨⟨List.Pairwise.nil, by simp⟩, by simp⟩, List.length_nil, S.N_zero mu hmu, if_pos rfl]
      · rw [if_neg hq]
        split
        · rename_i h
          obtain ⟨k, hk⟩ : ∃ k, q.length = k + 1 := ⟨q.length - 1, by have := List.length_pos_iff.2 hq; omega⟩
          rw [hk, S.N_succ mu hmu k _ S.inc_lam]
          symm
          apply List.sum_eq_zero
          intro x hx
          rw [List.mem_map] at hx
          obtain ⟨s, hs, rfl⟩ := hx
          split
          · rename_i h2
            by_cases h3 : s.1 = mu
            · have h4 := (S.pos mu hmu s hs).2 h3
              have := h.1.2 (q.getD k 0) (by
                rw [List.getD_eq_getElem _ _ (by omega)]; exact List.getElem_mem _)
              omega
            · exact S.N_off _ (S.ok_step mu hmu s hs) _ _ (S.lam_step s hs h3)
          · rfl
        · rfl
    · by_cases hi : inc mu
      · rw [S.succ n mu hmu hl hi]
        rw [foldl_getD (steps mu) _ q (fun s => if mu = s.1 then 0 else
          (if q ≠ [] ∧ q.getLastD 0 = s.2 ∧ (q.dropLast = [] ∨ s.2 ≤ q.dropLast.getLastD 0) then
            (C n s.1).getD q.dropLast 0 else 0))]
        swap
        · intro s _ ans
          split
          · simp
          · rw [rppCountLoop_getD]
        rw [Dict.getD_empty, zero_add]
        by_cases hq : q = []
        · subst hq
          rw [if_pos ⟨⟨List.Pairwise.nil, by simp⟩, by simp⟩, List.length_nil, S.N_zero mu hmu, if_neg hl]
          apply List.sum_eq_zero
          intro x hx
          rw [List.mem_map] at hx
          obtain ⟨s, hs, rfl⟩ := hx
          simp
        · obtain ⟨k, hk⟩ : ∃ k, q.length = k + 1 := ⟨q.length - 1, by have := List.length_pos_iff.2 hq; omega⟩
          have hlast : q.getLastD 0 = q.getD k 0 := by
            rw [List.getLastD_eq_getLast?, List.getLast?_eq_getLast_of_ne_nil hq, Option.getD_some,
              List.getLast_eq_getElem, List.getD_eq_getElem _ _ (by omega)]
            simp [hk]
          have hdl : q.dropLast.length = k := by rw [List.length_dropLast]; omega
          by_cases hP : IsPartition q ∧ q.length ≤ n + 1
          · rw [if_pos hP, hk, S.N_succ mu hmu k _ hi]
            obtain ⟨p1, p2, p3⟩ := (isPartition_dropLast hq).1 hP.1
            refine congrArg List.sum (List.map_congr_left (fun s hs => ?_))
            by_cases h2 : s.2 = q.getD k 0
            · rw [if_pos h2]
              have hne : mu ≠ s.1 := by
                intro e
                have := (S.pos mu hmu s hs).2 e.symm
                omega
              rw [if_neg hne, if_pos ⟨hq, by omega, by rw [h2, ← hlast]; exact p3⟩, ih _ (S.ok_step mu hmu s hs),
                if_pos ⟨p1, by omega⟩, hdl]
              apply S.N_congr
              intro i hi
              rw [List.getD_eq_getElem _ _ (by omega), List.getD_eq_getElem _ _ (by omega), List.getElem_dropLast]
            · rw [if_neg h2]
              split
              · rfl
              · rw [if_neg]
                rintro ⟨_, e, _⟩
                omega
          · rw [if_neg hP]
            apply List.sum_eq_zero
            intro x hx
            rw [List.mem_map] at hx
            obtain ⟨s, hs, rfl⟩ := hx
            split
            · rfl
            · rename_i hne
              split
              · rename_i h2
                rw [ih _ (S.ok_step mu hmu s hs), if_neg]
                rintro ⟨h3, h4⟩
                apply hP
                refine ⟨(isPartition_dropLast hq).2 ⟨h3, ?_, ?_⟩, by omega⟩
                · by_contra hc
                  exact hne ((S.pos mu hmu s hs).1 (by omega)).symm
                · rw [h2.2.1]; exact h2.2.2
              · rfl
      · rw [S.off n mu hmu hl hi, Dict.getD_empty]
        split
        · rw [S.N_off mu hmu _ _ hi]
        · rfl

theorem CountSetup.keys (S : CountSetup lam C ok inc steps N) (n : Nat) : ∀ mu, ok mu → ∀ q ∈ (C n mu).keys,
    q.length ≤ n := by
  have hunit : ∀ q ∈ (Dict.empty.set ([] : List Nat) (1 : Int)).keys, q = [] := by
    intro q hq
    simpa [Dict.keys, Dict.set, Dict.empty, Dict.insertItem] using hq
  have hempty : ∀ q, q ∉ (Dict.empty : Dict (List Nat) Int).keys := by
    intro q hq
    simp [Dict.keys, Dict.empty] at hq
  induction n with
  | zero =>
    intro mu _ q hq
    rw [S.zero] at hq
    split at hq
    · simp [hunit q hq]
    · exact absurd hq (hempty q)
  | succ n ih =>
    intro mu hmu
    by_cases hl : mu = lam
    · subst hl
      intro q hq
      rw [S.self] at hq
      simp [hunit q hq]
    · by_cases hi : inc mu
      · rw [S.succ n mu hmu hl hi]
        apply foldl_inv (P := fun d : Dict (List Nat) Int => ∀ q ∈ d.keys, q.length ≤ n + 1)
        · intro s hs ans hans
          split
          · exact hans
          · apply foldl_inv (P := fun d : Dict (List Nat) Int => ∀ q ∈ d.keys, q.length ≤ n + 1)
            · intro pc hpc ans hans
              split
              · exact hans
              · intro q hq
                rcases mem_keys_bump hq with rfl | hq
                · have := ih _ (S.ok_step mu hmu s hs) _ (Dict.mem_keys_of_items hpc)
                  simp; omega
                · exact hans q hq
            · exact hans
        · intro q hq; exact absurd hq (hempty q)
      · intro q hq
        rw [S.off n mu hmu hl hi] at hq
        exact absurd hq (hempty q)

/-- Letters that do not occur at the end may be left out. -/
theorem CountSetup.stable (S : CountSetup lam C ok inc steps N) {l n : Nat} (hln : l ≤ n) {mu : List Nat} (hmu : ok mu)
    {alpha : Nat → Nat} (h0 : ∀ i, l ≤ i → i < n → alpha i = 0) : N n mu alpha = N l mu alpha := by
  induction n, hln using Nat.le_induction with
  | base => rfl
  | succ n hn ih =>
    rw [← ih (fun i h1 h2 => h0 i h1 (by omega))]
    by_cases hi : inc mu
    · rw [S.N_succ mu hmu n _ hi, h0 n hn (by omega)]
      have h1 := S.once mu hmu hi
      have h2 : (steps mu).map (fun s => if s.2 = 0 then N n s.1 alpha else 0) =
          (steps mu).map (fun s => if decide (s.1 = mu) = true then N n mu alpha else 0) := by
        refine List.map_congr_left (fun s hs => ?_)
        by_cases h3 : s.1 = mu
        · rw [if_pos ((S.pos mu hmu s hs).2 h3), if_pos (by simpa using h3), h3]
        · rw [if_neg (fun e => h3 ((S.pos mu hmu s hs).1 e)), if_neg (by simpa using h3)]
      rw [h2]
      have h3 : ∀ (l : List (List Nat × Nat)) (v : Int),
          (l.map (fun s => if decide (s.1 = mu) = true then v else 0)).sum = l.countP (fun s => decide (s.1 = mu)) * v := by
        intro l v
        induction l with
        | nil => simp
        | cons a t ih =>
          rw [List.map_cons, List.sum_cons, ih, List.countP_cons]
          split
          · push_cast; ring
          · simp
      rw [h3, h1]
      simp
    · rw [S.N_off mu hmu _ _ hi, S.N_off mu hmu _ _ hi]

end Verif.Tableaux
