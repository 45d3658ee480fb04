import Verif.Lemmas.InsertionPieri

/-! Hecke insertion is surjective: every pair of an increasing tableau and a standard set-valued tableau of the same shape arises. -/

namespace Verif.Insertion

open Tab

variable {T : Tab} {lam : Nat → Nat} {f : Nat → Nat → Int} {r k : Nat} {a b : Int}

/-- Ready states only need a position in the row above that is not left of the new one. -/
theorem ready_of (h : Inc T lam f) (ha : 0 < a) (hk : Cnt lam f (r + 1) a k)
    (h1 : 1 ≤ r → k + 1 ≤ lam r ∧ f r (k + 1) ≤ a) (h2 : 1 ≤ r → f r 1 < a) : Ready lam f r a := by
  refine ⟨ha, fun hr => ?_, h2⟩
  obtain ⟨y, hy⟩ := exists_cnt lam f r a
  have hky : k + 1 ≤ y := by
    by_contra hc
    have h3 := hy.2.2 (by have := (h1 hr).1; omega)
    have := h.rowLe (i := r) (j := y + 1) (j' := k + 1) hr (by omega) (by omega) (h1 hr).1
    have := (h1 hr).2
    omega
  refine ⟨y, by omega, hy.1, hy.2.1 y (by omega) (le_refl _), hy.2.2, fun hl => ?_⟩
  have h3 := hk.2.2 (by omega)
  have := h.rowLe (i := r + 1) (j := k + 1) (j' := y) (by omega) (by omega) hky hl
  omega

/-- Every ready state below the first row comes from a step in the row above. -/
theorem unstep (h : Inc T lam f) (hr : Ready lam f (r + 1) b) : ∃ T0 f0 a k, Inc T0 lam f0 ∧ Ready lam f0 r a ∧
    Cnt lam f0 (r + 1) a k ∧ k + 1 ≤ lam (r + 1) ∧ nextT T0 f0 r k a = T ∧ f0 (r + 1) (k + 1) = b := by
  obtain ⟨y, hy1, hy2, hy3, hy4, hy5⟩ := hr.above (by omega)
  have hfirst := hr.first (by omega)
  obtain ⟨k, rfl⟩ : ∃ k, y = k + 1 := ⟨y - 1, by omega⟩
  have hup : 1 ≤ r → k + 1 ≤ lam r ∧ f r (k + 1) < f (r + 1) (k + 1) := fun h1 =>
    ⟨le_trans hy2 (h.anti r h1), h.col r (k + 1) h1 (by omega) hy2⟩
  rcases eq_or_lt_of_le hy3 with he | hlt
  · -- the entry stays
    have hk0 : 1 ≤ k := by
      rcases Nat.eq_zero_or_pos k with h0 | h0
      · subst h0; rw [Nat.zero_add] at he; omega
      · exact h0
    obtain ⟨v, hv⟩ : ∃ v : Int, v = if r = 0 then 0 else f r (k + 1) := ⟨_, rfl⟩
    have hkk := h.row (r + 1) k (by omega) hk0 hy2
    have hpos := h.pos (r + 1) k (by omega) hk0 (by omega)
    have hvb : v < b := by
      rw [hv]
      split
      · omega
      · have := hup (by omega); omega
    obtain ⟨a, ha⟩ : ∃ a : Int, a = max (f (r + 1) k) v := ⟨_, rfl⟩
    have hab : a < b := by omega
    have hcnt : Cnt lam f (r + 1) a k := by
      refine ⟨by omega, fun j h1 h2 => ?_, fun _ => by omega⟩
      have := h.rowLe (i := r + 1) (j := j) (j' := k) (by omega) h1 h2 (by omega)
      omega
    have hready : Ready lam f r a := ready_of h (by omega) hcnt (fun h1 => ⟨(hup h1).1, by rw [if_neg (by omega)] at hv; omega⟩) (fun h1 => by
      have h3 := h.col r 1 h1 (le_refl _) (by omega)
      have h4 := h.rowLe (i := r + 1) (j := 1) (j' := k) (by omega) (le_refl _) hk0 (by omega)
      omega)
    refine ⟨T, f, a, k, h, hready, hcnt, hy2, ?_, he⟩
    rw [nextT, if_neg]
    rintro ⟨h1, h2⟩
    rcases h1 with h1 | h1
    · omega
    · rcases h2 with h2 | h2
      · rw [if_pos h2] at hv; omega
      · by_cases h0 : r = 0
        · rw [if_pos h0] at hv; omega
        · rw [if_neg h0] at hv; omega
  · -- the entry was replaced
    obtain ⟨c, hc⟩ : ∃ c, c = f (r + 1) (k + 1) := ⟨_, rfl⟩
    obtain ⟨f0, hf0⟩ : ∃ f0, f0 = updF f r k b := ⟨_, rfl⟩
    have e1 : f0 (r + 1) (k + 1) = b := by rw [hf0, updF, if_pos ⟨rfl, rfl⟩]
    have e2 : ∀ i j, ¬ (i = r + 1 ∧ j = k + 1) → f0 i j = f i j := fun i j hn => by rw [hf0, updF, if_neg hn]
    have hinc : Inc (T.set (r + 1, k + 1) [b]) lam f0 := by
      constructor
      · intro i j
        rw [get?_set]
        by_cases hij : i = r + 1 ∧ j = k + 1
        · rw [if_pos (by rw [hij.1, hij.2]), hij.1, hij.2, if_pos (by omega), e1]
        · rw [if_neg (by rw [Prod.mk.injEq]; exact hij), h.get, e2 i j hij]
      · exact h.anti
      · intro i j h1 h2 h3
        have := h.row i j h1 h2 h3
        by_cases c1 : i = r + 1 ∧ j = k + 1
        · obtain ⟨rfl, rfl⟩ := c1
          rw [e1, e2 _ _ (by omega)]
          exact hy4 h3
        · rw [e2 i j c1]
          by_cases c2 : i = r + 1 ∧ j + 1 = k + 1
          · rw [c2.1, c2.2, e1]
            rw [c2.1, c2.2] at this
            omega
          · rw [e2 _ _ c2]; exact this
      · intro i j h1 h2 h3
        have := h.col i j h1 h2 h3
        by_cases c1 : i = r + 1 ∧ j = k + 1
        · obtain ⟨rfl, rfl⟩ := c1
          rw [e1, e2 _ _ (by omega)]
          exact hy5 h3
        · rw [e2 i j c1]
          by_cases c2 : i + 1 = r + 1 ∧ j = k + 1
          · rw [c2.1, c2.2, e1]
            rw [c2.1, c2.2] at this
            omega
          · rw [e2 _ _ c2]; exact this
      · intro i j h1 h2 h3
        have := h.pos i j h1 h2 h3
        by_cases c1 : i = r + 1 ∧ j = k + 1
        · rw [c1.1, c1.2, e1]; exact hr.pos
        · rw [e2 i j c1]; exact this
    have hk1 : k = 0 ∨ f (r + 1) k < c := by
      rcases Nat.eq_zero_or_pos k with h0 | h0
      · exact Or.inl h0
      · exact Or.inr (by rw [hc]; exact h.row (r + 1) k (by omega) h0 hy2)
    have hcnt : Cnt lam f0 (r + 1) c k := by
      refine ⟨by omega, fun j h1 h2 => ?_, fun _ => by rw [e1]; omega⟩
      rw [e2 _ _ (by omega)]
      have := h.rowLe (i := r + 1) (j := j) (j' := k + 1) (by omega) h1 (by omega) hy2
      omega
    have hready : Ready lam f0 r c := ready_of hinc (by rw [hc]; exact h.pos _ _ (by omega) (by omega) hy2) hcnt
      (fun h1 => ⟨(hup h1).1, by rw [e2 _ _ (by omega)]; have := (hup h1).2; omega⟩) (fun h1 => by
        rw [e2 _ _ (by omega)]
        have h3 := h.rowLe (i := r) (j := 1) (j' := k + 1) h1 (le_refl _) (by omega) (hup h1).1
        have := (hup h1).2
        omega)
    refine ⟨_, f0, c, k, hinc, hready, hcnt, hy2, ?_, e1⟩
    rw [nextT, if_pos, set_set, set_get]
    · rw [hc]; exact h.get_some (by omega) (by omega) hy2
    · refine ⟨?_, ?_⟩
      · rcases hk1 with h0 | h0
        · exact Or.inl h0
        · right; rw [e2 _ _ (by omega)]; exact h0
      · rcases Nat.eq_zero_or_pos r with h0 | h0
        · exact Or.inl h0
        · right; rw [e2 _ _ (by omega), hc]; exact (hup h0).2

/-- Every ready state comes from an insertion. -/
theorem unpath (r : Nat) : ∀ {T : Tab} {f : Nat → Nat → Int} {b : Int}, Inc T lam f → Ready lam f r b → ∃ p f0 a, Inc p lam f0 ∧ 0 < a ∧
    ∃ pre, ∀ fuel, path (fuel + r) (st p lam 0 a) = (path fuel (st T lam r b)).map (pre ++ ·) := by
  induction r with
  | zero =>
    intro T f b h hr
    exact ⟨T, f, b, h, hr.pos, [], fun fuel => by simp⟩
  | succ r ih =>
    intro T f b h hr
    obtain ⟨T0, f0, a, k, h1, h2, h3, h4, h5, h6⟩ := unstep h hr
    obtain ⟨p, g, a', g1, g2, pre, g3⟩ := ih h1 h2
    refine ⟨p, g, a', g1, g2, pre ++ [(st T lam (r + 1) b, (r + 1, k + 1))], fun fuel => ?_⟩
    rw [show fuel + (r + 1) = (fuel + 1) + r by omega, g3 (fuel + 1), path, next_st h1 h2, rowTransition_st h1 r a h3,
      if_neg (by omega), transitionR23_eq h1 h2 h3 h4, h5, h6]
    simp only [Option.map_some]
    rw [Option.map_map]
    congr 1
    funext l
    simp

/-- The way back from a final state, given where the last number was recorded. -/
theorem unfinal {p' : Tab} {lam lam' : Nat → Nat} {F : Nat → Nat → Int} {i j : Nat} (h : Inc p' lam' F) (hi : 1 ≤ i) (hj : 1 ≤ j)
    (hji : lam' i = j) (hb : lam' (i + 1) < j)
    (hl : (∀ x, lam x = if x = i then j - 1 else lam' x) ∨ (∀ x, lam x = lam' x)) :
    ∃ Tc fc R c, Inc Tc lam fc ∧ Ready lam fc R c ∧ Cnt lam fc (R + 1) c (lam (R + 1)) ∧
      nextT Tc fc R (lam (R + 1)) c = p' ∧ recordBox p' (R + 1, lam (R + 1) + 1) = some (i, j) := by
  rcases hl with hl | hl
  · obtain ⟨R, rfl⟩ : ∃ R, i = R + 1 := ⟨i - 1, by omega⟩
    obtain ⟨m, rfl⟩ : ∃ m, j = m + 1 := ⟨j - 1, by omega⟩
    have el : lam (R + 1) = m := by rw [hl, if_pos rfl]; omega
    have el' : ∀ x, x ≠ R + 1 → lam x = lam' x := fun x hx => by rw [hl, if_neg hx]
    have hle : ∀ x, lam x ≤ lam' x := fun x => by
      by_cases hx : x = R + 1
      · subst hx; omega
      · rw [el' x hx]
    have hinc : Inc (p'.del (R + 1, m + 1)) lam F := by
      constructor
      · intro x y
        rw [get?_del]
        by_cases hc : x = R + 1 ∧ y = m + 1
        · rw [if_pos (by rw [hc.1, hc.2]), if_neg (by rw [hc.1, hc.2]; omega)]
        · rw [if_neg (by rw [Prod.mk.injEq]; exact hc), h.get]
          by_cases hx : x = R + 1
          · subst hx
            simp only [el, hji]
            congr 1
            apply propext
            omega
          · rw [el' x hx]
      · intro x hx
        have := h.anti x hx
        by_cases hx1 : x = R + 1
        · subst hx1; rw [el, el' _ (by omega)]; omega
        · rw [el' x hx1]; exact le_trans (hle _) this
      · intro x y h1 h2 h3; exact h.row x y h1 h2 (le_trans h3 (hle _))
      · intro x y h1 h2 h3; exact h.col x y h1 h2 (le_trans h3 (hle _))
      · intro x y h1 h2 h3; exact h.pos x y h1 h2 (le_trans h3 (hle _))
    obtain ⟨c, hc⟩ : ∃ c, c = F (R + 1) (m + 1) := ⟨_, rfl⟩
    have hup : 1 ≤ R → m + 1 ≤ lam R ∧ F R (m + 1) < c := fun h1 =>
      ⟨by rw [el' R (by omega), ← hji]; exact h.anti R h1, by rw [hc]; exact h.col R (m + 1) h1 (by omega) (by omega)⟩
    have hcnt : Cnt lam F (R + 1) c m := by
      refine ⟨by omega, fun y h1 h2 => ?_, fun hh => by omega⟩
      have := h.rowLe (i := R + 1) (j := y) (j' := m + 1) (by omega) h1 (by omega) (by omega)
      omega
    have hready : Ready lam F R c := ready_of hinc (by rw [hc]; exact h.pos _ _ (by omega) (by omega) (by omega)) hcnt
      (fun h1 => ⟨(hup h1).1, le_of_lt (hup h1).2⟩) (fun h1 => by
        have h3 := h.rowLe (i := R) (j := 1) (j' := m + 1) h1 (le_refl _) (by omega) (le_trans (hup h1).1 (hle R))
        have := (hup h1).2
        omega)
    refine ⟨_, F, R, c, hinc, hready, by rw [el]; exact hcnt, ?_, ?_⟩
    · rw [el, nextT, if_pos]
      · apply Tab.ext_get?
        intro x
        rw [get?_set, get?_del]
        by_cases hx : x = (R + 1, m + 1)
        · rw [if_pos hx, hx, hc]; exact (h.get_some (by omega) (by omega) (by omega)).symm
        · rw [if_neg hx, if_neg hx]
      · refine ⟨?_, ?_⟩
        · rcases Nat.eq_zero_or_pos m with h0 | h0
          · exact Or.inl h0
          · right; rw [hc]; exact h.row (R + 1) m (by omega) h0 (by omega)
        · rcases Nat.eq_zero_or_pos R with h0 | h0
          · exact Or.inl h0
          · right; exact (hup h0).2
    · rw [el]
      exact recordBox_new (by rw [h.has_iff]; omega)
  · have el : lam = lam' := funext hl
    subst el
    obtain ⟨R, hR1, hR2, hR3⟩ : ∃ R, R + 1 ≤ i ∧ lam (R + 1) = j ∧ (1 ≤ R → j + 1 ≤ lam R) := by
      clear hl hb
      induction i with
      | zero => omega
      | succ i ih =>
        rcases Nat.eq_zero_or_pos i with h0 | h0
        · exact ⟨0, by omega, by rw [← hji, h0], by omega⟩
        · have h1 := h.anti i h0
          by_cases hc : lam i = j
          · obtain ⟨R, r1, r2, r3⟩ := ih h0 hc
            exact ⟨R, by omega, r2, r3⟩
          · exact ⟨i, le_refl _, hji, by omega⟩
    obtain ⟨v, hv⟩ : ∃ v : Int, v = if R = 0 then 0 else F R (j + 1) := ⟨_, rfl⟩
    obtain ⟨c, hc⟩ : ∃ c : Int, c = max (F (R + 1) j) v := ⟨_, rfl⟩
    have hpos := h.pos (R + 1) j (by omega) hj (by omega)
    have hcnt : Cnt lam F (R + 1) c j := by
      refine ⟨by omega, fun y h1 h2 => ?_, fun hh => by omega⟩
      have := h.rowLe (i := R + 1) (j := y) (j' := j) (by omega) h1 h2 (by omega)
      omega
    have hready : Ready lam F R c := ready_of h (by omega) hcnt
      (fun h1 => ⟨hR3 h1, by rw [if_neg (by omega)] at hv; omega⟩) (fun h1 => by
        have h3 := h.col R 1 h1 (le_refl _) (by omega)
        have h4 := h.rowLe (i := R + 1) (j := 1) (j' := j) (by omega) (le_refl _) hj (by omega)
        omega)
    refine ⟨p', F, R, c, h, hready, by rw [hR2]; exact hcnt, ?_, ?_⟩
    · rw [hR2, nextT, if_neg]
      rintro ⟨h1, h2⟩
      rcases h1 with h1 | h1
      · omega
      · rcases h2 with h2 | h2
        · rw [if_pos h2] at hv; omega
        · by_cases h0 : R = 0
          · rw [if_pos h0] at hv; omega
          · rw [if_neg h0] at hv; omega
    · rw [hR2]
      exact recordBox_old h hR2.symm hj hR1 (by omega) hb

/-- Taking out the largest number of a standard set-valued tableau. -/
theorem QInv.unadd {q' : Tab} {lam' : Nat → Nat} {N : Nat} (h : QInv q' lam' (N + 1)) : ∃ q lam i j, QInv q lam N ∧
    q' = q.add (i, j) ((N : Int) + 1) ∧ 1 ≤ i ∧ 1 ≤ j ∧ j ≤ lam' i ∧ ¬ j + 1 ≤ lam' i ∧ lam' (i + 1) < j ∧
    ((∀ x, lam x = if x = i then j - 1 else lam' x) ∨ (∀ x, lam x = lam' x)) := by
  obtain ⟨⟨i, j⟩, hb⟩ := (h.mem ((N : Int) + 1)).2 (by push_cast; omega)
  obtain ⟨hi, hj, hji⟩ := (h.shape i j).1 (has_of_mem_ent hb)
  have hmax : ∀ c x, x ∈ q'.ent c → x ≤ (N : Int) + 1 := fun c x hx => by
    have := ((h.mem x).1 ⟨c, hx⟩).2; push_cast at this; exact this
  have hne : ∀ c, q'.has c = true → ∃ x, x ∈ q'.ent c := by
    intro c hc
    obtain ⟨s, hs⟩ := has_iff.1 hc
    obtain ⟨x, s', rfl⟩ := List.exists_cons_of_ne_nil (h.nonempty c s hs)
    exact ⟨x, by rw [ent, hs]; simp⟩
  have hright : ¬ j + 1 ≤ lam' i := by
    intro hc
    obtain ⟨x, hx⟩ := hne (i, j + 1) ((h.shape _ _).2 ⟨hi, by omega, hc⟩)
    have := h.row i j _ _ hb hx
    have := hmax _ _ hx
    omega
  have hbelow : ¬ j ≤ lam' (i + 1) := by
    intro hc
    obtain ⟨x, hx⟩ := hne (i + 1, j) ((h.shape _ _).2 ⟨by omega, hj, hc⟩)
    have := h.col i j _ _ hb hx
    have := hmax _ _ hx
    omega
  -- the entries of the box, but for the last one
  obtain ⟨s, hs⟩ : ∃ s, q'.ent (i, j) = s ++ [(N : Int) + 1] := by
    obtain ⟨s, t, hst⟩ := List.append_of_mem hb
    have hso := h.sorted (i, j)
    rw [hst] at hso
    cases t with
    | nil => exact ⟨s, hst⟩
    | cons x t =>
      have h1 := (List.pairwise_append.1 hso).2.1
      rw [List.pairwise_cons] at h1
      have h2 := h1.1 x (by simp)
      have := hmax (i, j) x (by rw [hst]; simp)
      omega
  have hget : q'.get? (i, j) = some (s ++ [(N : Int) + 1]) := by
    obtain ⟨t, ht⟩ := has_iff.1 (has_of_mem_ent hb)
    rw [ht, ← hs, ent, ht]; rfl
  have hsort := h.sorted (i, j)
  rw [hs, List.pairwise_append] at hsort
  have hNs : ∀ x ∈ s, x < (N : Int) + 1 := fun x hx => hsort.2.2 x hx _ (by simp)
  -- the tableau without it
  obtain ⟨q, hq⟩ : ∃ q : Tab, ∀ c, q.get? c = if c = (i, j) then (if s = [] then none else some s) else q'.get? c := by
    by_cases h0 : s = []
    · exact ⟨q'.del (i, j), fun c => by rw [get?_del, if_pos h0]⟩
    · exact ⟨q'.set (i, j) s, fun c => by rw [get?_set, if_neg h0]⟩
  have hent : ∀ c, q.ent c = if c = (i, j) then s else q'.ent c := by
    intro c
    rw [ent, hq]
    by_cases hc : c = (i, j)
    · rw [if_pos hc, if_pos hc]
      by_cases h0 : s = []
      · rw [if_pos h0, h0]; rfl
      · rw [if_neg h0]; rfl
    · rw [if_neg hc, if_neg hc, ent]
  have hsub : ∀ c x, x ∈ q.ent c → x ∈ q'.ent c := by
    intro c x hx
    rw [hent] at hx
    split at hx
    · rename_i hc; rw [hc, hs]; exact List.mem_append_left _ hx
    · exact hx
  have hle : ∀ c x, x ∈ q.ent c → x ≤ (N : Int) := by
    intro c x hx
    by_cases hc : c = (i, j)
    · rw [hent, if_pos hc] at hx
      have := hNs x hx
      omega
    · have h1 := hsub c x hx
      have h2 := hmax c x h1
      have : x ≠ (N : Int) + 1 := by rintro rfl; exact hc (h.uniq _ _ _ h1 hb)
      omega
  have hkeep : ∀ c x, x ∈ q'.ent c → x ≤ (N : Int) → x ∈ q.ent c := by
    intro c x hx hxN
    rw [hent]
    split
    · rename_i hc
      rw [hc, hs, List.mem_append, List.mem_singleton] at hx
      rcases hx with hx | hx
      · exact hx
      · omega
    · exact hx
  obtain ⟨lam, hlam⟩ : ∃ lam : Nat → Nat, lam = fun x => if s = [] ∧ x = i then j - 1 else lam' x := ⟨_, rfl⟩
  refine ⟨q, lam, i, j, ?_, ?_, hi, hj, hji, hright, by omega, ?_⟩
  · constructor
    · intro x y
      rw [has, hq]
      by_cases hc : (x, y) = (i, j)
      · rw [if_pos hc]
        cases hc
        by_cases h0 : s = []
        · simp [h0, hlam]; omega
        · simp [h0, hlam, hi, hj, hji]
      · rw [if_neg hc, ← has, h.shape]
        rw [Prod.mk.injEq] at hc
        simp only [hlam]
        by_cases h0 : s = [] ∧ x = i
        · rw [if_pos h0]; rw [h0.2] at hc ⊢; omega
        · rw [if_neg h0]
    · intro c
      rw [hent]
      split
      · exact hsort.1
      · exact h.sorted c
    · intro c t ht
      rw [hq] at ht
      split at ht
      · split at ht
        · cases ht
        · cases ht; assumption
      · exact h.nonempty c t ht
    · intro x
      constructor
      · rintro ⟨c, hx⟩
        exact ⟨((h.mem x).1 ⟨c, hsub c x hx⟩).1, hle c x hx⟩
      · rintro ⟨h1, h2⟩
        obtain ⟨c, hc⟩ := (h.mem x).2 ⟨h1, by push_cast; omega⟩
        exact ⟨c, hkeep c x hc h2⟩
    · intro c c' x h1 h2; exact h.uniq c c' x (hsub _ _ h1) (hsub _ _ h2)
    · intro x y u v h1 h2; exact h.row x y u v (hsub _ _ h1) (hsub _ _ h2)
    · intro x y u v h1 h2; exact h.col x y u v (hsub _ _ h1) (hsub _ _ h2)
  · apply Tab.ext_get?
    intro c
    rw [Tab.get?_add, hent, if_pos rfl]
    by_cases hc : c = (i, j)
    · rw [if_pos hc, hc, hget, sortInts_append hsort.1 hNs]
    · rw [if_neg hc, hq, if_neg hc]
  · by_cases h0 : s = []
    · left; intro x; rw [hlam]; simp [h0]
    · right; intro x; rw [hlam]; simp [h0]

/-- Every pair of tableaux with at least one number comes from an insertion step. -/
theorem push_surj {p' q' : Tab} {N : Nat} (hg : Good p' q' (N + 1)) :
    ∃ p q a, Good p q N ∧ 0 < a ∧ push p q a = some (p', q') := by
  obtain ⟨lam', F, hp', hq'⟩ := hg
  obtain ⟨q, lam, i, j, hq, rfl, hi, hj, hji, hr, hb, hl⟩ := hq'.unadd
  obtain ⟨Tc, fc, R, c, h1, h2, h3, h4, h5⟩ := unfinal hp' hi hj (by omega) hb hl
  obtain ⟨p, f, a, hp, ha, pre, h6⟩ := unpath R h1 h2
  refine ⟨p, q, a, ⟨lam, f, hp, hq⟩, ha, ?_⟩
  have hmk : mkState p none = some ⟨p, none⟩ := rfl
  have hadd : (⟨p, none⟩ : HState).add a = some (st p lam 0 a) := by
    simp only [HState.add]
    rw [hp.maxColumn, add_of_none (hp.outer_none 0)]
    exact mkState_st hp (Or.inl rfl)
  have hR : R ≤ p.maxRow + 1 := by
    rcases Nat.eq_zero_or_pos R with h00 | h00
    · omega
    · rcases h2.row_pos with h0 | h0
      · omega
      · have := hp.le_maxRow h00 h0
        omega
  have hpath : path (p.maxRow + 3) (st p lam 0 a) = some (pre ++ [(⟨p', none⟩, (R + 1, lam (R + 1) + 1))]) := by
    rw [show p.maxRow + 3 = ((p.maxRow + 1 - R) + 2) + R by omega, h6, path_final h1 h2 h3, h4]
    rfl
  have hins : (⟨p, none⟩ : HState).insert (p.maxRow + 3) a = some (⟨p', none⟩,
      pre.map Prod.snd ++ [(R + 1, lam (R + 1) + 1)]) := by
    rw [HState.insert, hadd]
    simp only
    rw [hpath]
    simp
  rw [push, hq.last, hmk]
  simp only
  rw [hins]
  simp only [List.getLast?_append, List.getLast?_singleton, Option.some_or]
  rw [h5]
  simp only [Option.map_some, Int.natAbs_natCast]
  rw [Int.add_comm]

theorem good_zero {p q : Tab} (hg : Good p q 0) : p = Tab.empty ∧ q = Tab.empty := by
  obtain ⟨lam, f, hp, hq⟩ := hg
  have hno : ∀ i j, ¬ (1 ≤ i ∧ 1 ≤ j ∧ j ≤ lam i) := by
    intro i j hc
    obtain ⟨s, hs⟩ := has_iff.1 ((hq.shape i j).2 hc)
    obtain ⟨x, s', rfl⟩ := List.exists_cons_of_ne_nil (hq.nonempty _ s hs)
    have := (hq.mem x).1 ⟨(i, j), by rw [ent, hs]; simp⟩
    simp only [Nat.cast_zero] at this
    omega
  refine ⟨Tab.ext_get? fun c => ?_, Tab.ext_get? fun c => ?_⟩
  · rw [hp.get c.1 c.2, if_neg (hno _ _), get?_empty]
  · rw [get?_empty]
    cases hg : q.get? c with
    | none => rfl
    | some s =>
      exact absurd ((hq.shape c.1 c.2).1 (by rw [has]; simp [hg])) (hno _ _)

/-- Every pair of tableaux is the result of inserting a word. -/
theorem word_exists (N : Nat) : ∀ {p q : Tab}, Good p q N → ∃ w lam f β, w.length = N ∧ (∀ a ∈ w, 0 < a) ∧ Done w p q lam f β := by
  induction N with
  | zero =>
    intro p q hg
    obtain ⟨rfl, rfl⟩ := good_zero hg
    obtain ⟨p, q, lam, f, β, hd⟩ := done_exists [] (by simp)
    have h := hd.run
    simp only [pushAll, List.foldlM_nil] at h
    cases h
    exact ⟨[], lam, f, β, rfl, by simp, hd⟩
  | succ N ih =>
    intro p' q' hg
    obtain ⟨p, q, a, h1, h2, h3⟩ := push_surj hg
    obtain ⟨w, lam, f, β, e1, e2, hd⟩ := ih h1
    have hpos : ∀ x ∈ w ++ [a], 0 < x := by
      intro x hx
      rw [List.mem_append, List.mem_singleton] at hx
      rcases hx with hx | rfl
      · exact e2 x hx
      · exact h2
    obtain ⟨p1, q1, lam1, f1, β1, hd1⟩ := done_exists (w ++ [a]) hpos
    have h := hd1.run
    have h0 := hd.run
    unfold pushAll at h h0
    rw [List.foldlM_append, h0] at h
    simp only [Option.bind_eq_bind, Option.bind_some, List.foldlM_cons, List.foldlM_nil, h3] at h
    cases h
    exact ⟨w ++ [a], lam1, f1, β1, by simp [e1], hpos, hd1⟩

/-! ## Order of the numbers of a standard tableau -/

theorem QInv.ent_ne {Q : Tab} {lam : Nat → Nat} {N : Nat} (h : QInv Q lam N) {i j : Nat} (hi : 1 ≤ i) (hj : 1 ≤ j) (hl : j ≤ lam i) :
    ∃ x, x ∈ Q.ent (i, j) := by
  obtain ⟨s, hs⟩ := has_iff.1 ((h.shape i j).2 ⟨hi, hj, hl⟩)
  obtain ⟨x, s', rfl⟩ := List.exists_cons_of_ne_nil (h.nonempty _ s hs)
  exact ⟨x, by rw [ent, hs]; simp⟩

theorem QInv.ent_box {Q : Tab} {lam : Nat → Nat} {N : Nat} (h : QInv Q lam N) {i j : Nat} {x : Int} (hx : x ∈ Q.ent (i, j)) :
    1 ≤ i ∧ 1 ≤ j ∧ j ≤ lam i := (h.shape i j).1 (has_of_mem_ent hx)

theorem QInv.rowChain {Q : Tab} {lam : Nat → Nat} {N : Nat} (h : QInv Q lam N) {i j : Nat} {x : Int} (hx : x ∈ Q.ent (i, j)) :
    ∀ d y, y ∈ Q.ent (i, j + d + 1) → x < y := by
  intro d
  induction d with
  | zero => intro y hy; exact h.row i j x y hx hy
  | succ d ih =>
    intro y hy
    obtain ⟨h1, h2, h3⟩ := h.ent_box hy
    obtain ⟨z, hz⟩ := h.ent_ne (i := i) (j := j + d + 1) h1 (by omega) (by omega)
    exact lt_trans (ih z hz) (h.row i (j + d + 1) z y hz hy)

theorem QInv.colChain {Q : Tab} {lam : Nat → Nat} {N : Nat} (h : QInv Q lam N) (hl : ∀ i, 1 ≤ i → lam (i + 1) ≤ lam i) {i j : Nat} {x : Int}
    (hx : x ∈ Q.ent (i, j)) : ∀ d y, y ∈ Q.ent (i + d + 1, j) → x < y := by
  intro d
  induction d with
  | zero => intro y hy; exact h.col i j x y hx hy
  | succ d ih =>
    intro y hy
    obtain ⟨h1, h2, h3⟩ := h.ent_box hy
    obtain ⟨z, hz⟩ := h.ent_ne (i := i + d + 1) (j := j) (by omega) h2 (le_trans h3 (hl (i + d + 1) (by omega)))
    exact lt_trans (ih z hz) (h.col (i + d + 1) j z y hz hy)

/-- Consecutive numbers are never in strictly south-eastern position. -/
theorem QInv.not_se {Q : Tab} {lam : Nat → Nat} {N : Nat} (h : QInv Q lam N) (hl : ∀ i, 1 ≤ i → lam (i + 1) ≤ lam i) {i j i' j' : Nat} {x : Int}
    (hx : x ∈ Q.ent (i, j)) (hy : x + 1 ∈ Q.ent (i', j')) (hi : i < i') (hj : j < j') : False := by
  obtain ⟨h1, h2, h3⟩ := h.ent_box hx
  obtain ⟨h1', h2', h3'⟩ := h.ent_box hy
  have hle : ∀ d, lam (i + d) ≤ lam i := by
    intro d
    induction d with
    | zero => exact le_refl _
    | succ d ih => exact le_trans (hl (i + d) (by omega)) ih
  obtain ⟨d, rfl⟩ : ∃ d, i' = i + d + 1 := ⟨i' - i - 1, by omega⟩
  obtain ⟨e, rfl⟩ : ∃ e, j' = j + e + 1 := ⟨j' - j - 1, by omega⟩
  obtain ⟨z, hz⟩ := h.ent_ne (i := i) (j := j + e + 1) h1 (by omega) (le_trans h3' (hle (d + 1)))
  have e1 := h.rowChain hx e z hz
  have e2 := h.colChain hl hz d _ hy
  omega

theorem QInv.transpose {Q : Tab} {lam lam' : Nat → Nat} {N : Nat} (h : QInv Q lam N)
    (hl : ∀ i j, (1 ≤ i ∧ 1 ≤ j ∧ j ≤ lam' i) ↔ (1 ≤ j ∧ 1 ≤ i ∧ i ≤ lam j)) : QInv Q.transpose lam' N := by
  have hent : ∀ i j, Q.transpose.ent (i, j) = Q.ent (j, i) := fun i j => by rw [ent, get?_transpose, ent]
  constructor
  · intro i j; rw [has, get?_transpose, ← has, h.shape, hl]
  · rintro ⟨i, j⟩; rw [hent]; exact h.sorted _
  · rintro ⟨i, j⟩ s hs; rw [get?_transpose] at hs; exact h.nonempty _ s hs
  · intro x
    rw [← h.mem]
    constructor
    · rintro ⟨⟨i, j⟩, hx⟩; exact ⟨(j, i), by rw [← hent]; exact hx⟩
    · rintro ⟨⟨i, j⟩, hx⟩; exact ⟨(j, i), by rw [hent]; exact hx⟩
  · rintro ⟨i, j⟩ ⟨i', j'⟩ x h1 h2
    rw [hent] at h1 h2
    have := h.uniq _ _ x h1 h2
    simp only [Prod.mk.injEq] at this ⊢
    exact ⟨this.2, this.1⟩
  · intro i j x y h1 h2
    rw [hent] at h1 h2
    exact h.col j i x y h1 h2
  · intro i j x y h1 h2
    rw [hent] at h1 h2
    exact h.row j i x y h1 h2

/-! ## Standardization of a semistandard tableau -/

theorem boxed_filter (T : Tab) (b : Nat × Nat) : ((boxed T).filter (fun e => decide (e.2 = b))).map Prod.fst = T.ent b := by
  have key : ∀ l : List ((Nat × Nat) × List Int), (l.map Prod.fst).Nodup →
      ((l.flatMap (fun p => p.2.map (fun v => (v, p.1)))).filter (fun e : Int × Nat × Nat => decide (e.2 = b))).map Prod.fst =
        (Dict.lookup b l).getD [] := by
    intro l
    induction l with
    | nil => intro _; rfl
    | cons p l ih =>
      intro hnd
      rw [List.map_cons, List.nodup_cons] at hnd
      rw [List.flatMap_cons, List.filter_append, List.map_append, ih hnd.2]
      obtain ⟨c, s⟩ := p
      rw [List.filter_map]
      by_cases hc : c = b
      · subst hc
        have h0 : Dict.lookup c l = none := by
          cases hg : Dict.lookup c l with
          | none => rfl
          | some t => exact absurd (List.mem_map.2 ⟨(c, t), Dict.lookup_mem hg, rfl⟩) hnd.1
        simp [Dict.lookup, h0, Function.comp_def]
      · simp [Dict.lookup, hc, Function.comp_def]
  exact key T.items T.keys_nodup

/-- Semistandard tableaux with tuples of positive numbers, as needed for standardization. -/
structure Semi (Q : Tab) (lam : Nat → Nat) : Prop where
  shape : ∀ i j, Q.has (i, j) = true ↔ 1 ≤ i ∧ 1 ≤ j ∧ j ≤ lam i
  anti : ∀ i, 1 ≤ i → lam (i + 1) ≤ lam i
  sorted : ∀ b, (Q.ent b).Pairwise (· ≤ ·)
  nonempty : ∀ b s, Q.get? b = some s → s ≠ []
  pos : ∀ b x, x ∈ Q.ent b → 0 < x
  row : ∀ i j x y, x ∈ Q.ent (i, j) → y ∈ Q.ent (i, j + 1) → x ≤ y
  col : ∀ i j x y, x ∈ Q.ent (i, j) → y ∈ Q.ent (i + 1, j) → x < y

theorem Semi.colChain {Q : Tab} {lam : Nat → Nat} (h : Semi Q lam) {i j : Nat} {x : Int} (hx : x ∈ Q.ent (i, j)) :
    ∀ d y, y ∈ Q.ent (i + d + 1, j) → x < y := by
  intro d
  induction d with
  | zero => intro y hy; exact h.col i j x y hx hy
  | succ d ih =>
    intro y hy
    obtain ⟨h1, h2, h3⟩ := (h.shape _ _).1 (has_of_mem_ent hy)
    obtain ⟨s, hs⟩ := has_iff.1 ((h.shape (i + d + 1) j).2 ⟨by omega, h2, le_trans h3 (h.anti (i + d + 1) (by omega))⟩)
    obtain ⟨z, s', rfl⟩ := List.exists_cons_of_ne_nil (h.nonempty _ s hs)
    have hz : z ∈ Q.ent (i + d + 1, j) := by rw [ent, hs]; simp
    exact lt_trans (ih z hz) (h.col (i + d + 1) j z y hz hy)

theorem Semi.standardize {Q : Tab} {lam : Nat → Nat} (h : Semi Q lam) : ∃ (rec : List Int) (β : Nat → Nat × Nat),
    Std Q.standardize β rec.length ∧ QInv Q.standardize lam rec.length ∧
    Compat β (fun k : Nat => rec.getD (((k : Int) + 1).toNat - 1) 0) rec.length ∧
    Q = Q.standardize.apply (fun x => rec.getD (x.toNat - 1) 0) ∧
    (∀ k, k < rec.length → rec.getD k 0 ∈ Q.ent (β k)) ∧
    (∀ b, (Q.ent b).Nodup → ∀ k k', k < k' → k' < rec.length → β k = b → β k' = b → rec.getD k 0 ≠ rec.getD k' 0) := by
  obtain ⟨L, hL⟩ : ∃ L, L = Q.stdEntries := ⟨_, rfl⟩
  have hperm : L.Perm (boxed Q) := by rw [hL]; exact List.perm_insertionSort _ _
  have hsort : L.Pairwise (fun e e' => stdLe e e' = true) := by
    rw [hL]; exact List.pairwise_insertionSort _ _
  obtain ⟨v, hv⟩ : ∃ v : Nat → Int, v = fun k => if k < L.length then (L.getD k (1, 0, 0)).1 else 1 := ⟨_, rfl⟩
  obtain ⟨β, hβ⟩ : ∃ β : Nat → Nat × Nat, β = fun k => (L.getD k (1, 0, 0)).2 := ⟨_, rfl⟩
  have hLv : ∀ k, (hk : k < L.length) → L[k] = (v k, β k) := by
    intro k hk
    rw [hv, hβ]
    simp only [if_pos hk, List.getD_eq_getElem _ _ hk]
  have hLr : L = (List.range' 0 L.length).map (fun k => (v k, β k)) := by
    apply List.ext_getElem
    · simp
    · intro k h1 h2
      rw [hLv k h1]
      simp
  have hmem : ∀ k, k < L.length → v k ∈ Q.ent (β k) := by
    intro k hk
    rw [← mem_boxed, ← hLv k hk]
    exact hperm.mem_iff.1 (List.getElem_mem hk)
  have hvpos : ∀ k, 0 < v k := by
    intro k
    by_cases hk : k < L.length
    · exact h.pos _ _ (hmem k hk)
    · rw [hv]; simp [hk]
  have hstd : Std Q.standardize β L.length := by
    have := stdLoop_std (β := β) hvpos L.length 0 Tab.empty std_empty
    rw [← hLr, Nat.zero_add, hL] at this
    rw [hL]
    exact this
  obtain ⟨rec, hrec⟩ : ∃ rec : List Int, rec = (List.range L.length).map v := ⟨_, rfl⟩
  have hlen : rec.length = L.length := by rw [hrec]; simp
  have hget : ∀ k, k < L.length → rec.getD k 0 = v k := by
    intro k hk
    rw [List.getD_eq_getElem _ _ (by omega)]
    simp [hrec]
  have e : ∀ k : Nat, ((k : Int) + 1).toNat - 1 = k := by intro k; omega
  have hcompat : Compat β (fun k : Nat => rec.getD (((k : Int) + 1).toNat - 1) 0) L.length := by
    simp only [e]
    refine ⟨fun k hk => by dsimp only; rw [hget k hk]; exact hvpos k, fun k k' hkk hk' => ?_⟩
    dsimp only
    rw [hget k (by omega), hget k' hk']
    have h1 := List.pairwise_iff_getElem.1 hsort k k' (by omega) hk' hkk
    rw [hLv k (by omega), hLv k' hk'] at h1
    have h2 : v k < v k' ∨ (v k = v k' ∧ (β k).2 ≤ (β k').2) := by
      rw [stdLe, decide_eq_true_eq, stdKey_pos (hvpos k), stdKey_pos (hvpos k')] at h1
      simp only at h1
      omega
    rcases h2 with h2 | ⟨h2, h3⟩
    · exact Or.inl h2
    · refine Or.inr ⟨h2, ?_⟩
      rcases lt_or_eq_of_le h3 with h3 | h3
      · exact Or.inl h3
      · right
        have m1 := hmem k (by omega)
        have m2 := hmem k' hk'
        rw [← h2] at m2
        rcases hb : β k with ⟨i, j⟩
        rcases hb' : β k' with ⟨i', j'⟩
        rw [hb] at m1 h3
        rw [hb'] at m2 h3
        simp only at h3
        subst h3
        rcases lt_trichotomy i i' with hc | hc | hc
        · obtain ⟨d, rfl⟩ : ∃ d, i' = i + d + 1 := ⟨i' - i - 1, by omega⟩
          exact absurd (h.colChain m1 d _ m2) (lt_irrefl _)
        · rw [hc]
        · obtain ⟨d, rfl⟩ : ∃ d, i = i' + d + 1 := ⟨i - i' - 1, by omega⟩
          exact absurd (h.colChain m2 d _ m1) (lt_irrefl _)
  have hentP : ∀ b, (Q.ent b).Perm ((boxNums β L.length b).map (fun x => rec.getD (x.toNat - 1) 0)) := by
    intro b
    rw [← boxed_filter]
    refine ((hperm.symm.filter _).map _).trans ?_
    conv_lhs => rw [hLr]
    rw [List.filter_map, List.map_map, ← List.range_eq_range', boxNums, List.map_map]
    apply List.Perm.of_eq
    apply List.map_congr_left
    intro k hk
    rw [List.mem_filter, List.mem_range] at hk
    simp only [Function.comp_apply, e]
    exact (hget k hk.1).symm
  have hboxNil : ∀ b, boxNums β L.length b = [] ↔ Q.get? b = none := by
    intro b
    have h1 := (hentP b).length_eq
    rw [List.length_map] at h1
    rw [← List.length_eq_zero_iff, ← h1, List.length_eq_zero_iff, ent]
    cases hg : Q.get? b with
    | none => simp
    | some s => simpa using h.nonempty b s hg
  have hhas : ∀ b, Q.standardize.has b = Q.has b := by
    intro b
    rw [has, hstd b]
    by_cases h0 : boxNums β L.length b = []
    · rw [if_pos h0, has, (hboxNil b).1 h0]
    · rw [if_neg h0, has]
      have := (not_congr (hboxNil b)).1 h0
      cases hg : Q.get? b with
      | none => exact absurd hg this
      | some s => rfl
  refine ⟨rec, β, by rw [hlen]; exact hstd, ?_, by rw [hlen]; exact hcompat, ?_, ?_, ?_⟩
  · rw [hlen]
    have hord : ∀ k k', k < L.length → k' < L.length → (v k < v k' ∨ (v k ≤ v k' ∧ (β k).2 < (β k').2)) → k < k' := by
      intro k k' hk hk' hh
      by_contra hc
      rcases Nat.eq_or_lt_of_le (Nat.le_of_not_lt hc) with h1 | h1
      · subst h1; omega
      · have h2 := hcompat.2 k' k h1 hk
        simp only [e] at h2
        rw [hget k hk, hget k' hk'] at h2
        rcases h2 with h2 | ⟨h2, h3 | h3⟩
        · omega
        · omega
        · rw [h3] at hh; omega
    constructor
    · intro i j; rw [hhas, h.shape]
    · intro b; rw [hstd.ent]; exact boxNums_sorted _ _
    · intro b s hs
      rw [hstd b] at hs
      split at hs
      · cases hs
      · cases hs; assumption
    · intro x
      constructor
      · rintro ⟨b, hb⟩
        rw [hstd.ent, mem_boxNums] at hb
        obtain ⟨k, h1, h2, h3⟩ := hb
        omega
      · rintro ⟨h1, h2⟩
        refine ⟨β (x.toNat - 1), ?_⟩
        rw [hstd.ent, mem_boxNums]
        exact ⟨x.toNat - 1, by omega, rfl, by omega⟩
    · intro b b' x h1 h2
      rw [hstd.ent, mem_boxNums] at h1 h2
      obtain ⟨k, k1, k2, k3⟩ := h1
      obtain ⟨k', k1', k2', k3'⟩ := h2
      have : k = k' := by omega
      rw [← k2, ← k2', this]
    · intro i j x y h1 h2
      rw [hstd.ent, mem_boxNums] at h1 h2
      obtain ⟨k, k1, k2, rfl⟩ := h1
      obtain ⟨k', k1', k2', rfl⟩ := h2
      have m1 := hmem k k1
      have m2 := hmem k' k1'
      rw [k2] at m1
      rw [k2'] at m2
      have := hord k k' k1 k1' (Or.inr ⟨h.row i j _ _ m1 m2, by rw [k2, k2']; simp⟩)
      omega
    · intro i j x y h1 h2
      rw [hstd.ent, mem_boxNums] at h1 h2
      obtain ⟨k, k1, k2, rfl⟩ := h1
      obtain ⟨k', k1', k2', rfl⟩ := h2
      have m1 := hmem k k1
      have m2 := hmem k' k1'
      rw [k2] at m1
      rw [k2'] at m2
      have := hord k k' k1 k1' (Or.inl (h.col i j _ _ m1 m2))
      omega
  · apply Tab.ext_get?
    intro b
    rw [get?_apply, hstd b]
    by_cases h0 : boxNums β L.length b = []
    · rw [if_pos h0, (hboxNil b).1 h0]; rfl
    · rw [if_neg h0, Option.map_some]
      have h1 := (not_congr (hboxNil b)).1 h0
      cases hg : Q.get? b with
      | none => exact absurd hg h1
      | some s =>
        have he : Q.ent b = s := by rw [ent, hg]; rfl
        congr 1
        have hp := hentP b
        have hs := h.sorted b
        rw [he] at hp hs
        refine List.Perm.eq_of_pairwise (le := (· ≤ ·)) (fun a b _ _ h1 h2 => le_antisymm h1 h2) hs
          (List.pairwise_insertionSort _ _) (hp.trans (List.perm_insertionSort _ _).symm)
  · intro k hk
    rw [hget k (by omega)]
    exact hmem k (by omega)
  · intro b hnd k k' hkk hk' hb hb' heq
    have hnd' := (hentP b).nodup_iff.1 hnd
    have := List.inj_on_of_nodup_map hnd' (mem_boxNums.2 ⟨k, by omega, hb, rfl⟩) (mem_boxNums.2 ⟨k', by omega, hb', rfl⟩)
      (by simp only [e]; exact heq)
    omega

end Verif.Insertion
