import Verif.Lemmas.InsertionPieri
import Verif.Spec.HeckeWords

/-! Hecke insertion does not change the class of a word in the 0-Hecke monoid. -/

namespace Verif.Insertion

open Tab Verif.Words

/-! ## Moving letters -/

theorem HeckeEquiv.left {u v : List Int} (p : List Int) (h : HeckeEquiv u v) : HeckeEquiv (p ++ u) (p ++ v) := by
  have := h.context p []
  simpa using this

theorem HeckeEquiv.right {u v : List Int} (s : List Int) (h : HeckeEquiv u v) : HeckeEquiv (u ++ s) (v ++ s) := by
  have := h.context [] s
  simpa using this

theorem HeckeEquiv.of_eq {u v : List Int} (h : u = v) : HeckeEquiv u v := h ▸ HeckeEquiv.refl u

/-- A letter moves past letters that are far away. -/
theorem HeckeEquiv.move {a : Int} : ∀ {v : List Int}, (∀ z ∈ v, z + 2 ≤ a ∨ a + 2 ≤ z) → HeckeEquiv (v ++ [a]) (a :: v)
  | [], _ => HeckeEquiv.refl _
  | z :: v, h => by
    have h1 := HeckeEquiv.left [z] (HeckeEquiv.move (a := a) (v := v) (fun y hy => h y (by simp [hy])))
    have h2 : HeckeEquiv [z, a] [a, z] := by
      rcases h z (by simp) with h0 | h0
      · exact HeckeEquiv.comm h0
      · exact (HeckeEquiv.comm h0).symm
    have h3 := HeckeEquiv.right v h2
    exact HeckeEquiv.trans (by simpa using h1) (by simpa using h3)

variable {u v x y : List Int} {a b : Int}

/-- A letter replaces the next larger one. -/
theorem row_replace (hu : ∀ z ∈ u, z < a) (hab : a < b) (hv : ∀ z ∈ v, b < z) :
    HeckeEquiv (u ++ [b] ++ v ++ [a]) ([b] ++ (u ++ [a] ++ v)) := by
  have h1 := HeckeEquiv.left (u ++ [b]) (HeckeEquiv.move (a := a) (v := v) (fun z hz => Or.inr (by have := hv z hz; omega)))
  have h2 := HeckeEquiv.right (a :: v) (HeckeEquiv.move (a := b) (v := u) (fun z hz => Or.inl (by have := hu z hz; omega)))
  exact HeckeEquiv.trans (by simpa using h1) (by simpa using h2)

/-- The letter is present already. -/
theorem row_present (hu : ∀ z ∈ u, z < a) (hab : a < b) (hv : ∀ z ∈ v, b < z) :
    HeckeEquiv (u ++ [a] ++ [b] ++ v ++ [a]) ([b] ++ (u ++ [a] ++ [b] ++ v)) := by
  have h1 := HeckeEquiv.left (u ++ [a] ++ [b]) (HeckeEquiv.move (a := a) (v := v) (fun z hz => Or.inr (by have := hv z hz; omega)))
  have h2 := HeckeEquiv.right (a :: b :: v) (HeckeEquiv.move (a := b) (v := u) (fun z hz => Or.inl (by have := hu z hz; omega)))
  have h3 : HeckeEquiv [a, b, a] [b, a, b] := by
    by_cases hb : b = a + 1
    · rw [hb]; exact HeckeEquiv.braid a
    · have hc : HeckeEquiv [a, b] [b, a] := HeckeEquiv.comm (by omega)
      have g1 := HeckeEquiv.right [a] hc
      have g2 := HeckeEquiv.left [b] (HeckeEquiv.idem a)
      have g3 := HeckeEquiv.right [b] hc
      have g4 := HeckeEquiv.left [a] (HeckeEquiv.idem b)
      -- a b a = b a a = b a = a b = a b b = b a b
      exact HeckeEquiv.trans (by simpa using g1) (HeckeEquiv.trans (by simpa using g2) (HeckeEquiv.trans hc.symm
        (HeckeEquiv.trans (by simpa using g4.symm) (by simpa using g3))))
  have h4 := HeckeEquiv.context u v h3
  exact HeckeEquiv.trans (by simpa using h1) (HeckeEquiv.trans (by simpa using h4) (by simpa using h2))

/-- The letter is present in the row above. -/
theorem row_above (hu : ∀ z ∈ u, z < a) (hab : a < b) (hx : ∀ z ∈ x, z + 2 ≤ a) :
    HeckeEquiv (u ++ [b] ++ v ++ [a] ++ (x ++ [a] ++ y)) ([b] ++ (u ++ [b] ++ v) ++ (x ++ [a] ++ y)) := by
  have h1 := HeckeEquiv.context (u ++ [b] ++ v) (a :: y) (HeckeEquiv.move (a := a) (v := x) (fun z hz => Or.inl (hx z hz)))
  have h2 := HeckeEquiv.context (u ++ [b] ++ v ++ x) y (HeckeEquiv.idem a)
  have h3 := HeckeEquiv.right (b :: v ++ x ++ a :: y) (HeckeEquiv.move (a := b) (v := u) (fun z hz => Or.inl (by have := hu z hz; omega)))
  have h4 := HeckeEquiv.context u (v ++ x ++ a :: y) (HeckeEquiv.idem b)
  exact HeckeEquiv.trans (by simpa using h1.symm) (HeckeEquiv.trans (by simpa using h2) (HeckeEquiv.trans (by simpa using h4.symm)
    (by simpa using h3)))

/-- At the end of a row, the letter is present already. -/
theorem end_present : HeckeEquiv (u ++ [a] ++ [a]) (u ++ [a]) := by
  have := HeckeEquiv.left u (HeckeEquiv.idem a)
  simpa using this

/-- At the end of a row, the letter is present in the row above. -/
theorem end_above (hx : ∀ z ∈ x, z + 2 ≤ a) : HeckeEquiv (u ++ [a] ++ (x ++ [a] ++ y)) (u ++ (x ++ [a] ++ y)) := by
  have h1 := HeckeEquiv.context u (a :: y) (HeckeEquiv.move (a := a) (v := x) (fun z hz => Or.inl (hx z hz)))
  have h2 := HeckeEquiv.context (u ++ x) y (HeckeEquiv.idem a)
  exact HeckeEquiv.trans (by simpa using h1.symm) (by simpa using h2)

/-! ## Rows -/

/-- The first `n` entries of row `i`. -/
def rowW (f : Nat → Nat → Int) (n i : Nat) : List Int := (List.range n).map (fun j => f i (j + 1))

/-- The rows `lo + n, ..., lo + 1`. -/
def rowsW (lam : Nat → Nat) (f : Nat → Nat → Int) (lo : Nat) : Nat → List Int
  | 0 => []
  | n + 1 => rowW f (lam (lo + n + 1)) (lo + n + 1) ++ rowsW lam f lo n

theorem rowsW_succ (lam : Nat → Nat) (f : Nat → Nat → Int) (lo : Nat) : ∀ n,
    rowsW lam f lo (n + 1) = rowsW lam f (lo + 1) n ++ rowW f (lam (lo + 1)) (lo + 1)
  | 0 => by simp [rowsW]
  | n + 1 => by
    rw [rowsW, rowsW_succ lam f lo n, rowsW, show lo + (n + 1) + 1 = lo + 1 + n + 1 by omega]
    simp

theorem rowW_congr {f g : Nat → Nat → Int} {n i : Nat} (h : ∀ j, 1 ≤ j → j ≤ n → f i j = g i j) : rowW f n i = rowW g n i := by
  unfold rowW
  apply List.map_congr_left
  intro j hj
  rw [List.mem_range] at hj
  exact h (j + 1) (by omega) (by omega)

theorem rowsW_congr {lam lam' : Nat → Nat} {f g : Nat → Nat → Int} {lo : Nat} : ∀ {n}, (∀ i, lo < i → i ≤ lo + n → lam i = lam' i) →
    (∀ i j, lo < i → i ≤ lo + n → f i j = g i j) → rowsW lam f lo n = rowsW lam' g lo n
  | 0, _, _ => rfl
  | n + 1, h1, h2 => by
    rw [rowsW, rowsW, rowsW_congr (n := n) (fun i a b => h1 i a (by omega)) (fun i j a b => h2 i j a (by omega)),
      h1 (lo + n + 1) (by omega) (by omega), rowW_congr (fun j _ _ => h2 (lo + n + 1) j (by omega) (by omega))]

theorem rowW_split {f : Nat → Nat → Int} {n i k : Nat} (h : k + 1 ≤ n) :
    rowW f n i = rowW f k i ++ [f i (k + 1)] ++ (List.range (n - k - 1)).map (fun j => f i (k + 1 + j + 1)) := by
  obtain ⟨m, rfl⟩ := Nat.exists_eq_add_of_le h
  unfold rowW
  rw [List.range_add, List.map_append, List.range_succ, List.map_append, List.map_map, show k + 1 + m - k - 1 = m by omega]
  rfl

theorem rowW_succ {f : Nat → Nat → Int} {n i : Nat} : rowW f (n + 1) i = rowW f n i ++ [f i (n + 1)] := by
  unfold rowW
  rw [List.range_succ, List.map_append]
  rfl

theorem mem_rowW {f : Nat → Nat → Int} {n i : Nat} {z : Int} : z ∈ rowW f n i ↔ ∃ j, 1 ≤ j ∧ j ≤ n ∧ z = f i j := by
  unfold rowW
  rw [List.mem_map]
  constructor
  · rintro ⟨j, hj, rfl⟩; rw [List.mem_range] at hj; exact ⟨j + 1, by omega, by omega, rfl⟩
  · rintro ⟨j, h1, h2, rfl⟩; exact ⟨j - 1, by rw [List.mem_range]; omega, by rw [show j - 1 + 1 = j by omega]⟩

variable {T : Tab} {lam : Nat → Nat} {f : Nat → Nat → Int} {r k : Nat}

/-- What the row above looks like when it has the letter where it would be inserted. -/
theorem above_split (h : Inc T lam f) (hr : Ready lam f r a) (hk : Cnt lam f (r + 1) a k) (hlt : k = 0 ∨ f (r + 1) k < a)
    (hni : ¬ Insertable f r k a) : ∃ x y, rowsW lam f 0 r = x ++ [a] ++ y ∧ ∀ z ∈ x, z + 2 ≤ a := by
  have h0 : r ≠ 0 := fun hc => hni ⟨hlt, Or.inl hc⟩
  have h1 := hr.lt_above h hk (by omega)
  have h2 : f r (k + 1) = a := by
    have : ¬ f r (k + 1) < a := fun hc => hni ⟨hlt, Or.inr hc⟩
    omega
  obtain ⟨r', rfl⟩ : ∃ r', r = r' + 1 := ⟨r - 1, by omega⟩
  refine ⟨rowW f k (r' + 1), (List.range (lam (r' + 1) - k - 1)).map (fun j => f (r' + 1) (k + 1 + j + 1)) ++ rowsW lam f 0 r', ?_, ?_⟩
  · rw [rowsW, Nat.zero_add, rowW_split h1.1, h2]
    simp
  · intro z hz
    obtain ⟨j, hj1, hj2, rfl⟩ := mem_rowW.1 hz
    have hk0 : f (r' + 1 + 1) k < a := by
      rcases hlt with h3 | h3
      · omega
      · exact h3
    have e1 := h.rowLe (i := r' + 1) (j := j) (j' := k) (by omega) hj1 hj2 (by omega)
    have e2 := h.col (r' + 1) k (by omega) (by omega) hk.1
    omega

theorem row_le (hk : Cnt lam f (r + 1) a k) : ∀ z ∈ rowW f k (r + 1), z ≤ a := by
  intro z hz
  obtain ⟨j, hj1, hj2, rfl⟩ := mem_rowW.1 hz
  exact hk.2.1 j hj1 hj2

theorem row_lt (h : Inc T lam f) (hk : Cnt lam f (r + 1) a k) (hlt : k = 0 ∨ f (r + 1) k < a) : ∀ z ∈ rowW f k (r + 1), z < a := by
  intro z hz
  obtain ⟨j, hj1, hj2, rfl⟩ := mem_rowW.1 hz
  have := h.rowLe (i := r + 1) (j := j) (j' := k) (by omega) hj1 hj2 hk.1
  omega

/-- A row that has the letter. -/
theorem row_has (h : Inc T lam f) (hk : Cnt lam f (r + 1) a k) (hlt : ¬ (k = 0 ∨ f (r + 1) k < a)) :
    ∃ u, rowW f k (r + 1) = u ++ [a] ∧ ∀ z ∈ u, z < a := by
  obtain ⟨k', rfl⟩ : ∃ k', k = k' + 1 := ⟨k - 1, by omega⟩
  have h1 : f (r + 1) (k' + 1) = a := by
    have := hk.2.1 (k' + 1) (by omega) (le_refl _)
    omega
  refine ⟨rowW f k' (r + 1), by rw [rowW_succ, h1], ?_⟩
  intro z hz
  obtain ⟨j, hj1, hj2, rfl⟩ := mem_rowW.1 hz
  have := h.rowLt (i := r + 1) (j := j) (j' := k' + 1) (by omega) hj1 (by omega) hk.1
  omega

/-- One step. -/
theorem step_word (h : Inc T lam f) (hr : Ready lam f r a) (hk : Cnt lam f (r + 1) a k) (hkl : k + 1 ≤ lam (r + 1)) :
    HeckeEquiv (rowW f (lam (r + 1)) (r + 1) ++ [a] ++ rowsW lam f 0 r)
      ([f (r + 1) (k + 1)] ++ rowsW lam (nextF f r k a) 0 (r + 1)) := by
  obtain ⟨b, hb⟩ : ∃ b, b = f (r + 1) (k + 1) := ⟨_, rfl⟩
  have hab : a < b := by rw [hb]; exact hk.2.2 hkl
  obtain ⟨v, hv⟩ : ∃ v, v = (List.range (lam (r + 1) - k - 1)).map (fun j => f (r + 1) (k + 1 + j + 1)) := ⟨_, rfl⟩
  have hvb : ∀ z ∈ v, b < z := by
    intro z hz
    rw [hv, List.mem_map] at hz
    obtain ⟨j, hj, rfl⟩ := hz
    rw [List.mem_range] at hj
    rw [hb]
    exact h.rowLt (by omega) (by omega) (by omega) (by omega)
  have hrow : rowW f (lam (r + 1)) (r + 1) = rowW f k (r + 1) ++ [b] ++ v := by rw [rowW_split hkl, hb, hv]
  rw [← hb, rowsW, Nat.zero_add]
  have hbelow : rowsW lam (nextF f r k a) 0 r = rowsW lam f 0 r :=
    rowsW_congr (fun _ _ _ => rfl) (fun i j _ h2 => nextF_ne (by omega))
  rw [hbelow]
  by_cases hi : Insertable f r k a
  · have hrow' : rowW (nextF f r k a) (lam (r + 1)) (r + 1) = rowW f k (r + 1) ++ [a] ++ v := by
      rw [nextF, if_pos hi, rowW_split hkl, hv]
      congr 1
      · congr 1
        · exact rowW_congr (fun j _ h2 => by rw [updF, if_neg (by omega)])
        · rw [updF, if_pos ⟨rfl, rfl⟩]
      · apply List.map_congr_left
        intro j _
        rw [updF, if_neg (by omega)]
    rw [hrow', hrow]
    have := HeckeEquiv.right (rowsW lam f 0 r) (row_replace (row_lt h hk hi.1) hab hvb)
    simpa using this
  · have hrow' : rowW (nextF f r k a) (lam (r + 1)) (r + 1) = rowW f k (r + 1) ++ [b] ++ v := by
      rw [nextF, if_neg hi, hrow]
    rw [hrow', hrow]
    by_cases hlt : k = 0 ∨ f (r + 1) k < a
    · obtain ⟨x, y, e1, e2⟩ := above_split h hr hk hlt hi
      rw [e1]
      have := row_above (v := v) (y := y) (row_lt h hk hlt) hab e2
      simpa using this
    · obtain ⟨u, e1, e2⟩ := row_has h hk hlt
      rw [e1]
      have := HeckeEquiv.right (rowsW lam f 0 r) (row_present e2 hab hvb)
      simpa using this

/-- The last step. -/
theorem final_word (h : Inc T lam f) (hr : Ready lam f r a) (hk : Cnt lam f (r + 1) a (lam (r + 1))) :
    HeckeEquiv (rowW f (lam (r + 1)) (r + 1) ++ [a] ++ rowsW lam f 0 r)
      (rowsW (finLam lam f r a) (nextF f r (lam (r + 1)) a) 0 (r + 1)) := by
  rw [rowsW, Nat.zero_add]
  have hbelow : rowsW (finLam lam f r a) (nextF f r (lam (r + 1)) a) 0 r = rowsW lam f 0 r :=
    rowsW_congr (fun i _ h2 => by rw [finLam, if_neg (by omega)]) (fun i j _ h2 => nextF_ne (by omega))
  rw [hbelow]
  by_cases hi : Insertable f r (lam (r + 1)) a
  · have hrow' : rowW (nextF f r (lam (r + 1)) a) (finLam lam f r a (r + 1)) (r + 1) = rowW f (lam (r + 1)) (r + 1) ++ [a] := by
      rw [nextF, if_pos hi, finLam, if_pos ⟨hi, rfl⟩, rowW_succ, updF, if_pos ⟨rfl, rfl⟩]
      congr 1
      exact rowW_congr (fun j _ h2 => by rw [updF, if_neg (by omega)])
    rw [hrow']
    exact HeckeEquiv.refl _
  · have hrow' : rowW (nextF f r (lam (r + 1)) a) (finLam lam f r a (r + 1)) (r + 1) = rowW f (lam (r + 1)) (r + 1) := by
      rw [nextF, if_neg hi, finLam, if_neg (fun hc => hi hc.1)]
    rw [hrow']
    by_cases hlt : lam (r + 1) = 0 ∨ f (r + 1) (lam (r + 1)) < a
    · obtain ⟨x, y, e1, e2⟩ := above_split h hr hk hlt hi
      rw [e1]
      exact end_above e2
    · obtain ⟨u, e1, e2⟩ := row_has h hk hlt
      rw [e1]
      exact HeckeEquiv.right _ end_present

/-! ## The whole insertion -/

theorem word_trace (d : Nat) : ∀ {T : Tab} {f : Nat → Nat → Int} {r : Nat} {a : Int}, Inc T lam f → Ready lam f r a →
    lam (r + d + 1) = 0 → ∃ Tc fc R c, r ≤ R ∧ R ≤ r + d ∧ Inc Tc lam fc ∧ Ready lam fc R c ∧
      Cnt lam fc (R + 1) c (lam (R + 1)) ∧
      (∃ pre, ∀ fuel, path (fuel + (R - r)) (st T lam r a) = (path fuel (st Tc lam R c)).map (pre ++ ·)) ∧
      ∀ e, HeckeEquiv (rowsW lam f r (d + 1 + e) ++ [a] ++ rowsW lam f 0 r)
        (rowsW (finLam lam fc R c) (nextF fc R (lam (R + 1)) c) 0 (r + d + 1 + e)) := by
  have base : ∀ {T : Tab} {f : Nat → Nat → Int} {r : Nat} {a : Int}, Inc T lam f → Ready lam f r a →
      Cnt lam f (r + 1) a (lam (r + 1)) → ∀ e, HeckeEquiv (rowsW lam f r (e + 1) ++ [a] ++ rowsW lam f 0 r)
        (rowsW (finLam lam f r a) (nextF f r (lam (r + 1)) a) 0 (r + 1 + e)) := by
    intro T f r a h hr hk e
    have hsplit : ∀ (lam : Nat → Nat) (f : Nat → Nat → Int) lo m n, rowsW lam f lo (m + n) = rowsW lam f (lo + m) n ++ rowsW lam f lo m := by
      intro lam f lo m n
      induction n with
      | zero => simp [rowsW]
      | succ n ih => rw [← Nat.add_assoc, rowsW, ih, rowsW, List.append_assoc, show lo + (m + n) + 1 = lo + m + n + 1 by omega]
    have h1 := HeckeEquiv.left (rowsW lam f (r + 1) e) (final_word h hr hk)
    rw [rowsW_succ, hsplit, Nat.zero_add]
    have h2 : rowsW (finLam lam f r a) (nextF f r (lam (r + 1)) a) (r + 1) e = rowsW lam f (r + 1) e :=
      rowsW_congr (fun i h2 _ => by rw [finLam, if_neg (by omega)]) (fun i j h2 _ => nextF_ne (by omega))
    rw [h2]
    simpa using h1
  induction d with
  | zero =>
    intro T f r a h hr hd
    obtain ⟨k, hk⟩ := exists_cnt lam f (r + 1) a
    have hk0 : k = lam (r + 1) := by have := hk.1; simp only [Nat.add_zero] at hd; omega
    subst hk0
    refine ⟨T, f, r, a, le_refl _, le_refl _, h, hr, hk, ⟨[], by intro fuel; simp⟩, fun e => ?_⟩
    have := base h hr hk e
    rw [show 0 + 1 + e = e + 1 by omega, show r + 0 + 1 + e = r + 1 + e by omega]
    exact this
  | succ d ih =>
    intro T f r a h hr hd
    obtain ⟨k, hk⟩ := exists_cnt lam f (r + 1) a
    by_cases hkl : k = lam (r + 1)
    · subst hkl
      refine ⟨T, f, r, a, le_refl _, by omega, h, hr, hk, ⟨[], by intro fuel; simp⟩, fun e => ?_⟩
      have := base h hr hk (d + 1 + e)
      rw [show d + 1 + 1 + e = d + 1 + e + 1 by omega, show r + (d + 1) + 1 + e = r + 1 + (d + 1 + e) by omega]
      exact this
    · have hkl' : k + 1 ≤ lam (r + 1) := by have := hk.1; omega
      have hinc := nextInc h hr hk hkl'
      have hready := nextReady h hr hk hkl'
      obtain ⟨Tc, fc, R, c, h1, h2, h3, h4, h5, ⟨pre, h6⟩, h7⟩ := ih hinc hready (by rw [← hd]; congr 1; omega)
      refine ⟨Tc, fc, R, c, by omega, by omega, h3, h4, h5, ?_, fun e => ?_⟩
      · refine ⟨(st (nextT T f r k a) lam (r + 1) (f (r + 1) (k + 1)), (r + 1, k + 1)) :: pre, ?_⟩
        intro fuel
        rw [show fuel + (R - r) = (fuel + (R - (r + 1))) + 1 by omega, path, next_st h hr, rowTransition_st h r a hk,
          if_neg hkl, transitionR23_eq h hr hk hkl']
        simp only [Option.map_some]
        rw [h6 fuel, Option.map_map]
        rfl
      · have g1 := HeckeEquiv.left (rowsW lam f (r + 1) (d + 1 + e)) (step_word h hr hk hkl')
        have g2 := h7 e
        have g3 : rowsW lam (nextF f r k a) (r + 1) (d + 1 + e) = rowsW lam f (r + 1) (d + 1 + e) :=
          rowsW_congr (fun _ _ _ => rfl) (fun i j h2 _ => nextF_ne (by omega))
        rw [g3, show r + 1 + d + 1 + e = r + (d + 1) + 1 + e by omega] at g2
        rw [show d + 1 + 1 + e = d + 1 + e + 1 by omega, rowsW_succ]
        exact HeckeEquiv.trans (by simpa using g1) (by simpa using g2)

/-- `w` is equivalent to the rows of `p`, read from below. -/
theorem push_word {p q : Tab} {f : Nat → Nat → Int} (hp : Inc p lam f) {a : Int} (ha : 0 < a) {p' q' : Tab}
    (h : push p q a = some (p', q')) : ∃ lam' F, Inc p' lam' F ∧ ∃ M0, ∀ M, M0 ≤ M →
      HeckeEquiv (rowsW lam f 0 M ++ [a]) (rowsW lam' F 0 M) := by
  have hready : Ready lam f 0 a := ⟨ha, by omega, by omega⟩
  obtain ⟨Tc, fc, R, c, h1, h2, h3, h4, h5, ⟨pre, h6⟩, h7⟩ := word_trace p.maxRow hp hready (hp.lam_zero (by omega))
  rw [Nat.sub_zero] at h6
  have hinc := finInc h3 h4 h5
  have hmk : mkState p none = some ⟨p, none⟩ := rfl
  have hadd : (⟨p, none⟩ : HState).add a = some (st p lam 0 a) := by
    simp only [HState.add]
    rw [hp.maxColumn, add_of_none (hp.outer_none 0)]
    exact mkState_st hp (Or.inl rfl)
  have hpath : path (p.maxRow + 3) (st p lam 0 a) =
      some (pre ++ [(⟨nextT Tc fc R (lam (R + 1)) c, none⟩, (R + 1, lam (R + 1) + 1))]) := by
    rw [show p.maxRow + 3 = ((p.maxRow + 1 - R) + 2) + R by omega, h6, path_final h3 h4 h5]
    rfl
  have hins : (⟨p, none⟩ : HState).insert (p.maxRow + 3) a = some (⟨nextT Tc fc R (lam (R + 1)) c, none⟩,
      pre.map Prod.snd ++ [(R + 1, lam (R + 1) + 1)]) := by
    rw [HState.insert, hadd]
    simp only
    rw [hpath]
    simp
  have he : p' = nextT Tc fc R (lam (R + 1)) c := by
    cases hq : q.last with
    | none => rw [push, hq] at h; simp at h
    | some n =>
      rw [push, hq, hmk] at h
      dsimp only at h
      rw [hins] at h
      simp only [List.getLast?_append, List.getLast?_singleton, Option.some_or] at h
      cases hb : recordBox (nextT Tc fc R (lam (R + 1)) c) (R + 1, lam (R + 1) + 1) with
      | none => rw [hb] at h; simp at h
      | some b =>
        simp only [hb, Option.map_some, Option.some.injEq, Prod.mk.injEq] at h
        exact h.1.symm
  subst he
  refine ⟨_, _, hinc, p.maxRow + 1, fun M hM => ?_⟩
  obtain ⟨e, rfl⟩ := Nat.exists_eq_add_of_le hM
  have := h7 e
  rw [Nat.zero_add] at this
  simpa [rowsW] using this

end Verif.Insertion
