import Verif.Model.Words
import Verif.Lemmas.Dict
import Mathlib.Data.List.SplitLengths
import Mathlib.Data.List.Induction
import Mathlib.Data.List.Chain
import Mathlib.Tactic.Ring

/-! Helper lemmas about the word crystal operators. -/

namespace Verif.Words

/-- The bracketing state: unmatched `i` (latest first) and unmatched `i + 1` (latest first). -/
abbrev StOf (α : Type) := List (α × Int) × List (α × Int)

/-- The state for letters with positions. -/
abbrev St := StOf Nat

variable {α : Type}

/-- Reading one more letter. -/
def step (i : Int) (st : StOf α) (c : α × Int) : StOf α :=
  if c.2 = i + 1 then (st.1, c :: st.2)
  else match st.2 with
    | [] => (c :: st.1, [])
    | _ :: Q => (st.1, Q)

/-- The state after reading `s`. -/
def pq (i : Int) (s : List (α × Int)) : StOf α := s.foldl (step i) ([], [])

theorem pq_append (i : Int) (s t : List (α × Int)) : pq i (s ++ t) = t.foldl (step i) (pq i s) := by
  simp [pq]

theorem pq_snoc (i : Int) (s : List (α × Int)) (c : α × Int) : pq i (s ++ [c]) = step i (pq i s) c := by
  simp [pq]

theorem step_J {i : Int} {st : StOf α} {c : α × Int} (h : c.2 = i + 1) : step i st c = (st.1, c :: st.2) := by
  simp [step, h]

theorem step_I_nil {i : Int} {P : List (α × Int)} {c : α × Int} (h : c.2 ≠ i + 1) :
    step i (P, []) c = (c :: P, []) := by simp [step, h]

theorem step_I_cons {i : Int} {P Q : List (α × Int)} {q c : α × Int} (h : c.2 ≠ i + 1) :
    step i (P, q :: Q) c = (P, Q) := by simp [step, h]

theorem fold_of_pq_nil (i : Int) (v : List (α × Int)) :
    ∀ Q, pq i v = ([], Q) → ∀ P0 Q0, v.foldl (step i) (P0, Q0) = (P0, Q ++ Q0) := by
  induction v using List.reverseRecOn with
  | nil => intro Q h P0 Q0; simp [pq] at h; simp [h]
  | append_singleton v c ih =>
    intro Q h P0 Q0
    rw [pq_snoc] at h
    rw [List.foldl_append, List.foldl_cons, List.foldl_nil]
    rcases hpq : pq i v with ⟨P', Q'⟩
    rw [hpq] at h
    by_cases hc : c.2 = i + 1
    · rw [step_J hc, Prod.mk.injEq] at h
      obtain ⟨h1, rfl⟩ := h
      simp only at h1
      subst h1
      rw [ih Q' hpq, step_J hc]; simp
    · cases Q' with
      | nil => rw [step_I_nil hc] at h; simp at h
      | cons q Q' =>
        rw [step_I_cons hc, Prod.mk.injEq] at h
        obtain ⟨rfl, rfl⟩ := h
        rw [ih _ hpq, List.cons_append, step_I_cons hc]

theorem decomp_I (i : Int) (w : List (α × Int)) :
    ∀ j P Q, pq i w = (j :: P, Q) → ∃ u v, w = u ++ j :: v ∧ pq i u = (P, []) ∧ pq i v = ([], Q) ∧
      j.2 ≠ i + 1 := by
  induction w using List.reverseRecOn with
  | nil => intro j P Q h; simp [pq] at h
  | append_singleton w c ih =>
    intro j P Q h
    rw [pq_snoc] at h
    rcases hpq : pq i w with ⟨P', Q'⟩
    rw [hpq] at h
    by_cases hc : c.2 = i + 1
    · rw [step_J hc, Prod.mk.injEq] at h
      obtain ⟨h1, rfl⟩ := h
      simp only at h1
      subst h1
      obtain ⟨u, v, rfl, hu, hv, hj⟩ := ih _ _ _ hpq
      exact ⟨u, v ++ [c], by simp, hu, by rw [pq_snoc, hv, step_J hc], hj⟩
    · cases Q' with
      | nil =>
        rw [step_I_nil hc, Prod.mk.injEq, List.cons.injEq] at h
        obtain ⟨⟨rfl, rfl⟩, rfl⟩ := h
        exact ⟨w, [], rfl, hpq, rfl, hc⟩
      | cons q Q' =>
        rw [step_I_cons hc, Prod.mk.injEq] at h
        obtain ⟨rfl, rfl⟩ := h
        obtain ⟨u, v, rfl, hu, hv, hj⟩ := ih _ _ _ hpq
        exact ⟨u, v ++ [c], by simp, hu, by rw [pq_snoc, hv, step_I_cons hc], hj⟩

theorem decomp_J (i : Int) (w : List (α × Int)) :
    ∀ j P Q, pq i w = (P, Q ++ [j]) → ∃ u v, w = u ++ j :: v ∧ pq i u = (P, []) ∧ pq i v = ([], Q) ∧
      j.2 = i + 1 := by
  induction w using List.reverseRecOn with
  | nil => intro j P Q h; simp [pq] at h
  | append_singleton w c ih =>
    intro j P Q h
    rw [pq_snoc] at h
    rcases hpq : pq i w with ⟨P', Q'⟩
    rw [hpq] at h
    by_cases hc : c.2 = i + 1
    · rw [step_J hc, Prod.mk.injEq] at h
      obtain ⟨rfl, h2⟩ := h
      cases Q with
      | nil =>
        simp only [List.nil_append, List.cons.injEq] at h2
        obtain ⟨rfl, h3⟩ := h2
        subst h3
        exact ⟨w, [], rfl, hpq, rfl, hc⟩
      | cons q Q =>
        simp only [List.cons_append, List.cons.injEq] at h2
        obtain ⟨rfl, h3⟩ := h2
        subst h3
        obtain ⟨u, v, rfl, hu, hv, hj⟩ := ih _ _ _ hpq
        exact ⟨u, v ++ [c], by simp, hu, by rw [pq_snoc, hv, step_J hc], hj⟩
    · cases Q' with
      | nil => rw [step_I_nil hc] at h; simp at h
      | cons q Q' =>
        rw [step_I_cons hc, Prod.mk.injEq] at h
        obtain ⟨rfl, rfl⟩ := h
        rw [← List.cons_append] at hpq
        obtain ⟨u, v, rfl, hu, hv, hj⟩ := ih _ _ _ hpq
        exact ⟨u, v ++ [c], by simp, hu, by rw [pq_snoc, hv, step_I_cons hc], hj⟩

/-! ### the cancellation loop computes the unmatched letters -/

/-- All letters are `i` or `i + 1`. -/
def Two (i : Int) (s : List (α × Int)) : Prop := ∀ p ∈ s, p.2 = i ∨ p.2 = i + 1

theorem step_two {i : Int} (st : StOf α) {p q : α × Int} (hp : p.2 = i ∨ p.2 = i + 1) (hq : q.2 = i ∨ q.2 = i + 1)
    (h : p.2 > q.2) : step i (step i st p) q = st := by
  have h1 : p.2 = i + 1 := by omega
  have h2 : q.2 ≠ i + 1 := by omega
  rw [step_J h1, step_I_cons h2]

theorem fold_cancelOnce (i : Int) (s : List (α × Int)) (hs : Two i s) (st : StOf α) :
    (cancelOnce s).foldl (step i) st = s.foldl (step i) st := by
  induction s generalizing st with
  | nil => rfl
  | cons p s ih =>
    cases s with
    | nil => rfl
    | cons q s =>
      rw [cancelOnce]
      split
      · rename_i h
        rw [List.foldl_cons, List.foldl_cons, step_two st (hs p (by simp)) (hs q (by simp)) h]
      · rw [List.foldl_cons, List.foldl_cons, ih (fun x hx => hs x (by simp [hx]))]

theorem two_cancelOnce (i : Int) (s : List (α × Int)) (hs : Two i s) : Two i (cancelOnce s) := by
  induction s with
  | nil => exact hs
  | cons p s ih =>
    cases s with
    | nil => exact hs
    | cons q s =>
      rw [cancelOnce]
      split
      · exact fun x hx => hs x (by simp [hx])
      · intro x hx
        rcases List.mem_cons.1 hx with rfl | hx
        · exact hs _ (by simp)
        · exact ih (fun x hx => hs x (by simp [hx])) x hx

theorem cancelOnce_length (s : List (α × Int)) :
    (cancelOnce s).length < s.length ∨ (cancelOnce s = s ∧ s.IsChain (fun a b => a.2 ≤ b.2)) := by
  induction s with
  | nil => right; exact ⟨rfl, by simp⟩
  | cons p s ih =>
    cases s with
    | nil => right; exact ⟨rfl, by simp⟩
    | cons q s =>
      rw [cancelOnce]
      split
      · left; simp; omega
      · rename_i h
        rcases ih with ih | ⟨ih, hc⟩
        · left; simpa using ih
        · right
          rw [ih]
          exact ⟨rfl, by rw [List.isChain_cons_cons]; exact ⟨by omega, hc⟩⟩

theorem fold_chain (i : Int) (s : List (α × Int)) (hs : Two i s) (hc : s.IsChain (fun a b => a.2 ≤ b.2)) :
    (∀ P, (∃ P', s.foldl (step i) (P, []) = P')) → ∀ P Q, (Q = [] ∨ ∀ p ∈ s, p.2 = i + 1) →
      (s.foldl (step i) (P, Q)) = ((s.filter (fun p => decide (p.2 = i))).reverse ++ P,
        (s.filter (fun p => decide (p.2 = i + 1))).reverse ++ Q) ∧
      s = s.filter (fun p => decide (p.2 = i)) ++ s.filter (fun p => decide (p.2 = i + 1)) := by
  intro _
  induction s with
  | nil => intro P Q _; simp
  | cons a s ih =>
    intro P Q hQ
    have hs' : Two i s := fun x hx => hs x (by simp [hx])
    have hall : a.2 = i + 1 → ∀ p ∈ s, p.2 = i + 1 := by
      intro ha p hp
      have h1 : List.Pairwise (fun a b : α × Int => a.2 ≤ b.2) (a :: s) := by
        have : Trans (fun a b : α × Int => a.2 ≤ b.2) (fun a b : α × Int => a.2 ≤ b.2)
          (fun a b : α × Int => a.2 ≤ b.2) := ⟨fun h1 h2 => le_trans h1 h2⟩
        exact List.isChain_iff_pairwise.1 hc
      have h2 := List.rel_of_pairwise_cons h1 hp
      rcases hs' p hp with h3 | h3
      · omega
      · exact h3
    have hc' : s.IsChain (fun a b => a.2 ≤ b.2) := hc.tail
    have ih := ih hs' hc' (fun P => ⟨_, rfl⟩)
    rcases hs a (by simp) with ha | ha
    · have hne : a.2 ≠ i + 1 := by omega
      have hQ' : Q = [] := by
        rcases hQ with h | h
        · exact h
        · exact absurd (h a (by simp)) hne
      subst hQ'
      obtain ⟨h1, h2⟩ := ih (a :: P) [] (Or.inl rfl)
      rw [List.foldl_cons, step_I_nil hne, h1]
      have e1 : ((a :: s).filter (fun p => decide (p.2 = i))) = a :: s.filter (fun p => decide (p.2 = i)) := by
        simp [ha]
      have e2 : ((a :: s).filter (fun p => decide (p.2 = i + 1))) = s.filter (fun p => decide (p.2 = i + 1)) := by
        simp [ha]
      rw [e1, e2]
      refine ⟨by simp, ?_⟩
      rw [List.cons_append]; exact congrArg _ h2
    · obtain ⟨h1, h2⟩ := ih P (a :: Q) (Or.inr (hall ha))
      rw [List.foldl_cons, step_J ha, h1]
      have hni : ∀ p ∈ a :: s, ¬ p.2 = i := by
        intro p hp
        rcases List.mem_cons.1 hp with rfl | hp
        · omega
        · have := hall ha p hp; omega
      have hni' : ∀ p ∈ a :: s, p.2 = i + 1 := by
        intro p hp
        rcases List.mem_cons.1 hp with rfl | hp
        · exact ha
        · exact hall ha p hp
      have e1 : ((a :: s).filter (fun p => decide (p.2 = i))) = [] := by
        rw [List.filter_eq_nil_iff]; intro p hp; simpa using hni p hp
      have e1' : (s.filter (fun p => decide (p.2 = i))) = [] := by
        rw [List.filter_eq_nil_iff]; intro p hp; simpa using hni p (by simp [hp])
      have e2 : ((a :: s).filter (fun p => decide (p.2 = i + 1))) = a :: s := by
        rw [List.filter_eq_self]; intro p hp; simpa using hni' p hp
      have e2' : (s.filter (fun p => decide (p.2 = i + 1))) = s := by
        rw [List.filter_eq_self]; intro p hp; simpa using hni' p (by simp [hp])
      rw [e1, e1', e2, e2']
      simp

theorem cancel_eq (i : Int) (s : List (α × Int)) (hs : Two i s) :
    cancel s = (pq i s).1.reverse ++ (pq i s).2.reverse ∧
    (cancel s).filter (fun p => decide (p.2 = i)) = (pq i s).1.reverse ∧
    (cancel s).filter (fun p => decide (p.2 = i + 1)) = (pq i s).2.reverse := by
  induction hn : s.length using Nat.strong_induction_on generalizing s with
  | _ n ih =>
    subst hn
    rw [cancel]
    have hpq : pq i (cancelOnce s) = pq i s := fold_cancelOnce i s hs _
    rcases cancelOnce_length s with h | ⟨h, hc⟩
    · simp only [if_pos h]
      rw [← hpq]
      exact ih _ h _ (two_cancelOnce i s hs) rfl
    · have hlt : ¬ (cancelOnce s).length < s.length := by rw [h]; omega
      simp only [if_neg hlt]
      rw [h]
      obtain ⟨h1, h2⟩ := fold_chain i s hs hc (fun P => ⟨_, rfl⟩) [] [] (Or.inl rfl)
      have : pq i s = ((s.filter (fun p => decide (p.2 = i))).reverse,
        (s.filter (fun p => decide (p.2 = i + 1))).reverse) := by
        rw [pq, h1]; simp
      rw [this]
      simp only [List.reverse_reverse]
      exact ⟨h2, trivial, trivial⟩

/-! ### signatures -/

theorem two_signature (i : Int) (k : Nat) (w : List Int) : Two i (signature i k w) := by
  induction w generalizing k with
  | nil => intro p hp; simp [signature] at hp
  | cons a w ih =>
    intro p hp
    rw [signature] at hp
    split at hp
    · rename_i h
      rcases List.mem_cons.1 hp with rfl | hp
      · exact h
      · exact ih _ p hp
    · exact ih _ p hp

theorem signature_snoc (i : Int) (k : Nat) (w : List Int) (c : Int) :
    signature i k (w ++ [c]) =
      signature i k w ++ if c = i ∨ c = i + 1 then [(k + w.length, c)] else [] := by
  induction w generalizing k with
  | nil => simp [signature]
  | cons a w ih =>
    rw [List.cons_append, signature, signature, ih]
    have : k + 1 + w.length = k + (a :: w).length := by simp; omega
    rw [this]
    by_cases h : a = i ∨ a = i + 1
    · rw [if_pos h, if_pos h, List.cons_append]
    · rw [if_neg h, if_neg h]

theorem signature_set (i : Int) (b : Int) (hb : b = i ∨ b = i + 1) (w : List Int) :
    ∀ (k : Nat) (u v : List (Nat × Int)) (j : Nat) (a : Int), signature i k w = u ++ (j, a) :: v →
      k ≤ j ∧ w[j - k]? = some a ∧
      signature i k (w.take (j - k) ++ [b] ++ w.drop (j - k + 1)) = u ++ (j, b) :: v := by
  induction w with
  | nil => intro k u v j a h; simp [signature] at h
  | cons x w ih =>
    intro k u v j a h
    rw [signature] at h
    by_cases hx : x = i ∨ x = i + 1
    · rw [if_pos hx] at h
      cases u with
      | nil =>
        simp only [List.nil_append, List.cons.injEq, Prod.mk.injEq] at h
        obtain ⟨⟨rfl, rfl⟩, h⟩ := h
        simp [signature, hb, h]
      | cons y u =>
        simp only [List.cons_append, List.cons.injEq] at h
        obtain ⟨rfl, h⟩ := h
        obtain ⟨h1, h2, h3⟩ := ih _ _ _ _ _ h
        have e : j - k = j - (k + 1) + 1 := by omega
        refine ⟨by omega, ?_, ?_⟩
        · rw [e]; simpa using h2
        · rw [e, List.take_succ_cons, List.drop_succ_cons, List.cons_append, List.cons_append, signature,
            if_pos hx, h3]
          rfl
    · rw [if_neg hx] at h
      obtain ⟨h1, h2, h3⟩ := ih _ _ _ _ _ h
      have e : j - k = j - (k + 1) + 1 := by omega
      refine ⟨by omega, ?_, ?_⟩
      · rw [e]; simpa using h2
      · rw [e, List.take_succ_cons, List.drop_succ_cons, List.cons_append, List.cons_append, signature,
          if_neg hx, h3]

/-- The bracketing state of a word. -/
def pqw (i : Int) (w : List Int) : St := pq i (signature i 0 w)

theorem f_eq (i : Int) (w : List Int) :
    f i w = match (pqw i w).1 with
      | [] => none
      | p :: _ => some (w.take p.1 ++ [i + 1] ++ w.drop (p.1 + 1)) := by
  rw [f, (cancel_eq i _ (two_signature i 0 w)).2.1, List.getLast?_reverse]
  rw [pqw]
  cases (pq i (signature i 0 w)).1 <;> rfl

theorem e_eq (i : Int) (w : List Int) :
    e i w = match (pqw i w).2.getLast? with
      | none => none
      | some p => some (w.take p.1 ++ [i] ++ w.drop (p.1 + 1)) := by
  rw [e, (cancel_eq i _ (two_signature i 0 w)).2.2, List.head?_reverse]
  rw [pqw]
  cases (pq i (signature i 0 w)).2.getLast? <;> rfl

theorem set_back (w : List Int) (j : Nat) (a b : Int) (h : w[j]? = some a) :
    (w.take j ++ [b] ++ w.drop (j + 1)).take j ++ [a] ++ (w.take j ++ [b] ++ w.drop (j + 1)).drop (j + 1) = w := by
  have hj : j < w.length := by
    by_contra hc; rw [List.getElem?_eq_none (by omega)] at h; cases h
  have hl : (w.take j).length = j := by simp; omega
  have h1 : (w.take j ++ [b] ++ w.drop (j + 1)).take j = w.take j := by
    rw [List.append_assoc, List.take_append_of_le_length (by omega), List.take_of_length_le (by omega)]
  have h2 : (w.take j ++ [b] ++ w.drop (j + 1)).drop (j + 1) = w.drop (j + 1) := by
    rw [List.drop_append_of_le_length (by simp; omega), List.drop_of_length_le (by simp), List.nil_append]
  rw [h1, h2]
  have h3 : w[j] = a := by rw [List.getElem?_eq_getElem hj] at h; simpa using h
  rw [List.append_assoc, ← h3]
  simp

/-- Full description of a successful `f`. -/
theorem f_some (i : Int) (w w' : List Int) (h : f i w = some w') :
    ∃ j, w[j]? = some i ∧ w' = w.take j ++ [i + 1] ++ w.drop (j + 1) ∧ w'[j]? = some (i + 1) ∧ e i w' = some w ∧
      (pqw i w).1.length = (pqw i w').1.length + 1 := by
  rw [f_eq] at h
  rcases hP : (pqw i w).1 with _ | ⟨⟨j, a⟩, P⟩
  · rw [hP] at h; simp at h
  · rw [hP] at h
    simp only [Option.some.injEq] at h
    obtain ⟨u, v, hs, hu, hv, ha⟩ := decomp_I i (signature i 0 w) (j, a) P (pqw i w).2 (by rw [← hP]; rfl)
    have ha' : a = i := by
      have := two_signature i 0 w (j, a) (by rw [hs]; simp)
      simp only at this ha
      omega
    subst ha'
    obtain ⟨_, h2, h3⟩ := signature_set a (a + 1) (Or.inr rfl) w 0 u v j a hs
    rw [Nat.sub_zero] at h2 h3
    have hj : j < w.length := by
      by_contra hc; rw [List.getElem?_eq_none (by omega)] at h2; cases h2
    rw [h] at h3
    have hpq : pqw a w' = (P, (pqw a w).2 ++ [(j, a + 1)]) := by
      rw [pqw, h3, pq_append, hu, List.foldl_cons, step_J rfl, fold_of_pq_nil a v _ hv]
    refine ⟨j, h2, h.symm, ?_, ?_, ?_⟩
    · rw [← h, List.getElem?_append_left (by simp; omega), List.getElem?_append_right (by simp)]
      simp [Nat.min_eq_left (Nat.le_of_lt hj)]
    · rw [e_eq, hpq]
      simp only [List.getLast?_append, List.getLast?_singleton, Option.some_or, Option.some.injEq]
      rw [← h]
      exact set_back w j a (a + 1) h2
    · rw [hpq]; simp

/-- Full description of a successful `e`. -/
theorem e_some (i : Int) (w w' : List Int) (h : e i w = some w') :
    ∃ j, w[j]? = some (i + 1) ∧ w' = w.take j ++ [i] ++ w.drop (j + 1) ∧ w'[j]? = some i ∧ f i w' = some w ∧
      (pqw i w).2.length = (pqw i w').2.length + 1 := by
  rw [e_eq] at h
  rcases List.eq_nil_or_concat (pqw i w).2 with hQ | ⟨Q, ⟨j, a⟩, hQ⟩
  · rw [hQ] at h; simp at h
  · rw [hQ] at h
    simp only [List.concat_eq_append, List.getLast?_append, List.getLast?_singleton, Option.some_or,
      Option.some.injEq] at h
    rw [List.concat_eq_append] at hQ
    obtain ⟨u, v, hs, hu, hv, ha⟩ := decomp_J i (signature i 0 w) (j, a) (pqw i w).1 Q (by rw [← hQ]; rfl)
    simp only at ha
    subst ha
    obtain ⟨_, h2, h3⟩ := signature_set i i (Or.inl rfl) w 0 u v j (i + 1) hs
    rw [Nat.sub_zero] at h2 h3
    have hj : j < w.length := by
      by_contra hc; rw [List.getElem?_eq_none (by omega)] at h2; cases h2
    rw [h] at h3
    have hpq : pqw i w' = ((j, i) :: (pqw i w).1, Q) := by
      rw [pqw, h3, pq_append, hu, List.foldl_cons, step_I_nil (by simp), fold_of_pq_nil i v _ hv]
      simp
    refine ⟨j, h2, h.symm, ?_, ?_, ?_⟩
    · rw [← h, List.getElem?_append_left (by simp; omega), List.getElem?_append_right (by simp)]
      simp [Nat.min_eq_left (Nat.le_of_lt hj)]
    · rw [f_eq, hpq]
      simp only [Option.some.injEq]
      rw [← h]
      exact set_back w j (i + 1) i h2
    · rw [hpq, hQ]; simp

theorem f_none (i : Int) (w : List Int) : f i w = none ↔ (pqw i w).1.length = 0 := by
  rw [f_eq, List.length_eq_zero_iff]
  cases (pqw i w).1 <;> simp

theorem e_none (i : Int) (w : List Int) : e i w = none ↔ (pqw i w).2.length = 0 := by
  rw [e_eq, List.length_eq_zero_iff]
  cases hl : (pqw i w).2.getLast? with
  | none => simpa using List.getLast?_eq_none_iff.1 hl
  | some p =>
    have : (pqw i w).2 ≠ [] := by intro h; rw [h] at hl; simp at hl
    simp [this]

theorem iter_f (i : Int) (n : Nat) (w : List Int) : (iter (f i) n w).isSome = true ↔ n ≤ (pqw i w).1.length := by
  induction n generalizing w with
  | zero => simp [iter]
  | succ n ih =>
    rw [iter]
    cases hf : f i w with
    | none => simp only [Option.bind_none, Option.isSome_none]; have := (f_none i w).1 hf; simp; omega
    | some w' =>
      obtain ⟨j, _, _, _, _, hl⟩ := f_some i w w' hf
      rw [Option.bind_some, ih]; omega

theorem iter_e (i : Int) (n : Nat) (w : List Int) : (iter (e i) n w).isSome = true ↔ n ≤ (pqw i w).2.length := by
  induction n generalizing w with
  | zero => simp [iter]
  | succ n ih =>
    rw [iter]
    cases hf : e i w with
    | none => simp only [Option.bind_none, Option.isSome_none]; have := (e_none i w).1 hf; simp; omega
    | some w' =>
      obtain ⟨j, _, _, _, _, hl⟩ := e_some i w w' hf
      rw [Option.bind_some, ih]; omega

/-- `#i - #(i+1)`. -/
def diff (i : Int) (w : List Int) : Int := (w.count i : Int) - (w.count (i + 1) : Int)

theorem diff_append (i : Int) (u v : List Int) : diff i (u ++ v) = diff i u + diff i v := by
  simp only [diff, List.count_append]; push_cast; ring

theorem pqw_snoc (i : Int) (w : List Int) (c : Int) :
    pqw i (w ++ [c]) = if c = i ∨ c = i + 1 then step i (pqw i w) (w.length, c) else pqw i w := by
  rw [pqw, signature_snoc]
  split
  · rw [pq_snoc]; simp [pqw]
  · simp [pqw]

theorem pqw_char (i : Int) (w : List Int) :
    ((pqw i w).1.length : Int) - (pqw i w).2.length = diff i w ∧
    ∀ z : Int, z ≤ (pqw i w).1.length ↔ ∃ m ≤ w.length, z ≤ diff i (w.take m) := by
  induction w using List.reverseRecOn with
  | nil => refine ⟨rfl, fun z => ?_⟩; simp [pqw, pq, signature, diff]
  | append_singleton w c ih =>
    obtain ⟨ih1, ih2⟩ := ih
    have hpre : ∀ z : Int, (∃ m ≤ (w ++ [c]).length, z ≤ diff i ((w ++ [c]).take m)) ↔
        (∃ m ≤ w.length, z ≤ diff i (w.take m)) ∨ z ≤ diff i w + diff i [c] := by
      intro z
      constructor
      · rintro ⟨m, hm, hz⟩
        by_cases h : m ≤ w.length
        · left; exact ⟨m, h, by rwa [List.take_append_of_le_length h] at hz⟩
        · right
          rw [List.take_of_length_le (by simp; omega), diff_append] at hz
          exact hz
      · rintro (⟨m, hm, hz⟩ | hz)
        · exact ⟨m, by simp; omega, by rwa [List.take_append_of_le_length hm]⟩
        · refine ⟨w.length + 1, by simp, ?_⟩
          rw [List.take_of_length_le (by simp), diff_append]; exact hz
    have hself : ∀ z : Int, z ≤ (pqw i w).1.length ∨ z ≤ diff i w ↔ z ≤ (pqw i w).1.length := by
      intro z; constructor
      · rintro (h | h)
        · exact h
        · omega
      · exact Or.inl
    rw [diff_append, pqw_snoc]
    by_cases h1 : c = i + 1
    · have hd : diff i [c] = -1 := by subst h1; simp [diff]
      rw [if_pos (Or.inr h1), step_J h1, hd]
      refine ⟨by simp; omega, fun z => ?_⟩
      rw [hpre, ← ih2, hd]
      simp only
      omega
    · by_cases h2 : c = i
      · subst h2
        have hd : diff c [c] = 1 := by simp [diff]
        rw [if_pos (Or.inl rfl), hd]
        rcases hpq : pqw c w with ⟨P, Q⟩
        rw [hpq] at ih1 ih2
        simp only at ih1 ih2
        cases Q with
        | nil =>
          rw [step_I_nil h1]
          simp only [List.length_nil, Nat.cast_zero] at ih1
          refine ⟨by simp; omega, fun z => ?_⟩
          rw [hpre, ← ih2, hd]
          simp only [List.length_cons]; push_cast
          omega
        | cons q Q =>
          rw [step_I_cons h1]
          simp only [List.length_cons] at ih1
          push_cast at ih1
          refine ⟨by simp only; omega, fun z => ?_⟩
          rw [hpre, ← ih2, hd]
          simp only
          omega
      · have hd : diff i [c] = 0 := by simp [diff, h1, h2]
        rw [if_neg (by rintro (h | h); exacts [h2 h, h1 h]), hd]
        refine ⟨by omega, fun z => ?_⟩
        rw [hpre, ← ih2, hd, add_zero, hself]

theorem pqw_char_e (i : Int) (w : List Int) (z : Int) :
    z ≤ (pqw i w).2.length ↔ ∃ m ≤ w.length, z ≤ - diff i (w.drop m) := by
  obtain ⟨h1, h2⟩ := pqw_char i w
  have h3 : z ≤ (pqw i w).2.length ↔ z + diff i w ≤ (pqw i w).1.length := by omega
  rw [h3, h2]
  have h4 : ∀ m, diff i w = diff i (w.take m) + diff i (w.drop m) := by
    intro m; rw [← diff_append, List.take_append_drop]
  constructor
  · rintro ⟨m, hm, hz⟩; exact ⟨m, hm, by have := h4 m; omega⟩
  · rintro ⟨m, hm, hz⟩; exact ⟨m, hm, by have := h4 m; omega⟩

theorem recut_eq (args : List (List Int)) (w : List Int) :
    recut args w = (args.map List.length).splitLengths w := by
  induction args generalizing w with
  | nil => rfl
  | cons a args ih => rw [recut, List.map_cons, List.splitLengths_cons, ih]

theorem f_length (i : Int) (w w' : List Int) (h : f i w = some w') : w'.length = w.length := by
  obtain ⟨j, hj, rfl, _⟩ := f_some i w w' h
  have : j < w.length := by by_contra hc; rw [List.getElem?_eq_none (by omega)] at hj; cases hj
  simp; omega

theorem e_length (i : Int) (w w' : List Int) (h : e i w = some w') : w'.length = w.length := by
  obtain ⟨j, hj, rfl, _⟩ := e_some i w w' h
  have : j < w.length := by by_contra hc; rw [List.getElem?_eq_none (by omega)] at hj; cases hj
  simp; omega

theorem recut_spec (args : List (List Int)) (w : List Int) (h : w.length = args.flatten.length) :
    (recut args w).flatten = w ∧ (recut args w).map List.length = args.map List.length := by
  rw [recut_eq]
  have : (args.map List.length).sum = w.length := by rw [h, List.length_flatten]
  exact ⟨List.flatten_splitLengths _ _ (by omega), List.map_splitLengths_length _ _ (by omega)⟩

end Verif.Words
