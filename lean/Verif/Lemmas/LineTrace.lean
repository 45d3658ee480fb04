import Mathlib.Data.Int.Order.Basic
import Mathlib.Order.Nat
import Mathlib.Tactic.Push
import Mathlib.Tactic.Tauto

/-!
# Bumping along the lines of an array

The lines are numbered from 1; line `i` has the positions `lo i, ..., hi i - 1`.  They are the rows or the columns of a tableau.
-/

namespace Verif.Lines

/-- The entries increase strictly along the lines and from one line to the next. -/
structure Arr (lo hi : Nat → Nat) (f : Nat → Nat → Int) : Prop where
  row : ∀ i j, 1 ≤ i → lo i ≤ j → j + 1 < hi i → f i j < f i (j + 1)
  col : ∀ i j, 1 ≤ i → lo i ≤ j → j < hi i → lo (i + 1) ≤ j → j < hi (i + 1) → f i j < f (i + 1) j

/-- `x` is the first position of line `i` with an entry larger than `a`, or the first position after the line. -/
def Pos (lo hi : Nat → Nat) (f : Nat → Nat → Int) (i : Nat) (a : Int) (x : Nat) : Prop :=
  lo i ≤ x ∧ x ≤ hi i ∧ (∀ j, lo i ≤ j → j < x → f i j ≤ a) ∧ (x < hi i → a < f i x)

/-- `a` is larger than the entries before and above position `x` of line `i`. -/
def Fit (lo : Nat → Nat) (f F : Nat → Nat → Int) (i x : Nat) (a : Int) : Prop :=
  (x = lo i ∨ f i (x - 1) < a) ∧ (i = 1 ∨ F (i - 1) x < a)

instance (lo : Nat → Nat) (f F : Nat → Nat → Int) (i x : Nat) (a : Int) : Decidable (Fit lo f F i x a) := by
  unfold Fit; infer_instance

/-- One entry changed. -/
def upd (f : Nat → Nat → Int) (i x : Nat) (a : Int) (i' j' : Nat) : Int := if i' = i ∧ j' = x then a else f i' j'

/-- The entries after the step in line `i`. -/
def nextF (lo : Nat → Nat) (f : Nat → Nat → Int) (i x : Nat) (a : Int) : Nat → Nat → Int :=
  if Fit lo f f i x a then upd f i x a else f

/-- The values `A s, ..., A t` enter the lines `s, ..., t` at the positions `X s, ..., X t`, changing `f` to `F`. -/
structure Tr (lo hi : Nat → Nat) (f F : Nat → Nat → Int) (A : Nat → Int) (X : Nat → Nat) (s t : Nat) : Prop where
  one : 1 ≤ s
  le : s ≤ t
  pos : ∀ i, s ≤ i → i ≤ t → Pos lo hi f i (A i) (X i)
  lt : ∀ i, s ≤ i → i < t → X i < hi i
  inner : ∀ i, s ≤ i → i < t → lo (i + 1) ≤ X i
  bump : ∀ i, s ≤ i → i < t → A (i + 1) = f i (X i)
  fit : ∀ i x, s ≤ i → i ≤ t → (x = X i ∧ Fit lo f F i (X i) (A i)) → F i x = A i
  same : ∀ i x, s ≤ i → i ≤ t → ¬ (x = X i ∧ Fit lo f F i (X i) (A i)) → F i x = f i x
  out : ∀ i x, i < s ∨ t < i → F i x = f i x

variable {lo hi : Nat → Nat} {f F g G : Nat → Nat → Int} {A A' : Nat → Int} {X X' : Nat → Nat} {s t s' t' : Nat}

theorem Arr.rowLt (h : Arr lo hi f) {i j j' : Nat} (hi' : 1 ≤ i) (hj : lo i ≤ j) (hjj : j < j') (hl : j' < hi i) :
    f i j < f i j' := by
  induction j', hjj using Nat.le_induction with
  | base => exact h.row i j hi' hj hl
  | succ k hk ih => exact lt_trans (ih (by omega)) (h.row i k hi' (by omega) hl)

theorem Arr.rowLe (h : Arr lo hi f) {i j j' : Nat} (hi' : 1 ≤ i) (hj : lo i ≤ j) (hjj : j ≤ j') (hl : j' < hi i) :
    f i j ≤ f i j' := by
  rcases Nat.eq_or_lt_of_le hjj with rfl | hlt
  · exact le_refl _
  · exact le_of_lt (h.rowLt hi' hj hlt hl)

theorem exists_pos (lo hi : Nat → Nat) (f : Nat → Nat → Int) (i : Nat) (a : Int) (h : lo i ≤ hi i) :
    ∃ x, Pos lo hi f i a x := by
  suffices h : ∀ m, lo i ≤ m → m ≤ hi i → ∃ x, lo i ≤ x ∧ x ≤ m ∧ (∀ j, lo i ≤ j → j < x → f i j ≤ a) ∧ (x < m → a < f i x) by
    exact h (hi i) (by omega) (le_refl _)
  intro m hm
  induction m, hm using Nat.le_induction with
  | base => intro _; exact ⟨lo i, le_refl _, le_refl _, by intro j h1 h2; omega, by omega⟩
  | succ m hm ih =>
    intro hm'
    obtain ⟨x, h1, h2, h3, h4⟩ := ih (by omega)
    by_cases hk : x < m
    · exact ⟨x, h1, by omega, h3, fun _ => h4 hk⟩
    · have : x = m := by omega
      subst this
      by_cases hf : f i x ≤ a
      · refine ⟨x + 1, by omega, by omega, ?_, by omega⟩
        intro j hj1 hj2
        rcases Nat.eq_or_lt_of_le (Nat.le_of_lt_succ hj2) with rfl | hlt
        · exact hf
        · exact h3 j hj1 hlt
      · exact ⟨x, h1, by omega, h3, fun _ => by omega⟩

theorem nextF_ne {i x i' j' : Nat} {a : Int} (h : i' ≠ i) : nextF lo f i x a i' j' = f i' j' := by
  unfold nextF
  split
  · rw [upd, if_neg (by omega)]
  · rfl

theorem nextF_other {i x i' j' : Nat} {a : Int} (h : ¬ (i' = i ∧ j' = x)) : nextF lo f i x a i' j' = f i' j' := by
  unfold nextF
  split
  · rw [upd, if_neg h]
  · rfl

theorem nextF_le {i x : Nat} {a : Int} (hp : Pos lo hi f i a x) (hx : x < hi i) : nextF lo f i x a i x ≤ f i x := by
  have := hp.2.2.2 hx
  unfold nextF upd
  split
  · simp; omega
  · exact le_refl _

theorem fit_nextF {i x : Nat} {a : Int} (hi : 1 ≤ i) : Fit lo f f i x a ↔ Fit lo f (nextF lo f i x a) i x a := by
  unfold Fit
  rw [nextF_ne (by omega)]

/-- A trace of one line. -/
theorem tr_base {x : Nat} {a : Int} (hs : 1 ≤ s) (hp : Pos lo hi f s a x) :
    Tr lo hi f (nextF lo f s x a) (fun _ => a) (fun _ => x) s s := by
  constructor
  · exact hs
  · exact le_refl _
  · intro i h1 h2
    have : i = s := by omega
    subst this; exact hp
  · intro i h1 h2; omega
  · intro i h1 h2; omega
  · intro i h1 h2; omega
  · intro i x' h1 h2 h3
    have : i = s := by omega
    subst this
    rw [← fit_nextF hs] at h3
    rw [nextF, if_pos h3.2, upd, if_pos ⟨rfl, h3.1⟩]
  · intro i x' h1 h2 h3
    have : i = s := by omega
    subst this
    rw [← fit_nextF hs] at h3
    unfold nextF
    split
    · rw [upd, if_neg (by tauto)]
    · rfl
  · intro i x' h1; exact nextF_ne (by omega)

/-- A further line in front. -/
theorem tr_cons {x : Nat} {a : Int} (hs : 1 ≤ s) (hp : Pos lo hi f s a x) (hx : x < hi s) (hin : lo (s + 1) ≤ x)
    (h : Tr lo hi (nextF lo f s x a) F A X (s + 1) t) (hA : A (s + 1) = f s x) :
    Tr lo hi f F (fun i => if i = s then a else A i) (fun i => if i = s then x else X i) s t := by
  have hF0 : ∀ i j, i < s → F i j = f i j := by
    intro i j hi
    rw [h.out i j (by omega), nextF_ne (by omega)]
  have hFs : ∀ j, F s j = nextF lo f s x a s j := fun j => h.out s j (by omega)
  have hfit : Fit lo f f s x a ↔ Fit lo f F s x a := by
    unfold Fit
    rcases Nat.eq_or_lt_of_le hs with h1 | h1
    · rw [← h1]; simp
    · rw [hF0 (s - 1) x (by omega)]
  have hfits : ∀ i k' a', s + 1 ≤ i → (Fit lo (nextF lo f s x a) F i k' a' ↔ Fit lo f F i k' a') := by
    intro i k' a' hi
    unfold Fit
    rw [nextF_ne (by omega)]
  have hpos : ∀ i k' a', s + 1 ≤ i → (Pos lo hi (nextF lo f s x a) i a' k' ↔ Pos lo hi f i a' k') := by
    intro i k' a' hi
    unfold Pos
    simp only [nextF_ne (show i ≠ s by omega)]
  have := h.le
  constructor
  · exact hs
  · omega
  · intro i h1 h2
    by_cases hi' : i = s
    · subst hi'; simpa using hp
    · simp only [if_neg hi']
      exact (hpos i _ _ (by omega)).1 (h.pos i (by omega) h2)
  · intro i h1 h2
    by_cases hi' : i = s
    · subst hi'; simpa using hx
    · simp only [if_neg hi']; exact h.lt i (by omega) h2
  · intro i h1 h2
    by_cases hi' : i = s
    · subst hi'; simpa using hin
    · simp only [if_neg hi']; exact h.inner i (by omega) h2
  · intro i h1 h2
    by_cases hi' : i = s
    · subst hi'; simpa using hA
    · simp only [if_neg hi', if_neg (show i + 1 ≠ s by omega)]
      rw [h.bump i (by omega) h2, nextF_ne (by omega)]
  · intro i j h1 h2 h3
    by_cases hi' : i = s
    · subst hi'
      simp only [if_true] at h3 ⊢
      rw [hFs, nextF, if_pos (hfit.2 h3.2), upd, if_pos ⟨rfl, h3.1⟩]
    · simp only [if_neg hi'] at h3 ⊢
      rw [← hfits i _ _ (by omega)] at h3
      exact h.fit i j (by omega) h2 h3
  · intro i j h1 h2 h3
    by_cases hi' : i = s
    · subst hi'
      simp only [if_true] at h3
      rw [← hfit] at h3
      rw [hFs]
      unfold nextF
      split
      · rw [upd, if_neg (by tauto)]
      · rfl
    · simp only [if_neg hi'] at h3
      rw [← hfits i _ _ (by omega)] at h3
      rw [h.same i j (by omega) h2 h3, nextF_ne (by omega)]
  · intro i j h1
    rcases h1 with h1 | h1
    · exact hF0 i j h1
    · rw [h.out i j (by omega), nextF_ne (by omega)]

theorem Tr.mono (h : Tr lo hi f F A X s t) : ∀ i j, s ≤ i → i ≤ j → j ≤ t → A i ≤ A j := by
  intro i j h1 h2
  induction j, h2 using Nat.le_induction with
  | base => intro _; exact le_refl _
  | succ j hj ih =>
    intro h3
    refine le_trans (ih (by omega)) ?_
    rw [h.bump j (by omega) (by omega)]
    exact le_of_lt ((h.pos j (by omega) (by omega)).2.2.2 (h.lt j (by omega) (by omega)))

/-- The new entries are at most the old ones, inside the array. -/
theorem Tr.le_old (h : Tr lo hi f F A X s t) (i j : Nat) (hj : j < hi i) : F i j ≤ f i j := by
  by_cases h1 : s ≤ i ∧ i ≤ t
  · by_cases h2 : j = X i ∧ Fit lo f F i (X i) (A i)
    · rw [h.fit i j h1.1 h1.2 h2]
      have := (h.pos i h1.1 h1.2).2.2.2
      rw [← h2.1] at this
      exact le_of_lt (this hj)
    · rw [h.same i j h1.1 h1.2 h2]
  · rw [h.out i j (by omega)]

/-- An entry is the old one or a smaller inserted value. -/
theorem Tr.cases (h : Tr lo hi f F A X s t) (i x : Nat) :
    F i x = f i x ∨ (s ≤ i ∧ i ≤ t ∧ x = X i ∧ F i x = A i ∧ (x < hi i → A i < f i x)) := by
  by_cases h1 : s ≤ i ∧ i ≤ t
  · by_cases h2 : x = X i ∧ Fit lo f F i (X i) (A i)
    · refine Or.inr ⟨h1.1, h1.2, h2.1, h.fit i x h1.1 h1.2 h2, ?_⟩
      rw [h2.1]
      exact (h.pos i h1.1 h1.2).2.2.2
    · exact Or.inl (h.same i x h1.1 h1.2 h2)
  · exact Or.inl (h.out i x (by omega))

/-! ## Weakly increasing values -/

/-- A second trace that starts with a larger value, in an array that agrees with the result of the first one except for
entries at most the starting value or at least the last value of the first trace. -/
theorem le_value (hf : Arr lo hi f) (h : Tr lo hi f F A X s t) {hi' : Nat → Nat}
    (h' : Tr lo hi' g G A' X' s' t') (hs : s ≤ s')
    (hg : ∀ i x, s' ≤ i → x < hi' i → (g i x = F i x ∧ (i < t → x < hi i)) ∨ g i x ≤ A' s' ∨ A t ≤ g i x)
    (ha : s' ≤ t → A s' ≤ A' s') : ∀ i, s' ≤ i → i ≤ t → i ≤ t' → A i ≤ A' i := by
  intro i h1
  induction i, h1 using Nat.le_induction with
  | base => intro h2 _; exact ha h2
  | succ i hi1 ih =>
    intro h2 h3
    have ih := ih (by omega) (by omega)
    have one := h'.one
    have p1 := h.pos i (by omega) (by omega)
    have p2 := h'.pos i (by omega) (by omega)
    have l2 := h'.lt i (by omega) (by omega)
    have hgt := p2.2.2.2 l2
    have hm := h'.mono s' i (le_refl _) hi1 (by omega)
    have hm1 := h.mono (i + 1) t (by omega) (by omega) (le_refl _)
    rw [h'.bump i (by omega) (by omega)]
    rcases hg i (X' i) hi1 l2 with ⟨h4, h5⟩ | h4 | h4
    · have l2 := h5 (by omega)
      rw [h.bump i (by omega) (by omega)]
      rw [h4] at hgt ⊢
      by_cases hc : X' i = X i ∧ Fit lo f F i (X i) (A i)
      · rw [h.fit i _ (by omega) (by omega) hc] at hgt; omega
      · rw [h.same i _ (by omega) (by omega) hc] at hgt ⊢
        have : X i ≤ X' i := by
          by_contra hk
          have := p1.2.2.1 (X' i) p2.1 (by omega)
          omega
        exact hf.rowLe (by omega) p1.1 this l2
    · omega
    · omega

/-- The last line of the second trace. -/
theorem le_last (hf : Arr lo hi f) (h : Tr lo hi f F A X s t) (hlast : X t = hi t) {hi' : Nat → Nat}
    (hhi : ∀ i, i ≠ t → hi' i = hi i) (hht : hi' t = if Fit lo f F t (X t) (A t) then hi t + 1 else hi t)
    (h' : Tr lo hi' g G A' X' s' t') (hs : s ≤ s') (hst : s' ≤ t)
    (hg : ∀ i x, s' ≤ i → x < hi' i → g i x = F i x ∨ g i x ≤ A' s') (ha : A s' ≤ A' s') : 
    t' ≤ t ∧ (t' = t → X' t = hi' t) := by
  have key : t ≤ t' → X' t = hi' t := by
    intro ht
    have ih := le_value hf h h' hs (fun i x h1 h2 => by
      rcases hg i x h1 h2 with h3 | h3
      · exact Or.inl ⟨h3, fun h4 => by rw [← hhi i (by omega)]; exact h2⟩
      · exact Or.inr (Or.inl h3)) (fun _ => ha) t hst (le_refl _) ht
    have p1 := h.pos t (by omega) (by omega)
    have p2 := h'.pos t (by omega) (by omega)
    by_contra hc
    have l2 : X' t < hi' t := by have := p2.2.1; omega
    have hgt := p2.2.2.2 l2
    have hm := h'.mono s' t (le_refl _) hst ht
    have hgF : g t (X' t) = F t (X' t) := by
      rcases hg t (X' t) hst l2 with h4 | h4
      · exact h4
      · omega
    rw [hgF] at hgt
    by_cases hc : X' t = X t ∧ Fit lo f F t (X t) (A t)
    · rw [h.fit t _ (by omega) (by omega) hc] at hgt; omega
    · rw [h.same t _ (by omega) (by omega) hc] at hgt
      have hlt : X' t < X t := by
        rw [hht] at l2
        split at l2
        · rename_i hfit
          by_contra hk
          exact hc ⟨by omega, hfit⟩
        · omega
      have := p1.2.2.1 (X' t) p2.1 hlt
      omega
  constructor
  · by_contra hc
    have h1 := key (by omega)
    have h2 := h'.lt t (by omega) (by omega)
    omega
  · intro h1; exact key (by omega)

/-! ## Strictly decreasing values -/

/-- The array `g` of the second trace and the result `F` of the first one agree, except for small and for large entries. -/
def Near (lo hi hi' : Nat → Nat) (F g : Nat → Nat → Int) (A : Nat → Int) (X : Nat → Nat) (s t : Nat) : Prop :=
  (∀ i, hi i ≤ hi' i) ∧
  ∀ i x, 1 ≤ i → lo i ≤ x → x < hi' i → (x < hi i ∨ (s ≤ i ∧ i ≤ t ∧ x = X i)) →
    g i x ≤ F i x ∧ (g i x = F i x ∨ F i x < A s ∨ A t < F i x)

variable {hi' : Nat → Nat}

/-- If the value of the second trace is smaller at line `r`, there is an entry larger than it weakly before the position of
the first trace. -/
theorem gt_line (hg' : Arr lo hi' g) (h : Tr lo hi f F A X s t) (h' : Tr lo hi' g G A' X' s' t')
    (hge : Near lo hi hi' F g A X s t)
    {r : Nat} (hr1 : s ≤ r) (hr2 : r ≤ t) (hr' : r ≤ t') (hfx : Fit lo f F r (X r) (A r) → X r < hi' r)
    (hab : r ≠ 1 → ¬ F (r - 1) (X r) < A r → s' < r ∧ X' (r - 1) < X r) (ha : A' r < A r) :
    ∃ j, lo r ≤ j ∧ j ≤ X r ∧ j < hi' r ∧ A' r < g r j ∧ (j < X r ∨ (g r (X r) = A r ∧ j = X r)) := by
  have one := h.one
  have p := h.pos r hr1 hr2
  have hm := h.mono s r (le_refl _) hr1 hr2
  have hm' := h.mono r t hr1 hr2 (le_refl _)
  have hlo := hge.1
  by_cases hf : Fit lo f F r (X r) (A r)
  · have hF := h.fit r (X r) hr1 hr2 ⟨rfl, hf⟩
    have hgF : g r (X r) = A r := by
      rcases (hge.2 r (X r) (by omega) p.1 (hfx hf) (Or.inr ⟨hr1, hr2, rfl⟩)).2 with h1 | h1 | h1
      · rw [h1, hF]
      · omega
      · omega
    exact ⟨X r, p.1, le_refl _, hfx hf, by omega, Or.inr ⟨hgF, rfl⟩⟩
  · have hFsame : ∀ j, F r j = f r j := fun j => h.same r j hr1 hr2 (by tauto)
    by_cases h1 : X r = lo r ∨ f r (X r - 1) < A r
    · have h2 : ¬ (r = 1 ∨ F (r - 1) (X r) < A r) := fun h => hf ⟨h1, h⟩
      push Not at h2
      obtain ⟨c1, c2⟩ := hab h2.1 (by omega)
      obtain ⟨q, rfl⟩ := Nat.exists_eq_succ_of_ne_zero (show r ≠ 0 by omega)
      simp only [Nat.succ_eq_add_one, Nat.add_sub_cancel] at *
      have b1 := h'.bump q (by omega) (by omega)
      have l1 := h'.lt q (by omega) (by omega)
      have i1 := h'.inner q (by omega) (by omega)
      have p1 := h'.pos q (by omega) (by omega)
      have one' := h'.one
      have e1 := hlo (q + 1)
      have e2 := p.2.1
      refine ⟨X' q, i1, by omega, by omega, ?_, Or.inl c2⟩
      rw [b1]
      exact hg'.col q (X' q) (by omega) p1.1 l1 i1 (by omega)
    · push Not at h1
      have e0 := p.1
      have e1 := hlo r
      have e2 := p.2.1
      have e3 := p.2.2.1 (X r - 1) (by omega) (by omega)
      refine ⟨X r - 1, by omega, by omega, by omega, ?_, Or.inl (by omega)⟩
      rcases (hge.2 r (X r - 1) (by omega) (by omega) (by omega) (Or.inl (by omega))).2 with h3 | h3 | h3
      · rw [h3, hFsame]; omega
      · rw [hFsame] at h3; omega
      · rw [hFsame] at h3; omega

/-- In the situation of `gt_line` with the first trace coming from line `r - 1`. -/
theorem gt_above (hf : Arr lo hi f) (hg' : Arr lo hi' g) (h : Tr lo hi f F A X s t)
    (h' : Tr lo hi' g G A' X' s' t') (hge : Near lo hi hi' F g A X s t)
    (hmono : ∀ i, 1 ≤ i → lo i ≤ lo (i + 1))
    {r : Nat} (hr1 : s < r) (hr2 : r ≤ t) (hs' : s' < r) (hr' : r ≤ t') (ha : A' r < A r) (hn : ¬ F (r - 1) (X r) < A r) :
    X' (r - 1) < X r := by
  have one := h.one
  have hlo := hge.1
  obtain ⟨q, rfl⟩ := Nat.exists_eq_succ_of_ne_zero (show r ≠ 0 by omega)
  simp only [Nat.succ_eq_add_one, Nat.add_sub_cancel] at *
  have p := h.pos (q + 1) (by omega) hr2
  have pq := h.pos q (by omega) (by omega)
  have l := h.lt q (by omega) (by omega)
  have b := h.bump q (by omega) (by omega)
  have inn := h.inner q (by omega) (by omega)
  have l' := h'.lt q (by omega) (by omega)
  have b' := h'.bump q (by omega) (by omega)
  have p' := h'.pos q (by omega) (by omega)
  have hm' := h.mono (q + 1) t (by omega) hr2 (le_refl _)
  have hloq := hlo q
  have hmo := hmono q (by omega)
  have hle : X (q + 1) ≤ X q := by
    by_contra hc
    have h3 := p.2.2.1 (X q) inn (by omega)
    have h4 := hf.col q (X q) (by omega) (by omega) l inn (by have := p.2.1; omega)
    omega
  have hp1 := p.1
  have heq : X (q + 1) = X q := by
    by_contra hc
    rw [h.same q (X (q + 1)) (by omega) (by omega) (by omega)] at hn
    have := hf.rowLt (i := q) (j := X (q + 1)) (j' := X q) (by omega) (by omega) (by omega) l
    omega
  have hns : F q (X q) = f q (X q) := by
    apply h.same q _ (by omega) (by omega)
    intro hc
    have h3 := h.fit q _ (by omega) (by omega) hc
    have h4 := pq.2.2.2 l
    rw [heq] at hn
    omega
  by_contra hc
  rw [heq] at hc
  have hgF : g q (X q) = F q (X q) := by
    rcases (hge.2 q (X q) (by omega) (by omega) (by omega) (Or.inl l)).2 with h1 | h1 | h1
    · exact h1
    · rw [hns] at h1
      have := h.mono s (q + 1) (le_refl _) (by omega) (by omega)
      omega
    · omega
  have h3 := hg'.rowLe (i := q) (j := X q) (j' := X' q) (by omega) (by omega) (by omega) l'
  rw [hgF, hns] at h3
  omega

/-- The second trace passes line `r`. -/
theorem gt_step (hg' : Arr lo hi' g) (h' : Tr lo hi' g G A' X' s' t') {r j : Nat} (hs' : s' ≤ r) (hr' : r ≤ t')
    (hj1 : lo r ≤ j) (hj2 : j < hi' r) (hj3 : A' r < g r j) :
    X' r ≤ j ∧ g r (X' r) ≤ g r j := by
  have one := h'.one
  have p := h'.pos r hs' hr'
  have hk : X' r ≤ j := by
    by_contra hc
    have := p.2.2.1 j hj1 (by omega)
    omega
  exact ⟨hk, hg'.rowLe (by omega) p.1 hk hj2⟩

/-- A second trace with a smaller value stays weakly before the first one. -/
theorem gt_all (hf : Arr lo hi f) (hg' : Arr lo hi' g) (h : Tr lo hi f F A X s t) (h' : Tr lo hi' g G A' X' s' t')
    (hge : Near lo hi hi' F g A X s t) (hmono : ∀ i, 1 ≤ i → lo i ≤ lo (i + 1))
    (hht : Fit lo f F t (X t) (A t) → X t < hi' t) (hs : s' ≤ s)
    (hab0 : s ≠ 1 → ¬ F (s - 1) (X s) < A s → s' < s ∧ X' (s - 1) < X s) (ha : s ≤ t' → A' s < A s) :
    ∀ r, s ≤ r → r ≤ t → r ≤ t' → A' r < A r ∧ ∃ j, lo r ≤ j ∧ j ≤ X r ∧ j < hi' r ∧ X' r ≤ j ∧ g r (X' r) ≤ g r j ∧
      (j < X r ∨ (g r (X r) = A r ∧ j = X r)) := by
  have key : ∀ r, s ≤ r → r ≤ t → r ≤ t' → A' r < A r → ∃ j, lo r ≤ j ∧ j ≤ X r ∧ j < hi' r ∧ X' r ≤ j ∧ g r (X' r) ≤ g r j ∧
      (j < X r ∨ (g r (X r) = A r ∧ j = X r)) := by
    intro r h1 h2 h3 h4
    obtain ⟨j, j1, j2, j3, j4, j5⟩ := gt_line hg' h h' hge h1 h2 h3 (by
        rcases Nat.eq_or_lt_of_le h2 with rfl | h5
        · exact hht
        · intro _; exact lt_of_lt_of_le (h.lt r h1 h5) (hge.1 r))
      (by
        rcases Nat.eq_or_lt_of_le h1 with rfl | h5
        · exact hab0
        · intro _ hn
          exact ⟨by omega, gt_above hf hg' h h' hge hmono h5 h2 (by omega) h3 h4 hn⟩) h4
    obtain ⟨k1, k2⟩ := gt_step hg' h' (by omega) h3 j1 j3 j4
    exact ⟨j, j1, j2, j3, k1, k2, j5⟩
  intro r h1
  induction r, h1 using Nat.le_induction with
  | base => intro h2 h3; exact ⟨ha h3, key s (le_refl _) h2 h3 (ha h3)⟩
  | succ r hr ih =>
    intro h2 h3
    obtain ⟨ih1, j, j1, j2, j3, j4, j5, j6⟩ := ih (by omega) (by omega)
    have one := h.one
    have l := h.lt r (by omega) (by omega)
    have p := h.pos r (by omega) (by omega)
    have hlt : A' (r + 1) < A (r + 1) := by
      rw [h.bump r (by omega) (by omega), h'.bump r (by omega) (by omega)]
      refine lt_of_le_of_lt j5 ?_
      rcases j6 with j6 | ⟨j6, rfl⟩
      · have e1 := (hge.2 r j (by omega) j1 j3 (Or.inl (by omega))).1
        rw [h.same r j (by omega) (by omega) (by omega)] at e1
        have e2 := hf.rowLt (i := r) (by omega) j1 j6 l
        omega
      · rw [j6]
        exact p.2.2.2 l
    exact ⟨hlt, key (r + 1) (by omega) h2 h3 hlt⟩

/-- The second trace stays weakly before position `c`. -/
theorem gt_walk (hg' : Arr lo hi' g) (h' : Tr lo hi' g G A' X' s' t') {q c : Nat} (hq : s' ≤ q) (hq0 : q ≤ t' → g q (X' q) ≤ g q c) :
    ∀ r, q ≤ r → (∀ k, q ≤ k → k ≤ r → lo k ≤ c ∧ c < hi' k) → r ≤ t' → g r (X' r) ≤ g r c ∧ (q < r → X' r ≤ c) := by
  intro r h1
  have one := h'.one
  induction r, h1 using Nat.le_induction with
  | base => intro _ h2; exact ⟨hq0 h2, by omega⟩
  | succ r hr ih =>
    intro hk h2
    have ih := (ih (fun k h1 h2 => hk k h1 (by omega)) (by omega)).1
    have c1 := hk r (by omega) (by omega)
    have c2 := hk (r + 1) (by omega) (by omega)
    have h3 := hg'.col r c (by omega) c1.1 c1.2 c2.1 c2.2
    have h4 := h'.bump r (by omega) (by omega)
    obtain ⟨k1, k2⟩ := gt_step hg' h' (r := r + 1) (by omega) (by omega) c2.1 c2.2 (by omega)
    exact ⟨k2, fun _ => k1⟩

end Verif.Lines
