import Verif.Lemmas.HeckeCount

/-!
# The symplectic action of the 0-Hecke monoid on fixed-point-free involutions of the positive integers
-/

namespace Verif.YB

/-- An involution of the natural numbers without fixed points, except possibly 0. -/
@[ext] structure FpfFun where
  f : Nat → Nat
  inv : ∀ a, f (f a) = a
  ne : ∀ a, 1 ≤ a → f a ≠ a

/-- The transposition of `i` and `i + 1`. -/
def swp (i a : Nat) : Nat := if a = i then i + 1 else if a = i + 1 then i else a

theorem swp_swp (i a : Nat) : swp i (swp i a) = a := by unfold swp; (repeat' split) <;> omega

theorem swp_l (i : Nat) : swp i i = i + 1 := by unfold swp; simp
theorem swp_r (i : Nat) : swp i (i + 1) = i := by unfold swp; simp
theorem swp_o {i a : Nat} (h1 : a ≠ i) (h2 : a ≠ i + 1) : swp i a = a := by unfold swp; rw [if_neg h1, if_neg h2]

theorem swp_comm {i j : Nat} (h : i + 2 ≤ j) (a : Nat) : swp i (swp j a) = swp j (swp i a) := by
  by_cases h1 : a = i
  · rw [h1, swp_l, swp_o (i := j) (a := i) (by omega) (by omega), swp_l, swp_o (i := j) (a := i + 1) (by omega) (by omega)]
  · by_cases h2 : a = i + 1
    · rw [h2, swp_r, swp_o (i := j) (a := i + 1) (by omega) (by omega), swp_r, swp_o (i := j) (a := i) (by omega) (by omega)]
    · rw [swp_o (i := i) (a := a) h1 h2]
      apply swp_o <;> (unfold swp; (repeat' split) <;> omega)

theorem swp_braid (i a : Nat) : swp i (swp (i + 1) (swp i a)) = swp (i + 1) (swp i (swp (i + 1) a)) := by
  by_cases h1 : a = i
  · subst h1
    rw [swp_l, swp_l, swp_o (i := a) (a := a + 1 + 1) (by omega) (by omega), swp_o (i := a + 1) (a := a) (by omega) (by omega), swp_l, swp_l]
  · by_cases h2 : a = i + 1
    · subst h2
      rw [swp_r, swp_o (i := i + 1) (a := i) (by omega) (by omega), swp_l, swp_l, swp_o (i := i) (a := i + 1 + 1) (by omega) (by omega), swp_r]
    · by_cases h3 : a = i + 2
      · subst h3
        rw [swp_o (i := i) (a := i + 2) (by omega) (by omega), show i + 2 = i + 1 + 1 from rfl, swp_r, swp_r,
          swp_o (i := i + 1) (a := i) (by omega) (by omega)]
      · rw [swp_o (i := i) (a := a) h1 h2, swp_o (i := i + 1) (a := a) h2 h3, swp_o (i := i) (a := a) h1 h2,
          swp_o (i := i + 1) (a := a) h2 h3]

/-- The conjugate by the transposition. -/
def FpfFun.conj (F : FpfFun) (i : Nat) : FpfFun :=
  if h : 1 ≤ i then
    ⟨fun a => swp i (F.f (swp i a)), fun a => by simp only [swp_swp, F.inv], fun a ha he => by
      have h1 : F.f (swp i a) = swp i a := by rw [← swp_swp i (F.f (swp i a)), he]
      refine F.ne _ ?_ h1
      unfold swp; (repeat' split) <;> omega⟩
  else F

/-- The action of the letter `i`; `none` if it is not allowed. -/
def spAct : Option FpfFun → Nat → Option FpfFun
  | none, _ => none
  | some F, i =>
    if i = 0 then some F
    else if F.f i = i + 1 then none
    else if F.f (i + 1) < F.f i then some F
    else some (F.conj i)

variable {F : FpfFun} {i j : Nat}

theorem conj_f (hi : 1 ≤ i) (a : Nat) : (F.conj i).f a = swp i (F.f (swp i a)) := by
  unfold FpfFun.conj; rw [dif_pos hi]

theorem FpfFun.injf (F : FpfFun) {a b : Nat} (h : F.f a = F.f b) : a = b := by
  rw [← F.inv a, h, F.inv]

theorem st_zero : spAct (some F) 0 = some F := rfl
theorem st_none (hi : 1 ≤ i) (h : F.f i = i + 1) : spAct (some F) i = none := by
  unfold spAct; simp [h]; omega
theorem st_desc (h : F.f i ≠ i + 1) (h2 : F.f (i + 1) < F.f i) : spAct (some F) i = some F := by
  unfold spAct; simp [h, h2]
theorem st_asc (hi : 1 ≤ i) (h : F.f i ≠ i + 1) (h2 : F.f i < F.f (i + 1)) : spAct (some F) i = some (F.conj i) := by
  unfold spAct; simp only; rw [if_neg (by omega), if_neg h, if_neg (by omega)]

theorem ne_of_adj (h : F.f i ≠ i + 1) : F.f (i + 1) ≠ i := fun h' => h (by have := F.inv (i + 1); rw [h'] at this; exact this)

theorem sp_idem (x : Option FpfFun) (i : Nat) : spAct (spAct x i) i = spAct x i := by
  cases x with
  | none => rfl
  | some F =>
    rcases Nat.eq_zero_or_pos i with rfl | hi
    · rfl
    · by_cases h : F.f i = i + 1
      · rw [st_none hi h]; rfl
      · rcases lt_trichotomy (F.f i) (F.f (i + 1)) with h2 | h2 | h2
        · rw [st_asc hi h h2]
          have h3 := ne_of_adj h
          have h4 := F.ne i hi
          have h5 := F.ne (i + 1) (by omega)
          have e1 : (F.conj i).f i = F.f (i + 1) := by rw [conj_f hi, swp_l, swp_o h3 h5]
          have e2 : (F.conj i).f (i + 1) = F.f i := by rw [conj_f hi, swp_r, swp_o h4 h]
          apply st_desc
          · rw [e1]; exact h5
          · rw [e1, e2]; exact h2
        · have := F.injf h2; omega
        · rw [st_desc h h2, st_desc h h2]

theorem conj_comm (hi : 1 ≤ i) (hij : i + 2 ≤ j) : (F.conj i).conj j = (F.conj j).conj i := by
  apply FpfFun.ext
  funext a
  rw [conj_f (by omega), conj_f hi, conj_f hi, conj_f (by omega), swp_comm hij, swp_comm hij]

/-- The conditions at `j` before and after conjugation at `i`. -/
theorem conj_far (hi : 1 ≤ i) (hij : i + 2 ≤ j ∨ j + 2 ≤ i) :
    ((F.conj i).f j = j + 1 ↔ F.f j = j + 1) ∧
    (¬ (F.f j = i ∧ F.f (j + 1) = i + 1) → ¬ (F.f j = i + 1 ∧ F.f (j + 1) = i) →
      ((F.conj i).f (j + 1) < (F.conj i).f j ↔ F.f (j + 1) < F.f j)) := by
  rw [conj_f hi, conj_f hi, swp_o (i := i) (a := j) (by omega) (by omega), swp_o (i := i) (a := j + 1) (by omega) (by omega)]
  have hne : F.f j ≠ F.f (j + 1) := fun h => by have := F.injf h; omega
  constructor
  · unfold swp; (repeat' split) <;> omega
  · intro h1 h2
    unfold swp
    (repeat' split) <;> omega

theorem sp_far (x : Option FpfFun) (i j : Nat) (hij : i + 2 ≤ j) : spAct (spAct x i) j = spAct (spAct x j) i := by
  cases x with
  | none => rfl
  | some F =>
    rcases Nat.eq_zero_or_pos i with rfl | hi
    · rw [st_zero]
      generalize spAct (some F) j = y
      cases y <;> rfl
    · have hj : 1 ≤ j := by omega
      obtain ⟨p1, p2⟩ := conj_far (F := F) hi (Or.inl hij)
      obtain ⟨q1, q2⟩ := conj_far (F := F) hj (Or.inr hij)
      have ni : F.f i ≠ F.f (i + 1) := fun h => by have := F.injf h; omega
      have nj : F.f j ≠ F.f (j + 1) := fun h => by have := F.injf h; omega
      by_cases hi1 : F.f i = i + 1
      · rw [st_none hi hi1]
        by_cases hj1 : F.f j = j + 1
        · rw [st_none hj hj1]; rfl
        · rcases lt_or_gt_of_ne nj with h | h
          · rw [st_asc hj hj1 h, st_none hi (q1.2 hi1)]; rfl
          · rw [st_desc hj1 h, st_none hi hi1]; rfl
      · by_cases hj1 : F.f j = j + 1
        · rw [st_none hj hj1]
          rcases lt_or_gt_of_ne ni with h | h
          · rw [st_asc hi hi1 h, st_none hj (p1.2 hj1)]; rfl
          · rw [st_desc hi1 h, st_none hj hj1]; rfl
        · by_cases s1 : F.f j = i ∧ F.f (j + 1) = i + 1
          · obtain ⟨s1, s2⟩ := s1
            have t1 : F.f i = j := by rw [← s1, F.inv]
            have t2 : F.f (i + 1) = j + 1 := by rw [← s2, F.inv]
            rw [st_asc hi hi1 (by omega), st_asc hj hj1 (by omega)]
            have e1 : (F.conj i).f j = i + 1 := by rw [conj_f hi, swp_o (i := i) (a := j) (by omega) (by omega), s1, swp_l]
            have e2 : (F.conj i).f (j + 1) = i := by rw [conj_f hi, swp_o (i := i) (a := j + 1) (by omega) (by omega), s2, swp_r]
            have e3 : (F.conj j).f i = j + 1 := by rw [conj_f hj, swp_o (i := j) (a := i) (by omega) (by omega), t1, swp_l]
            have e4 : (F.conj j).f (i + 1) = j := by rw [conj_f hj, swp_o (i := j) (a := i + 1) (by omega) (by omega), t2, swp_r]
            rw [st_desc (by omega) (by omega), st_desc (by omega) (by omega)]
            congr 1
            apply FpfFun.ext
            funext a
            by_cases a1 : a = i
            · rw [a1, e3, conj_f hi, swp_l, t2, swp_o (by omega) (by omega)]
            · by_cases a2 : a = i + 1
              · rw [a2, e4, conj_f hi, swp_r, t1, swp_o (by omega) (by omega)]
              · by_cases a3 : a = j
                · rw [a3, e1, conj_f hj, swp_l, s2, swp_o (by omega) (by omega)]
                · by_cases a4 : a = j + 1
                  · rw [a4, e2, conj_f hj, swp_r, s1, swp_o (by omega) (by omega)]
                  · rw [conj_f hi, conj_f hj, swp_o a1 a2, swp_o a3 a4, swp_o, swp_o]
                    · intro h; exact a1 (by rw [← F.inv a, h, s1])
                    · intro h; exact a2 (by rw [← F.inv a, h, s2])
                    · intro h; exact a3 (by rw [← F.inv a, h, t1])
                    · intro h; exact a4 (by rw [← F.inv a, h, t2])
          · by_cases s2 : F.f j = i + 1 ∧ F.f (j + 1) = i
            · obtain ⟨s1, s2⟩ := s2
              have t1 : F.f i = j + 1 := by rw [← s2, F.inv]
              have t2 : F.f (i + 1) = j := by rw [← s1, F.inv]
              rw [st_desc hi1 (by omega), st_desc hj1 (by omega), st_desc hi1 (by omega)]
            · have p2 := p2 s1 s2
              have q2 := q2 (by
                rintro ⟨t1, t2⟩
                exact s1 ⟨by rw [← t1, F.inv], by rw [← t2, F.inv]⟩) (by
                rintro ⟨t1, t2⟩
                exact s2 ⟨by rw [← t2, F.inv], by rw [← t1, F.inv]⟩)
              have ni' : (F.conj j).f i ≠ (F.conj j).f (i + 1) := fun h => by have := (F.conj j).injf h; omega
              have nj' : (F.conj i).f j ≠ (F.conj i).f (j + 1) := fun h => by have := (F.conj i).injf h; omega
              have p1' : (F.conj i).f j ≠ j + 1 := fun h => hj1 (p1.1 h)
              have q1' : (F.conj j).f i ≠ i + 1 := fun h => hi1 (q1.1 h)
              rcases lt_or_gt_of_ne ni with h | h <;> rcases lt_or_gt_of_ne nj with g | g
              · rw [st_asc hi hi1 h, st_asc hj hj1 g, st_asc hj p1' (by omega), st_asc hi q1' (by omega), conj_comm hi hij]
              · rw [st_asc hi hi1 h, st_desc hj1 g, st_desc p1' (by omega), st_asc hi hi1 h]
              · rw [st_desc hi1 h, st_asc hj hj1 g, st_desc q1' (by omega)]
              · rw [st_desc hi1 h, st_desc hj1 g, st_desc hi1 h]

/-- The values at three consecutive places, outside these places. -/
structure Vals (F : FpfFun) (i x y z : Nat) : Prop where
  a : F.f i = x
  b : F.f (i + 1) = y
  c : F.f (i + 2) = z
  oa : x < i ∨ i + 2 < x
  ob : y < i ∨ i + 2 < y
  oc : z < i ∨ i + 2 < z

theorem Vals.left {x y z : Nat} (hi : 1 ≤ i) (h : Vals F i x y z) : Vals (F.conj i) i y x z := by
  obtain ⟨a, b, c, oa, ob, oc⟩ := h
  refine ⟨?_, ?_, ?_, ob, oa, oc⟩
  · rw [conj_f hi, swp_l, b, swp_o (by omega) (by omega)]
  · rw [conj_f hi, swp_r, a, swp_o (by omega) (by omega)]
  · rw [conj_f hi, swp_o (i := i) (a := i + 2) (by omega) (by omega), c, swp_o (by omega) (by omega)]

theorem Vals.right {x y z : Nat} (h : Vals F i x y z) : Vals (F.conj (i + 1)) i x z y := by
  obtain ⟨a, b, c, oa, ob, oc⟩ := h
  have hi : 1 ≤ i + 1 := by omega
  refine ⟨?_, ?_, ?_, oa, oc, ob⟩
  · rw [conj_f hi, swp_o (i := i + 1) (a := i) (by omega) (by omega), a, swp_o (by omega) (by omega)]
  · rw [conj_f hi, swp_l, c, swp_o (by omega) (by omega)]
  · rw [conj_f hi, show i + 2 = i + 1 + 1 from rfl, swp_r, b, swp_o (by omega) (by omega)]

theorem Vals.stL {x y z : Nat} (hi : 1 ≤ i) (h : Vals F i x y z) (_ : x ≠ y) :
    (x < y → spAct (some F) i = some (F.conj i)) ∧ (y < x → spAct (some F) i = some F) := by
  obtain ⟨a, b, c, oa, ob, oc⟩ := h
  exact ⟨fun h => st_asc hi (by omega) (by omega), fun h => st_desc (by omega) (by omega)⟩

theorem Vals.stR {x y z : Nat} (h : Vals F i x y z) (_ : y ≠ z) :
    (y < z → spAct (some F) (i + 1) = some (F.conj (i + 1))) ∧ (z < y → spAct (some F) (i + 1) = some F) := by
  obtain ⟨a, b, c, oa, ob, oc⟩ := h
  have c' : F.f (i + 1 + 1) = z := c
  exact ⟨fun h => st_asc (by omega) (by omega) (by omega), fun h => st_desc (by omega) (by omega)⟩

theorem conj_braid (hi : 1 ≤ i) : ((F.conj i).conj (i + 1)).conj i = ((F.conj (i + 1)).conj i).conj (i + 1) := by
  apply FpfFun.ext
  funext a
  have h1 : 1 ≤ i + 1 := by omega
  rw [conj_f hi, conj_f h1, conj_f hi, conj_f h1, conj_f hi, conj_f h1, swp_braid, swp_braid]

theorem sp_near (x : Option FpfFun) (i : Nat) (hi : 1 ≤ i) :
    spAct (spAct (spAct x i) (i + 1)) i = spAct (spAct (spAct x (i + 1)) i) (i + 1) := by
  cases x with
  | none => rfl
  | some F =>
    have hi' : 1 ≤ i + 1 := by omega
    have na := F.ne i hi
    have nb := F.ne (i + 1) (by omega)
    have nc := F.ne (i + 2) (by omega)
    have nab : F.f i ≠ F.f (i + 1) := fun h => by have := F.injf h; omega
    have nac : F.f i ≠ F.f (i + 2) := fun h => by have := F.injf h; omega
    have nbc : F.f (i + 1) ≠ F.f (i + 2) := fun h => by have := F.injf h; omega
    by_cases h1 : F.f i = i + 1
    · have h2 : F.f (i + 1) = i := by rw [← h1, F.inv]
      rw [st_none hi h1]
      show none = _
      by_cases h3 : F.f (i + 2) < i
      · have h3' : F.f (i + 1 + 1) < i := h3
        rw [st_desc (F := F) (i := i + 1) (by omega) (by omega), st_none hi h1]; rfl
      · have h3' : i + 2 < F.f (i + 1 + 1) := by show i + 2 < F.f (i + 2); omega
        rw [st_asc (F := F) (i := i + 1) hi' (by omega) (by omega)]
        have e1 : (F.conj (i + 1)).f i = i + 2 := by rw [conj_f hi', swp_o (i := i + 1) (a := i) (by omega) (by omega), h1, swp_l]
        have e2 : (F.conj (i + 1)).f (i + 1) = F.f (i + 1 + 1) := by rw [conj_f hi', swp_l, swp_o (by omega) (by omega)]
        rw [st_asc hi (by omega) (by omega), st_none hi']
        rw [conj_f hi, swp_r, e1, swp_o (by omega) (by omega)]
    · by_cases h2 : F.f (i + 1) = i + 2
      · have h3 : F.f (i + 2) = i + 1 := by rw [← h2, F.inv]
        rw [st_none (F := F) (i := i + 1) hi' h2]
        show _ = none
        by_cases h4 : F.f i < i
        · rw [st_asc hi h1 (by omega)]
          have e1 : (F.conj i).f i = i + 2 := by rw [conj_f hi, swp_l, h2, swp_o (by omega) (by omega)]
          have e2 : (F.conj i).f (i + 1) = F.f i := by rw [conj_f hi, swp_r, swp_o (by omega) (by omega)]
          have e3 : (F.conj i).f (i + 1 + 1) = i := by
            rw [conj_f hi, swp_o (i := i) (a := i + 1 + 1) (by omega) (by omega), show i + 1 + 1 = i + 2 from rfl, h3, swp_r]
          rw [st_asc (i := i + 1) hi' (by omega) (by omega), st_none hi]
          rw [conj_f hi', swp_o (i := i + 1) (a := i) (by omega) (by omega), e1, show i + 2 = i + 1 + 1 from rfl, swp_r]
        · rw [st_desc h1 (by omega), st_none (F := F) (i := i + 1) hi' h2]; rfl
      · by_cases h3 : F.f i = i + 2
        · have h4 : F.f (i + 2) = i := by rw [← h3, F.inv]
          have h4' : F.f (i + 1 + 1) = i := h4
          have nbc' : F.f (i + 1) ≠ i := by omega
          by_cases h5 : F.f (i + 1) < i
          · rw [st_desc (F := F) (i := i) (by omega) (by omega), st_asc (F := F) (i := i + 1) hi' (by omega) (by omega)]
            have e1 : (F.conj (i + 1)).f i = i + 1 := by
              rw [conj_f hi', swp_o (i := i + 1) (a := i) (by omega) (by omega), h3, show i + 2 = i + 1 + 1 from rfl, swp_r]
            rw [st_none hi e1]; rfl
          · have h6 : i + 2 < F.f (i + 1) := by omega
            rw [st_asc (F := F) (i := i) hi (by omega) (by omega), st_desc (F := F) (i := i + 1) (by omega) (by omega),
              st_asc (F := F) (i := i) hi (by omega) (by omega)]
            have e1 : (F.conj i).f (i + 1) = i + 2 := by rw [conj_f hi, swp_r, h3, swp_o (by omega) (by omega)]
            rw [st_none hi' e1]; rfl
        · have nba := ne_of_adj h1
          have h2' : F.f (i + 2) ≠ i + 1 := fun h => h2 (by rw [← h, F.inv])
          have h3' : F.f (i + 2) ≠ i := fun h => h3 (by have := F.inv (i + 2); rw [h] at this; exact this)
          have v : Vals F i (F.f i) (F.f (i + 1)) (F.f (i + 2)) := ⟨rfl, rfl, rfl, by omega, by omega, by omega⟩
          generalize F.f i = x at *
          generalize F.f (i + 1) = y at *
          generalize F.f (i + 2) = z at *
          rcases lt_or_gt_of_ne nab with c1 | c1 <;> rcases lt_or_gt_of_ne nac with c2 | c2 <;>
            rcases lt_or_gt_of_ne nbc with c3 | c3
          · rw [(v.stL hi nab).1 c1, ((v.left hi).stR nac).1 c2, ((v.left hi).right.stL hi nbc).1 c3, (v.stR nbc).1 c3,
              (v.right.stL hi nac).1 c2, ((v.right.left hi).stR nab).1 c1, conj_braid hi]
          · rw [(v.stL hi nab).1 c1, ((v.left hi).stR nac).1 c2, ((v.left hi).right.stL hi nbc).2 c3, (v.stR nbc).2 c3,
              (v.stL hi nab).1 c1, ((v.left hi).stR nac).1 c2]
          · omega
          · rw [(v.stL hi nab).1 c1, ((v.left hi).stR nac).2 c2, ((v.left hi).stL hi nab.symm).2 c1, (v.stR nbc).2 c3,
              (v.stL hi nab).1 c1, ((v.left hi).stR nac).2 c2]
          · rw [(v.stL hi nab).2 c1, (v.stR nbc).1 c3, (v.right.stL hi nac).1 c2, ((v.right.left hi).stR nab).2 c1]
          · omega
          · rw [(v.stL hi nab).2 c1, (v.stR nbc).1 c3, (v.right.stL hi nac).2 c2, (v.right.stR nbc.symm).2 c3]
          · rw [(v.stL hi nab).2 c1, (v.stR nbc).2 c3, (v.stL hi nab).2 c1, (v.stR nbc).2 c3]

theorem grel_spAct : GRel spAct where
  idem := sp_idem
  far := sp_far
  near x i h := sp_near x i h
  zero x := by
    have h0 : ∀ y : Option FpfFun, spAct y 0 = y := by intro y; cases y <;> rfl
    simp only [h0, sp_idem]

end Verif.YB
