import Verif.Lemmas.PermWords

/-! The 0-Hecke action and the Demazure product. -/

namespace Verif.Perm

attribute [local irreducible] mul s inverse identity

theorem sFun_of_ne {i : Nat} {a : Int} (h1 : a ≠ lo i) (h2 : a ≠ -lo i) (h3 : a ≠ i + 1) (h4 : a ≠ -(i + 1)) :
    sFun i a = a := by
  unfold lo at h1 h2
  unfold sFun
  (repeat' split) <;> simp_all

theorem sFun_neg (i : Nat) (a : Int) : sFun i (-a) = -sFun i a := (sFun_odd i).neg a

theorem sFun_comm {i j : Nat} (h : i + 2 ≤ j) (a : Int) : sFun i (sFun j a) = sFun j (sFun i a) := by
  have hj : lo j = j := if_neg (by omega)
  have hi : lo i = -1 ∧ i = 0 ∨ lo i = i := by unfold lo; split <;> simp_all
  have e1 : sFun i (lo j) = lo j := sFun_of_ne (by omega) (by omega) (by omega) (by omega)
  have e2 : sFun i ((j : Int) + 1) = j + 1 := sFun_of_ne (by omega) (by omega) (by omega) (by omega)
  have e3 : sFun j (lo i) = lo i := sFun_of_ne (by omega) (by omega) (by omega) (by omega)
  have e4 : sFun j ((i : Int) + 1) = i + 1 := sFun_of_ne (by omega) (by omega) (by omega) (by omega)
  by_cases c1 : a = lo i
  · rw [c1, e3, sFun_lo, e4]
  by_cases c2 : a = -lo i
  · rw [c2, sFun_neg, e3, sFun_neg, sFun_lo, sFun_neg, e4]
  by_cases c3 : a = i + 1
  · rw [c3, e4, sFun_hi, e3]
  by_cases c4 : a = -(i + 1)
  · rw [c4, sFun_neg, e4, sFun_neg, sFun_hi, sFun_neg, e3]
  rw [sFun_of_ne c1 c2 c3 c4]
  by_cases d1 : a = lo j
  · rw [d1, sFun_lo, e2]
  by_cases d2 : a = -lo j
  · rw [d2, sFun_neg, sFun_lo, sFun_neg, e2]
  by_cases d3 : a = j + 1
  · rw [d3, sFun_hi, e1]
  by_cases d4 : a = -(j + 1)
  · rw [d4, sFun_neg, sFun_hi, sFun_neg, e1]
  rw [sFun_of_ne d1 d2 d3 d4, sFun_of_ne c1 c2 c3 c4]

/-- Values of `s_i` and `s_{i+1}` on `i`, `i+1`, `i+2` for `i ≥ 1`. -/
theorem sFun_vals {i : Nat} (h : 1 ≤ i) : sFun i (i : Int) = i + 1 ∧ sFun i ((i : Int) + 1) = i ∧ sFun i ((i : Int) + 2) = i + 2 ∧
    sFun (i + 1) (i : Int) = i ∧ sFun (i + 1) ((i : Int) + 1) = i + 2 ∧ sFun (i + 1) ((i : Int) + 2) = i + 1 := by
  refine ⟨?_, ?_, ?_, ?_, ?_, ?_⟩ <;> unfold sFun <;> (repeat' split) <;> omega

theorem sFun_braid3 {i : Nat} (h : 1 ≤ i) (a : Int) :
    sFun i (sFun (i + 1) (sFun i a)) = sFun (i + 1) (sFun i (sFun (i + 1) a)) := by
  obtain ⟨e1, e2, e3, e4, e5, e6⟩ := sFun_vals h
  have hi : lo i = i := if_neg (by omega)
  have hj : lo (i + 1) = i + 1 := by rw [lo, if_neg (by omega)]; push_cast; rfl
  have pos : ∀ a : Int, a = i ∨ a = i + 1 ∨ a = i + 2 →
      sFun i (sFun (i + 1) (sFun i a)) = sFun (i + 1) (sFun i (sFun (i + 1) a)) := by
    rintro a (rfl | rfl | rfl)
    · rw [e1, e5, e3, e4, e1, e5]
    · rw [e2, e4, e1, e5, e3, e6]
    · rw [e3, e6, e2, e4]
  by_cases c : a = i ∨ a = i + 1 ∨ a = i + 2
  · exact pos a c
  by_cases d : -a = i ∨ -a = i + 1 ∨ -a = i + 2
  · have := pos (-a) d
    rw [sFun_neg, sFun_neg, sFun_neg, sFun_neg, sFun_neg, sFun_neg] at this
    omega
  have f1 : sFun i a = a := sFun_of_ne (by omega) (by omega) (by omega) (by omega)
  have f2 : sFun (i + 1) a = a := sFun_of_ne (by omega) (by omega) (by push_cast; omega) (by push_cast; omega)
  rw [f1, f2, f1, f2]

theorem sFun_vals0 : sFun 0 1 = -1 ∧ sFun 0 2 = 2 ∧ sFun 1 1 = 2 ∧ sFun 1 2 = 1 := by decide

theorem sFun_braid4 (a : Int) :
    sFun 0 (sFun 1 (sFun 0 (sFun 1 a))) = sFun 1 (sFun 0 (sFun 1 (sFun 0 a))) := by
  have pos : ∀ a : Int, a = 1 ∨ a = 2 →
      sFun 0 (sFun 1 (sFun 0 (sFun 1 a))) = sFun 1 (sFun 0 (sFun 1 (sFun 0 a))) := by
    rintro a (rfl | rfl) <;> decide
  by_cases c : a = 1 ∨ a = 2
  · exact pos a c
  by_cases d : -a = 1 ∨ -a = 2
  · have := pos (-a) d
    simp only [sFun_neg] at this
    omega
  have f1 : sFun 0 a = a := sFun_of_ne (by simp [lo]; omega) (by simp [lo]; omega) (by push_cast; omega) (by push_cast; omega)
  have f2 : sFun 1 a = a := sFun_of_ne (by simp [lo]; omega) (by simp [lo]; omega) (by push_cast; omega) (by push_cast; omega)
  rw [f1, f2, f1, f2, f1]

/-- The right action of the 0-Hecke monoid. -/
noncomputable def act (u : SPerm) (i : Nat) : SPerm := by
  classical exact if Desc u.call i then u else mul u (s i)

theorem act_of_desc {u : SPerm} {i : Nat} (h : Desc u.call i) : act u i = u := if_pos h
theorem act_of_not {u : SPerm} {i : Nat} (h : ¬ Desc u.call i) : act u i = mul u (s i) := if_neg h

theorem mul_comm_s {i j : Nat} (h : i + 2 ≤ j) (u : SPerm) :
    mul (mul u (s i)) (s j) = mul (mul u (s j)) (s i) :=
  ext_call (fun a => by simp [sFun_comm h])

theorem mul_braid3 {i : Nat} (h : 1 ≤ i) (u : SPerm) :
    mul (mul (mul u (s i)) (s (i + 1))) (s i) = mul (mul (mul u (s (i + 1))) (s i)) (s (i + 1)) :=
  ext_call (fun a => by simp [sFun_braid3 h])

theorem mul_braid4 (u : SPerm) :
    mul (mul (mul (mul u (s 0)) (s 1)) (s 0)) (s 1) = mul (mul (mul (mul u (s 1)) (s 0)) (s 1)) (s 0) :=
  ext_call (fun a => by simp [sFun_braid4])

theorem desc_far {i j : Nat} (h : i + 2 ≤ j) (u : SPerm) :
    (Desc (mul u (s i)).call j ↔ Desc u.call j) ∧ (Desc (mul u (s j)).call i ↔ Desc u.call i) := by
  have hj : lo j = j := if_neg (by omega)
  have hi : lo i = -1 ∧ i = 0 ∨ lo i = i := by unfold lo; split <;> simp_all
  have e1 : sFun i (lo j) = lo j := sFun_of_ne (by omega) (by omega) (by omega) (by omega)
  have e2 : sFun i ((j : Int) + 1) = j + 1 := sFun_of_ne (by omega) (by omega) (by omega) (by omega)
  have e3 : sFun j (lo i) = lo i := sFun_of_ne (by omega) (by omega) (by omega) (by omega)
  have e4 : sFun j ((i : Int) + 1) = i + 1 := sFun_of_ne (by omega) (by omega) (by omega) (by omega)
  simp only [Desc, call_mul_s, e1, e2, e3, e4, and_self]

theorem act_far {i j : Nat} (h : i + 2 ≤ j) (u : SPerm) : act (act u i) j = act (act u j) i := by
  obtain ⟨h1, h2⟩ := desc_far h u
  by_cases di : Desc u.call i <;> by_cases dj : Desc u.call j
  · rw [act_of_desc di, act_of_desc dj, act_of_desc di]
  · rw [act_of_desc di, act_of_not dj, act_of_desc (h2.2 di)]
  · rw [act_of_not di, act_of_desc dj, act_of_desc (h1.2 dj), act_of_not di]
  · rw [act_of_not di, act_of_not dj, act_of_not (by rwa [h1]), act_of_not (by rwa [h2]), mul_comm_s h]

theorem desc3 {i : Nat} (h : 1 ≤ i) (u : SPerm) : (Desc u.call i ↔ u.call i > u.call (i + 1)) ∧
    (Desc u.call (i + 1) ↔ u.call (i + 1) > u.call (i + 2)) := by
  have hi : lo i = i := if_neg (by omega)
  have hj : lo (i + 1) = i + 1 := by rw [lo, if_neg (by omega)]; push_cast; rfl
  rw [Desc, Desc, hi, hj]
  push_cast
  refine ⟨Iff.rfl, ?_⟩
  rw [show (i : Int) + 1 + 1 = i + 2 by omega]

theorem desc3_s {i : Nat} (h : 1 ≤ i) (u : SPerm) :
    (Desc (mul u (s i)).call i ↔ u.call (i + 1) > u.call i) ∧
    (Desc (mul u (s i)).call (i + 1) ↔ u.call i > u.call (i + 2)) ∧
    (Desc (mul u (s (i + 1))).call i ↔ u.call i > u.call (i + 2)) ∧
    (Desc (mul u (s (i + 1))).call (i + 1) ↔ u.call (i + 2) > u.call (i + 1)) := by
  obtain ⟨e1, e2, e3, e4, e5, e6⟩ := sFun_vals h
  rw [(desc3 h _).1, (desc3 h _).2, (desc3 h _).1, (desc3 h _).2]
  simp [e1, e2, e3, e4, e5, e6]

theorem act_near {i : Nat} (h : 1 ≤ i) (u : SPerm) :
    act (act (act u i) (i + 1)) i = act (act (act u (i + 1)) i) (i + 1) := by
  have hn1 : u.call i ≠ u.call (i + 1) := fun he => by have := (call_odd u).inj _ _ he; omega
  have hn2 : u.call i ≠ u.call (i + 2) := fun he => by have := (call_odd u).inj _ _ he; omega
  have hn3 : u.call (i + 1) ≠ u.call (i + 2) := fun he => by have := (call_odd u).inj _ _ he; omega
  have b := mul_braid3 h u
  have d0 := desc3 h u
  have d1 := desc3_s h u
  obtain ⟨e1, e2, e3, e4, e5, e6⟩ := sFun_vals h
  have d2 := desc3_s h (mul u (s i))
  have d3 := desc3_s h (mul u (s (i + 1)))
  simp only [call_mul, call_s, e1, e2, e3, e4, e5, e6] at d2 d3
  classical
  unfold act
  split_ifs <;> simp_all <;> omega

theorem desc4 (u : SPerm) : (Desc u.call 0 ↔ u.call 1 < 0) ∧ (Desc u.call 1 ↔ u.call 1 > u.call 2) := by
  have := (call_odd u).neg 1
  rw [Desc, Desc]
  simp only [lo, if_true, Nat.cast_zero, Nat.cast_one, zero_add, one_ne_zero, if_false]
  refine ⟨by omega, Iff.rfl⟩

theorem desc4_s (u : SPerm) :
    (Desc (mul u (s 0)).call 0 ↔ 0 < u.call 1) ∧ (Desc (mul u (s 0)).call 1 ↔ -u.call 1 > u.call 2) ∧
    (Desc (mul u (s 1)).call 0 ↔ u.call 2 < 0) ∧ (Desc (mul u (s 1)).call 1 ↔ u.call 2 > u.call 1) := by
  obtain ⟨e1, e2, e3, e4⟩ := sFun_vals0
  have := (call_odd u).neg 1
  rw [(desc4 _).1, (desc4 _).2, (desc4 _).1, (desc4 _).2]
  simp only [call_mul, call_s, e1, e2, e3, e4, this]
  refine ⟨by omega, trivial, trivial, trivial⟩

theorem act_zero_one (u : SPerm) :
    act (act (act (act u 0) 1) 0) 1 = act (act (act (act u 1) 0) 1) 0 := by
  have o1 := (call_odd u).neg 1
  have o2 := (call_odd u).neg 2
  have z1 : u.call 1 ≠ 0 := (call_odd u).ne_zero (by omega)
  have z2 : u.call 2 ≠ 0 := (call_odd u).ne_zero (by omega)
  have hn1 : u.call 1 ≠ u.call 2 := fun he => by have := (call_odd u).inj _ _ he; omega
  have hn2 : u.call (-1) ≠ u.call 2 := fun he => by have := (call_odd u).inj _ _ he; omega
  have b := mul_braid4 u
  obtain ⟨e1, e2, e3, e4⟩ := sFun_vals0
  have e5 : sFun 0 (-1) = 1 := by decide
  have e6 : sFun 0 (-2) = -2 := by decide
  have e7 : sFun 1 (-1) = -2 := by decide
  have e8 : sFun 1 (-2) = -1 := by decide
  have d0 := desc4 u
  have d1 := desc4_s u
  have d2 := desc4_s (mul u (s 0))
  have d3 := desc4_s (mul u (s 1))
  have d4 := desc4_s (mul (mul u (s 0)) (s 1))
  have d5 := desc4_s (mul (mul u (s 1)) (s 0))
  simp only [call_mul, call_s, e1, e2, e3, e4, e7, o1, o2] at d2 d3 d4 d5
  rw [o1] at hn2
  rcases lt_or_gt_of_ne z1 with c1 | c1 <;> rcases lt_or_gt_of_ne z2 with c2 | c2 <;>
    rcases lt_or_gt_of_ne hn1 with c3 | c3 <;> rcases lt_or_gt_of_ne hn2 with c4 | c4 <;>
    first
    | omega
    | (simp (disch := (simp only [d0, d1, d2, d3, d4, d5]; omega)) only [act_of_desc, act_of_not, b])

/-- Acting by the letters of a word. -/
noncomputable def actWord (u : SPerm) (a : List Nat) : SPerm := a.foldl act u

theorem actWord_cons (u : SPerm) (i : Nat) (a : List Nat) : actWord u (i :: a) = actWord (act u i) a := rfl

theorem ldes_s_mul (v : SPerm) (i j : Nat) : j ∈ leftDescents (mul (s i) v) ↔ Desc (mul (inverse v) (s i)).call j := by
  rw [mem_leftDescents, inverse_s_mul]

theorem exists_reduced (v : SPerm) : ∃ a, Reduced v a := ⟨_, getReducedWord_reduced v⟩

/-- The induction step: words starting with different letters. -/
theorem word_step {v : SPerm}
    (ih : ∀ k ∈ leftDescents v, ∀ a b, Reduced (mul (s k) v) a → Reduced (mul (s k) v) b → ∀ u, actWord u a = actWord u b)
    {i j : Nat} (hij : i < j) {a b : List Nat} (ha : Reduced v (i :: a)) (hb : Reduced v (j :: b)) (u : SPerm) :
    actWord u (i :: a) = actWord u (j :: b) := by
  obtain ⟨hi, ha⟩ := reduced_cons.1 ha
  obtain ⟨hj, hb⟩ := reduced_cons.1 hb
  have di := (mem_leftDescents v i).1 hi
  have dj := (mem_leftDescents v j).1 hj
  by_cases hfar : i + 2 ≤ j
  · obtain ⟨h1, h2⟩ := desc_far hfar (inverse v)
    obtain ⟨c, hc⟩ := exists_reduced (mul (s j) (mul (s i) v))
    have ea : Reduced (mul (s i) v) (j :: c) := reduced_cons.2 ⟨by rw [ldes_s_mul, h1]; exact dj, hc⟩
    have eb : Reduced (mul (s j) v) (i :: c) := by
      refine reduced_cons.2 ⟨by rw [ldes_s_mul, h2]; exact di, ?_⟩
      rwa [show mul (s i) (mul (s j) v) = mul (s j) (mul (s i) v) from ext_call (fun a => by simp [sFun_comm hfar])]
    rw [actWord_cons, actWord_cons, ih i hi _ _ ha ea, ih j hj _ _ hb eb, actWord_cons, actWord_cons, act_far hfar]
  · have hj1 : j = i + 1 := by omega
    subst hj1
    by_cases h0 : i = 0
    · subst h0
      obtain ⟨e1, e2, e3, e4⟩ := sFun_vals0
      have e5 : sFun 0 (-1) = 1 := by decide
      have e6 : sFun 0 (-2) = -2 := by decide
      have e7 : sFun 1 (-1) = -2 := by decide
      have e8 : sFun 1 (-2) = -1 := by decide
      have o1 := (call_odd (inverse v)).neg 1
      have o2 := (call_odd (inverse v)).neg 2
      rw [(desc4 _).1] at di
      rw [zero_add, (desc4 _).2] at dj
      obtain ⟨c, hc⟩ := exists_reduced (mul (s 1) (mul (s 0) (mul (s 1) (mul (s 0) v))))
      have d1 := desc4_s (inverse v)
      have d2 := desc4_s (mul (inverse v) (s 0))
      have d3 := desc4_s (mul (inverse v) (s 1))
      have d4 := desc4_s (mul (mul (inverse v) (s 0)) (s 1))
      have d5 := desc4_s (mul (mul (inverse v) (s 1)) (s 0))
      simp only [call_mul, call_s, e1, e2, e3, e4, e7, o1, o2] at d2 d3 d4 d5
      have ea : Reduced (mul (s 0) v) (1 :: 0 :: 1 :: c) := by
        refine reduced_cons.2 ⟨?_, reduced_cons.2 ⟨?_, reduced_cons.2 ⟨?_, hc⟩⟩⟩ <;>
          simp only [ldes_s_mul, inverse_s_mul, d1, d2, d3, d4, d5] <;> omega
      have eb : Reduced (mul (s 1) v) (0 :: 1 :: 0 :: c) := by
        have he : mul (s 0) (mul (s 1) (mul (s 0) (mul (s 1) v))) = mul (s 1) (mul (s 0) (mul (s 1) (mul (s 0) v))) :=
          ext_call (fun a => by simp [sFun_braid4])
        refine reduced_cons.2 ⟨?_, reduced_cons.2 ⟨?_, reduced_cons.2 ⟨?_, he ▸ hc⟩⟩⟩ <;>
          simp only [ldes_s_mul, inverse_s_mul, d1, d2, d3, d4, d5] <;> omega
      rw [actWord_cons, actWord_cons, ih 0 hi _ _ ha ea, ih 1 hj _ _ hb eb]
      simp only [actWord_cons]
      rw [act_zero_one]
    · have h1 : 1 ≤ i := by omega
      obtain ⟨e1, e2, e3, e4, e5, e6⟩ := sFun_vals h1
      rw [(desc3 h1 _).1] at di
      rw [(desc3 h1 _).2] at dj
      obtain ⟨c, hc⟩ := exists_reduced (mul (s i) (mul (s (i + 1)) (mul (s i) v)))
      have d1 := desc3_s h1 (inverse v)
      have d2 := desc3_s h1 (mul (inverse v) (s i))
      have d3 := desc3_s h1 (mul (inverse v) (s (i + 1)))
      simp only [call_mul, call_s, e1, e2, e3, e4, e5, e6] at d2 d3
      have ea : Reduced (mul (s i) v) ((i + 1) :: i :: c) := by
        refine reduced_cons.2 ⟨?_, reduced_cons.2 ⟨?_, hc⟩⟩ <;>
          simp only [ldes_s_mul, inverse_s_mul, d1, d2, d3] <;> omega
      have eb : Reduced (mul (s (i + 1)) v) (i :: (i + 1) :: c) := by
        have he : mul (s (i + 1)) (mul (s i) (mul (s (i + 1)) v)) = mul (s i) (mul (s (i + 1)) (mul (s i) v)) :=
          ext_call (fun a => by simp [sFun_braid3 h1])
        refine reduced_cons.2 ⟨?_, reduced_cons.2 ⟨?_, he ▸ hc⟩⟩ <;>
          simp only [ldes_s_mul, inverse_s_mul, d1, d2, d3] <;> omega
      rw [actWord_cons, actWord_cons, ih i hi _ _ ha ea, ih (i + 1) hj _ _ hb eb]
      simp only [actWord_cons]
      rw [act_near h1]

/-- All reduced words of `v` act alike. -/
theorem actWord_reduced {v : SPerm} {a b : List Nat} (ha : Reduced v a) (hb : Reduced v b) (u : SPerm) :
    actWord u a = actWord u b := by
  induction hn : len v using Nat.strong_induction_on generalizing v a b u with
  | _ n ih =>
    have ih' : ∀ k ∈ leftDescents v, ∀ a b, Reduced (mul (s k) v) a → Reduced (mul (s k) v) b →
        ∀ u, actWord u a = actWord u b := by
      intro k hk a b ha hb u
      have := len_s_mul_of_desc hk
      exact ih (len (mul (s k) v)) (by omega) ha hb u rfl
    cases a with
    | nil =>
      have := reduced_nil.1 ha
      subst this
      rw [reduced_identity.1 hb]
    | cons i a =>
      cases b with
      | nil =>
        have := reduced_nil.1 hb
        subst this
        cases reduced_identity.1 ha
      | cons j b =>
        rcases lt_trichotomy i j with h | h | h
        · exact word_step ih' h ha hb u
        · subst h
          obtain ⟨hi, ha⟩ := reduced_cons.1 ha
          exact ih' i hi _ _ ha (reduced_cons.1 hb).2 _
        · exact (word_step ih' h hb ha u).symm

/-- The Demazure product is the action of any reduced word. -/
theorem mod?_eq {ch : Nat → List Nat → Nat} (hch : IsChoice ch) {fuel : Nat} {u v : SPerm} (h : len v < fuel)
    {a : List Nat} (ha : Reduced v a) : mod? ch fuel u v = some (actWord u a) := by
  induction fuel generalizing u v a with
  | zero => omega
  | succ fuel ih =>
    rw [mod?]
    by_cases hv : leftDescents v = []
    · have := leftDescents_identity hv
      subst this
      rw [reduced_identity.1 ha, if_neg (by simpa using hv)]; rfl
    · rw [if_pos hv]
      simp only
      have hi := hch fuel _ hv
      set i := ch fuel (leftDescents v)
      have hl := len_s_mul_of_desc hi
      obtain ⟨b, hb⟩ := exists_reduced (mul (s i) v)
      rw [actWord_reduced ha (reduced_cons.2 ⟨hi, hb⟩), actWord_cons]
      split
      · rename_i hd
        rw [ih (by omega) hb, act_of_desc ((mem_rightDescents u i).1 hd)]
      · rename_i hd
        rw [ih (by omega) hb, act_of_not (by rwa [← mem_rightDescents])]

theorem isChoice_first : IsChoice firstChoice := by
  intro t S hS
  cases S with
  | nil => exact absurd rfl hS
  | cons a S => simp [firstChoice]

theorem mod_eq {u v : SPerm} {a : List Nat} (ha : Reduced v a) : mod u v = actWord u a := by
  rw [mod, mod?_eq isChoice_first (by omega) ha]; rfl

theorem mod?_mod {ch : Nat → List Nat → Nat} (hch : IsChoice ch) {fuel : Nat} {u v : SPerm} (h : len v < fuel) :
    mod? ch fuel u v = some (mod u v) := by
  obtain ⟨a, ha⟩ := exists_reduced v
  rw [mod?_eq hch h ha, mod_eq ha]

theorem mod_identity (u : SPerm) : mod u identity = u := by
  rw [mod_eq (reduced_identity.2 rfl)]; rfl

theorem len_s (i : Nat) : len (s i) = 1 := by
  have h : i ∉ rightDescents identity := by rw [rightDescents_one]; simp
  rw [mem_rightDescents] at h
  have := len_mul_s_of_not h
  rwa [one_mul', len_identity] at this

theorem reduced_s (i : Nat) : Reduced (s i) [i] := ⟨fromWord_singleton i, by rw [len_s]; rfl⟩

theorem mod_s (u : SPerm) (i : Nat) : mod u (s i) = act u i := mod_eq (reduced_s i)

theorem act_act (u : SPerm) (i : Nat) : act (act u i) i = act u i := by
  by_cases h : Desc u.call i
  · rw [act_of_desc h, act_of_desc h]
  · rw [act_of_not h, act_of_desc ((desc_mul_s u i).2 h)]

/-- Acting after multiplying. -/
theorem mod_act (u v : SPerm) (i : Nat) : mod u (act v i) = act (mod u v) i := by
  by_cases h : Desc v.call i
  · rw [act_of_desc h]
    obtain ⟨a, ha⟩ := exists_reduced (mul v (s i))
    have hr : Reduced v (a ++ [i]) := reduced_concat.2 ⟨(mem_rightDescents v i).2 h, ha⟩
    rw [mod_eq hr, actWord, List.foldl_append]
    exact (act_act _ i).symm
  · rw [act_of_not h]
    obtain ⟨a, ha⟩ := exists_reduced v
    have hr : Reduced (mul v (s i)) (a ++ [i]) := by
      refine reduced_concat.2 ⟨(mem_rightDescents _ i).2 ((desc_mul_s v i).2 h), ?_⟩
      rwa [mul_s_s]
    rw [mod_eq hr, mod_eq ha, actWord, List.foldl_append]; rfl

theorem mod_actWord (u v : SPerm) (a : List Nat) : mod u (actWord v a) = actWord (mod u v) a := by
  induction a generalizing v with
  | nil => rfl
  | cons i a ih => rw [actWord_cons, ih, mod_act, actWord_cons]

theorem mod_assoc (u v w : SPerm) : mod (mod u v) w = mod u (mod v w) := by
  obtain ⟨a, ha⟩ := exists_reduced w
  rw [mod_eq ha, mod_eq ha, mod_actWord]

theorem actWord_identity {v : SPerm} {a : List Nat} (ha : Reduced v a) : actWord identity a = v := by
  induction a using List.reverseRecOn generalizing v with
  | nil => exact (reduced_nil.1 ha).symm
  | append_singleton a i ih =>
    obtain ⟨hi, hr⟩ := reduced_concat.1 ha
    rw [actWord, List.foldl_append]
    change act (actWord identity a) i = v
    rw [ih hr, act_of_not (by rw [desc_mul_s]; simpa using (mem_rightDescents v i).1 hi), mul_s_s]

theorem identity_mod (v : SPerm) : mod identity v = v := by
  obtain ⟨a, ha⟩ := exists_reduced v
  rw [mod_eq ha, actWord_identity ha]

theorem mod_of_len {u v : SPerm} (h : len (mul u v) = len u + len v) : mod u v = mul u v := by
  obtain ⟨a, ha⟩ := exists_reduced u
  obtain ⟨b, hb⟩ := exists_reduced v
  have hr : Reduced (mul u v) (a ++ b) := by
    refine ⟨by rw [fromWord_append, ha.1, hb.1], by rw [List.length_append, ha.2, hb.2, h]⟩
  rw [← actWord_identity hr, actWord, List.foldl_append]
  change mod u v = actWord (actWord identity a) b
  rw [actWord_identity ha, mod_eq hb]

theorem act_eq (u : SPerm) (i : Nat) : act u i = if i ∈ rightDescents u then u else mul u (s i) := by
  split
  · rename_i h; exact act_of_desc ((mem_rightDescents u i).1 h)
  · rename_i h; exact act_of_not (by rwa [← mem_rightDescents])

end Verif.Perm
