import Verif.Lemmas.InsertionStd

/-! The comparison of two consecutive Hecke insertions. -/

namespace Verif.Insertion

open Tab

variable {lam lam' lam'' : Nat → Nat} {f F G : Nat → Nat → Int} {A A' : Nat → Int} {K K' : Nat → Nat} {R R' : Nat}
  {b b' : Nat × Nat} {p p' : Tab}

theorem BoxRel.lam_ne (h : BoxRel lam f F A K R lam' b) {i : Nat} (hi : i ≠ R + 1) : lam' i = lam i := by
  rcases h with ⟨_, _, h⟩ | ⟨_, h, _⟩
  · rw [h, if_neg hi]
  · exact h i

theorem BoxRel.le (h : BoxRel lam f F A K R lam' b) (i : Nat) : lam i ≤ lam' i := by
  rcases h with ⟨_, _, h⟩ | ⟨_, h, _⟩
  · rw [h]; split
    · rename_i hi; subst hi; omega
    · exact le_refl _
  · rw [h]

/-- The box of the recording tableau is the lowest one of its column, below or in the last row of the path. -/
theorem BoxRel.bottom (hp : Inc p lam f) (h : BoxRel lam f F A K R lam' b) :
    b.2 = lam' (R + 1) ∧ R + 1 ≤ b.1 ∧ lam' b.1 = b.2 ∧ lam' (b.1 + 1) < b.2 := by
  rcases h with ⟨_, rfl, h⟩ | ⟨_, h, h1, M, h2, rfl, h3, h4⟩
  · refine ⟨?_, le_refl _, ?_, ?_⟩
    · rw [h, if_pos rfl]
    · rw [h, if_pos rfl]
    · rw [h, if_neg (by simp)]
      have := hp.anti (R + 1) (by omega)
      simp only
      omega
  · simp only [h]
    exact ⟨trivial, h2, h3, h4⟩

theorem pieri_row (hp : Inc p lam f) (hp' : Inc p' lam' F) (ht : Trace lam f F A K 0 R) (hb : BoxRel lam f F A K R lam' b)
    (ht' : Trace lam' F G A' K' 0 R') (hb' : BoxRel lam' F G A' K' R' lam'' b') (ha : A 0 ≤ A' 0) :
    b.2 < b'.2 ∨ b = b' := by
  have hA : ∀ i, i ≤ R → i ≤ R' → A i ≤ A' i := by
    intro i
    induction i with
    | zero => intro _ _; exact ha
    | succ i ih =>
      intro h1 h2
      have ih := ih (by omega) (by omega)
      rw [ht.bump i (by omega) (by omega), ht'.bump i (by omega) (by omega)]
      have c1 := ht.cnt i (by omega) (by omega)
      have c2 := ht'.cnt i (by omega) (by omega)
      have l2 := ht'.lt i (by omega) (by omega)
      have l1 := ht.lt i (by omega) (by omega)
      have hgt := c2.2.2 l2
      rw [hb.lam_ne (by omega)] at l2
      by_cases hc : K' i + 1 = K i + 1 ∧ Fits f F i (K i) (A i)
      · rw [ht.fit i _ (by omega) (by omega) hc] at hgt; omega
      · rw [ht.same i _ (by omega) (by omega) hc] at hgt ⊢
        have : K i < K' i + 1 := by
          by_contra hk
          have := c1.2.1 (K' i + 1) (by omega) (by omega)
          omega
        exact hp.rowLe (by omega) (by omega) (by omega) l2
  have hR : R' ≤ R := by
    by_contra hc
    have ih := hA R (le_refl _) (by omega)
    have c1 := ht.cnt R (by omega) (by omega)
    have c2 := ht'.cnt R (by omega) (by omega)
    have l2 := ht'.lt R (by omega) (by omega)
    have hgt := c2.2.2 l2
    rw [ht.last] at c1
    by_cases hc : K' R + 1 = K R + 1 ∧ Fits f F R (K R) (A R)
    · rw [ht.fit R _ (by omega) (by omega) hc] at hgt; omega
    · rw [ht.same R _ (by omega) (by omega) hc] at hgt
      rw [ht.last] at hc
      have : ¬ K' R + 1 ≤ lam (R + 1) := by
        intro hk
        have := c1.2.1 (K' R + 1) (by omega) hk
        omega
      rcases hb with ⟨h1, _, h2⟩ | ⟨h1, h2, _⟩
      · rw [h2, if_pos rfl] at l2
        rw [ht.last] at h1
        exact hc ⟨by omega, h1⟩
      · rw [h2] at l2; omega
  obtain ⟨e1, e2, e3, e4⟩ := hb.bottom hp
  have hle := hp'.anti' (i := R' + 1) (i' := R + 1) (by omega) (by omega)
  rcases hb' with ⟨_, rfl, h⟩ | ⟨_, h, h1, M, h2, rfl, h3, h4⟩
  · left; simp only; omega
  · rcases Nat.lt_or_ge b.2 (lam' (R' + 1)) with hlt | hge
    · left; exact hlt
    · right
      have h5 : b.2 = lam' (R' + 1) := by omega
      have h6 : b.1 = M := by
        rcases Nat.lt_trichotomy b.1 M with hlt | heq | hgt
        · have := hp'.anti' (i := b.1 + 1) (i' := M) (by omega) (by omega)
          omega
        · exact heq
        · have := hp'.anti' (i := M + 1) (i' := b.1) (by omega) (by omega)
          omega
      ext
      · exact h6
      · exact h5

theorem pieri_col_row (hp : Inc p lam f) (hp' : Inc p' lam' F) (ht : Trace lam f F A K 0 R)
    (hb : BoxRel lam f F A K R lam' b) (ht' : Trace lam' F G A' K' 0 R') {r : Nat} (hr : r ≤ R) (hr' : r ≤ R')
    (ha : A' r < A r) : ∃ j, 1 ≤ j ∧ j ≤ K r + 1 ∧ j ≤ lam' (r + 1) ∧ A' r < F (r + 1) j ∧
      (j ≤ K r ∨ F (r + 1) (K r + 1) = A r) := by
  have c := ht.cnt r (by omega) hr
  by_cases hf : Fits f F r (K r) (A r)
  · have hF := ht.fit r (K r + 1) (by omega) hr ⟨rfl, hf⟩
    refine ⟨K r + 1, by omega, by omega, ?_, by omega, Or.inr hF⟩
    rcases Nat.lt_or_ge r R with hlt | hge
    · exact le_trans (ht.lt r (by omega) hlt) (hb.le _)
    · have : r = R := by omega
      subst this
      rcases hb with ⟨_, _, h⟩ | ⟨h, _⟩
      · rw [h, if_pos rfl, ht.last]
      · exact absurd hf h
  · have hFsame : ∀ j, F (r + 1) j = f (r + 1) j := fun j => ht.same r j (by omega) hr (by tauto)
    by_cases h1 : K r = 0 ∨ f (r + 1) (K r) < A r
    · have h2 : ¬ (r = 0 ∨ F r (K r + 1) < A r) := fun h => hf ⟨h1, h⟩
      push Not at h2
      obtain ⟨h0, h2⟩ := h2
      obtain ⟨s, rfl⟩ := Nat.exists_eq_succ_of_ne_zero h0
      simp only [Nat.succ_eq_add_one] at *
      have l1 := ht.lt s (by omega) (by omega)
      have b1 := ht.bump s (by omega) (by omega)
      have l1' := ht'.lt s (by omega) (by omega)
      have b1' := ht'.bump s (by omega) (by omega)
      rw [hb.lam_ne (show s + 1 ≠ R + 1 by omega)] at l1'
      -- y ≤ z
      have hyz : K (s + 1) ≤ K s := by
        by_contra hc
        have h3 := c.2.1 (K s + 1) (by omega) (by omega)
        have h4 := hp.col (s + 1) (K s + 1) (by omega) (by omega) (by have := c.1; omega)
        omega
      have hy : K (s + 1) = K s := by
        by_contra hc
        have h3 : F (s + 1) (K (s + 1) + 1) = f (s + 1) (K (s + 1) + 1) :=
          ht.same s _ (by omega) (by omega) (by omega)
        have h4 := hp.rowLt (i := s + 1) (j := K (s + 1) + 1) (j' := K s + 1) (by omega) (by omega) (by omega) l1
        omega
      have hns : F (s + 1) (K s + 1) = f (s + 1) (K s + 1) := by
        apply ht.same s _ (by omega) (by omega)
        intro hc
        have h3 := ht.fit s _ (by omega) (by omega) hc
        have h4 := (ht.cnt s (by omega) (by omega)).2.2 l1
        rw [hy] at h2
        omega
      have hz' : K' s < K s := by
        by_contra hc
        have h3 := hp'.rowLe (i := s + 1) (j := K s + 1) (j' := K' s + 1) (by omega) (by omega) (by omega)
          (by rw [hb.lam_ne (show s + 1 ≠ R + 1 by omega)]; exact l1')
        omega
      refine ⟨K' s + 1, by omega, by omega, ?_, ?_, Or.inl (by omega)⟩
      · have := hb.le (s + 1 + 1)
        have := c.1
        omega
      · rw [b1']
        apply hp'.col (s + 1) (K' s + 1) (by omega) (by omega)
        have := hb.le (s + 1 + 1)
        have := c.1
        omega
    · push Not at h1
      refine ⟨K r, by omega, by omega, le_trans c.1 (hb.le _), ?_, Or.inl (le_refl _)⟩
      rw [hFsame]
      omega

theorem pieri_col (hp : Inc p lam f) (hp' : Inc p' lam' F) (ht : Trace lam f F A K 0 R) (hb : BoxRel lam f F A K R lam' b)
    (ht' : Trace lam' F G A' K' 0 R') (hb' : BoxRel lam' F G A' K' R' lam'' b') (ha : A' 0 < A 0) :
    b.1 < b'.1 := by
  have step : ∀ r, r ≤ R' → ∀ j, 1 ≤ j → j ≤ lam' (r + 1) → A' r < F (r + 1) j →
      r < R' ∧ A' (r + 1) ≤ F (r + 1) j ∧ K' r + 1 ≤ j := by
    intro r hr j hj1 hj2 hj3
    have c := ht'.cnt r (by omega) hr
    have hk : K' r + 1 ≤ j := by
      by_contra hc
      have := c.2.1 j hj1 (by omega)
      omega
    have hlt : r < R' := by
      by_contra hc
      have : r = R' := by omega
      subst this
      rw [ht'.last] at hk
      omega
    refine ⟨hlt, ?_, hk⟩
    rw [ht'.bump r (by omega) hlt]
    exact hp'.rowLe (by omega) (by omega) hk hj2
  have hA : ∀ r, r ≤ R → r ≤ R' ∧ A' r < A r := by
    intro r
    induction r with
    | zero => intro _; exact ⟨by omega, ha⟩
    | succ r ih =>
      intro hr
      obtain ⟨h1, h2⟩ := ih (by omega)
      obtain ⟨j, j1, j2, j3, j4, j5⟩ := pieri_col_row hp hp' ht hb ht' (by omega) h1 h2
      obtain ⟨s1, s2, s3⟩ := step r h1 j j1 j3 j4
      refine ⟨s1, lt_of_le_of_lt s2 ?_⟩
      have l := ht.lt r (by omega) (by omega)
      have c := ht.cnt r (by omega) (by omega)
      rw [ht.bump r (by omega) (by omega)]
      have key : j ≤ K r → F (r + 1) j < f (r + 1) (K r + 1) := by
        intro hjk
        rw [ht.same r j (by omega) (by omega) (by omega)]
        exact hp.rowLt (by omega) j1 (by omega) l
      rcases j5 with j5 | j5
      · exact key j5
      · rcases Nat.lt_or_ge (K r) j with h3 | h3
        · have : j = K r + 1 := by omega
          rw [this, j5]
          exact c.2.2 l
        · exact key h3
  obtain ⟨h1, h2⟩ := hA R (le_refl _)
  obtain ⟨j, j1, j2, j3, j4, j5⟩ := pieri_col_row hp hp' ht hb ht' (le_refl _) h1 h2
  obtain ⟨s1, s2, s3⟩ := step R h1 j j1 j3 j4
  have hb'1 : R' + 1 ≤ b'.1 := (hb'.bottom hp').2.1
  obtain ⟨e1, e2, e3, e4⟩ := hb.bottom hp
  have hdown : ∀ d, R + 1 + d ≤ b.1 → R + 1 + d ≤ R' ∧ A' (R + 1 + d) ≤ F (R + 1 + d) b.2 := by
    intro d
    induction d with
    | zero =>
      intro _
      refine ⟨s1, le_trans s2 ?_⟩
      exact hp'.rowLe (by omega) j1 (by rw [e1]; exact j3) (by rw [e1])
    | succ d ih =>
      intro hd
      obtain ⟨i1, i2⟩ := ih (by omega)
      have hl : b.2 ≤ lam' (R + 1 + d + 1) := by
        rw [← e3]
        exact hp'.anti' (by omega) (by omega)
      have hb1 : 1 ≤ b.2 := by omega
      have hlt := hp'.col (R + 1 + d) b.2 (by omega) hb1 hl
      obtain ⟨t1, t2, t3⟩ := step (R + 1 + d) i1 b.2 hb1 hl (by omega)
      exact ⟨t1, t2⟩
  obtain ⟨d, hd⟩ := Nat.exists_eq_add_of_le e2
  have := (hdown d (by omega)).1
  omega

variable {N : Nat} {Q : Tab} {β : Nat → Nat × Nat}

theorem boxNums_congr {β' : Nat → Nat × Nat} {n : Nat} (h : ∀ k, k < n → β k = β' k) (b : Nat × Nat) :
    boxNums β n b = boxNums β' n b := by
  unfold boxNums
  congr 1
  apply List.filter_congr
  intro k hk
  rw [List.mem_range] at hk
  rw [h k hk]

theorem Std.add (h : Std Q β N) (b : Nat × Nat) :
    Std (Q.add b ((N : Int) + 1)) (fun k => if k = N then b else β k) (N + 1) := by
  intro c
  have hc : ∀ c, boxNums (fun k => if k = N then b else β k) N c = boxNums β N c := by
    intro c
    apply boxNums_congr
    intro k hk
    rw [if_neg (by omega)]
  rw [Tab.get?_add, boxNums_succ, hc]
  simp only [if_true]
  by_cases hb : c = b
  · subst hb
    rw [if_pos rfl, if_pos rfl, if_neg (by simp), h.ent, sortInts_append (boxNums_sorted N _)]
    intro x hx
    obtain ⟨k, hk, _, rfl⟩ := mem_boxNums.1 hx
    omega
  · have e : (if b = c then [(N : Int) + 1] else []) = [] := if_neg (fun hc => hb hc.symm)
    rw [if_neg hb, e, List.append_nil]
    exact h c

/-- The loop of `insertion_tableaux` without the cache. -/
def pushAll (pq : Tab × Tab) (w : List Int) : Option (Tab × Tab) := w.foldlM (fun pq a => push pq.1 pq.2 a) pq

/-- The state after inserting `w`, with the boxes `β` of the recording tableau. -/
structure Done (w : List Int) (p q : Tab) (lam : Nat → Nat) (f : Nat → Nat → Int) (β : Nat → Nat × Nat) : Prop where
  run : pushAll (Tab.empty, Tab.empty) w = some (p, q)
  inc : Inc p lam f
  qinv : QInv q lam w.length
  std : Std q β w.length
  le : ∀ k, k + 1 < w.length → w.getD k 0 ≤ w.getD (k + 1) 0 → (β k).2 < (β (k + 1)).2 ∨ β k = β (k + 1)
  gt : ∀ k, k + 1 < w.length → w.getD (k + 1) 0 < w.getD k 0 → (β k).1 < (β (k + 1)).1
  back : ∀ fuel ans, inverseInsertion (fuel + w.length) p q ans = inverseInsertion fuel Tab.empty Tab.empty (w ++ ans)
  last : ∀ k, w.length = k + 1 → ∃ p0 lam0 f0 A K R, Inc p0 lam0 f0 ∧ Trace lam0 f0 f A K 0 R ∧
    BoxRel lam0 f0 f A K R lam (β k) ∧ A 0 = w.getD k 0

theorem done_exists (w : List Int) (hw : ∀ a ∈ w, 0 < a) : ∃ p q lam f β, Done w p q lam f β := by
  induction w using List.reverseRecOn with
  | nil =>
    obtain ⟨lam, f, h1, h2⟩ := good_empty
    refine ⟨Tab.empty, Tab.empty, lam, f, fun _ => (0, 0), rfl, h1, h2, std_empty, ?_, ?_, ?_, ?_⟩
    · intro k hk; simp at hk
    · intro k hk; simp at hk
    · intro fuel ans; rfl
    · intro k hk; simp at hk
  | append_singleton w a ih =>
    obtain ⟨p, q, lam, f, β, hd⟩ := ih (fun x hx => hw x (by simp [hx]))
    obtain ⟨p', b, lam', F, A, K, R, h1, h2, h3, h4, h5, h6, h7, h8⟩ := push_trace hd.inc hd.qinv (hw a (by simp))
    have hget : ∀ k, k < w.length → (w ++ [a]).getD k 0 = w.getD k 0 := by
      intro k hk
      rw [List.getD_eq_getElem?_getD, List.getD_eq_getElem?_getD, List.getElem?_append_left hk]
    have hgetl : (w ++ [a]).getD w.length 0 = a := by
      rw [List.getD_eq_getElem?_getD, List.getElem?_append_right (le_refl _)]; simp
    have hlen : (w ++ [a]).length = w.length + 1 := by simp
    refine ⟨p', q.add b ((w.length : Int) + 1), lam', F, fun k => if k = w.length then b else β k, ?_, h2, ?_, ?_, ?_, ?_, ?_, ?_⟩
    · have := hd.run
      unfold pushAll at this ⊢
      rw [List.foldlM_append, this]
      simp [h1]
    · rw [hlen]; exact h3
    · rw [hlen]; exact hd.std.add b
    · intro k hk hle
      rw [hlen] at hk
      by_cases hk1 : k + 1 = w.length
      · rw [hk1, hgetl, hget k (by omega)] at hle
        obtain ⟨p0, lam0, f0, A0, K0, R0, l1, l2, l3, l4⟩ := hd.last k hk1.symm
        simp only [hk1, if_true, if_neg (show k ≠ w.length by omega)]
        exact pieri_row l1 hd.inc l2 l3 h7 h8 (by rw [l4, h6]; exact hle)
      · rw [hget k (by omega), hget (k + 1) (by omega)] at hle
        simp only [if_neg hk1, if_neg (show k ≠ w.length by omega)]
        exact hd.le k (by omega) hle
    · intro k hk hle
      rw [hlen] at hk
      by_cases hk1 : k + 1 = w.length
      · rw [hk1, hgetl, hget k (by omega)] at hle
        obtain ⟨p0, lam0, f0, A0, K0, R0, l1, l2, l3, l4⟩ := hd.last k hk1.symm
        simp only [hk1, if_true, if_neg (show k ≠ w.length by omega)]
        exact pieri_col l1 hd.inc l2 l3 h7 h8 (by rw [l4, h6]; exact hle)
      · rw [hget k (by omega), hget (k + 1) (by omega)] at hle
        simp only [if_neg hk1, if_neg (show k ≠ w.length by omega)]
        exact hd.gt k (by omega) hle
    · intro fuel ans
      rw [hlen, ← Nat.add_assoc, inverseInsertion, if_neg h5, h4]
      simp only
      rw [hd.back, List.append_assoc]
      rfl
    · intro k hk
      have hk : k = w.length := by omega
      subst hk
      exact ⟨p, lam, f, A, K, R, hd.inc, h7, by simpa using h8, by rw [hgetl]; exact h6⟩

/-- A cache whose entries are correct. -/
def Sound (C : HCache) : Prop := ∀ p q a r, C.get? (p, q, a) = some r → push p q a = some r

theorem sound_empty : Sound Dict.empty := by intro p q a r h; simp at h

theorem pushCached_spec {C : HCache} (hC : Sound C) (p q : Tab) (a : Int) :
    (pushCached C p q a).1 = push p q a ∧ Sound (pushCached C p q a).2 := by
  unfold pushCached
  cases hg : C.get? (p, q, a) with
  | some r => exact ⟨(hC p q a r hg).symm, hC⟩
  | none =>
    cases hp : push p q a with
    | none => exact ⟨rfl, hC⟩
    | some r =>
      refine ⟨rfl, ?_⟩
      intro p1 q1 a1 r1 h1
      simp only [Dict.get?_set] at h1
      split at h1
      · rename_i he
        cases he
        cases h1
        exact hp
      · exact hC p1 q1 a1 r1 h1

theorem insertAll_spec (w : List Int) : ∀ {C : HCache} (_ : Sound C) (p q : Tab),
    (insertAll C p q w).1 = pushAll (p, q) w ∧ Sound (insertAll C p q w).2 := by
  induction w with
  | nil => intro C hC p q; exact ⟨rfl, hC⟩
  | cons a w ih =>
    intro C hC p q
    obtain ⟨h1, h2⟩ := pushCached_spec hC p q a
    rw [insertAll, pushAll, List.foldlM_cons]
    simp only
    rw [← h1]
    rcases hpc : pushCached C p q a with ⟨o, C'⟩
    rw [hpc] at h2
    cases o with
    | none => exact ⟨rfl, h2⟩
    | some r => exact ih h2 r.1 r.2

theorem hecke_sound {C : HCache} (hC : Sound C) (w : List Int) (record : Option (List Int)) (m : Bool) :
    Sound (hecke C w record m).2 := by
  unfold hecke
  cases checkRecord w record m with
  | none => exact hC
  | some rec =>
    have := (insertAll_spec w hC Tab.empty Tab.empty).2
    rw [← insertionTableaux] at this
    simp only
    rcases hi : insertionTableaux C w with ⟨o, C'⟩
    rw [hi] at this
    cases o with
    | none => exact this
    | some r => simp only; split <;> exact this

theorem steps_trans {P : Nat → Nat → Prop} (htrans : ∀ a b c, P a b → P b c → P a c) {m n : Nat} (hmn : m < n)
    (h : ∀ k, m ≤ k → k < n → P k (k + 1)) : P m n := by
  induction n, hmn using Nat.le_induction with
  | base => exact h m (le_refl _) (Nat.lt_succ_self _)
  | succ n hn ih => exact htrans m n (n + 1) (ih (fun k h1 h2 => h k h1 (by omega))) (h n (by omega) (by omega))

/-- A record as accepted by `_check_record`, in positive integers. -/
theorem compat_of_steps {g : Nat → Int} (hpos : ∀ k, k < N → 0 < g k) (hle : ∀ k, k + 1 < N → g k ≤ g (k + 1))
    (hstep : ∀ k, k + 1 < N → g k = g (k + 1) → (β k).2 < (β (k + 1)).2 ∨ β k = β (k + 1)) : Compat β g N := by
  refine ⟨hpos, ?_⟩
  intro m n hmn hn
  apply steps_trans (P := fun k k' => g k < g k' ∨ (g k = g k' ∧ ((β k).2 < (β k').2 ∨ β k = β k'))) _ hmn
  · intro k _ h2
    have h3 := hle k (by omega)
    rcases eq_or_lt_of_le h3 with h4 | h4
    · exact Or.inr ⟨h4, hstep k (by omega) h4⟩
    · exact Or.inl h4
  · rintro a b c (h1 | ⟨h1, h2⟩) (h3 | ⟨h3, h4⟩)
    · left; omega
    · left; omega
    · left; omega
    · right
      refine ⟨by omega, ?_⟩
      rcases h2 with h2 | h2
      · rcases h4 with h4 | h4
        · left; omega
        · left; rw [← h4]; exact h2
      · rw [h2]; exact h4

end Verif.Insertion
