import Verif.Lemmas.ShiftedPush
import Verif.Lemmas.ShiftedStd

/-! The comparison of two consecutive shifted insertions. -/

namespace Verif.FInsertion

open Tab Lines

variable {E H E1 H1 E2 H2 : Nat → Nat} {f F F2 G G' : Nat → Nat → Int} {a a' : Int} {b b' : Nat × Nat} {p p' T : Tab}
  {A A' C C' : Nat → Int} {X X' Y Y' : Nat → Nat} {t t' u u' : Nat}

/-! ## The new box -/

theorem Corner.box (hc : Corner E E1 b) (h : SInc p' E1 H1 F) :
    1 ≤ b.1 ∧ b.1 ≤ b.2 ∧ E1 b.1 = b.2 + 1 ∧ H1 b.2 = b.1 + 1 := by
  have h1 := (hc.shape b.1 b.2).2 (Or.inl rfl)
  have h2 := hc.right
  have h3 := hc.below
  have h4 := h.col b.1 b.2 h1.1
  have h5 := h.col (b.1 + 1) b.2 (by omega)
  exact ⟨h1.1, h1.2.1, by omega, by omega⟩

theorem Corner.mono (hc : Corner E E1 b) (h : SInc p E H f) (h' : SInc p' E1 H1 F) {i : Nat} (hi : 1 ≤ i) : E i ≤ E1 i := by
  have h1 := h.lo i hi
  have h2 := h'.lo i hi
  by_cases h3 : i < E i
  · have := (hc.shape i (E i - 1)).2 (Or.inr ⟨hi, by omega, by omega⟩)
    omega
  · omega

theorem finE_ne {c : Prop} [Decidable c] {i k : Nat} (h : k ≠ i) : finE E c i k = E k := by
  unfold finE
  split
  · exact if_neg h
  · rfl

theorem finE_self {c : Prop} [Decidable c] {i : Nat} : finE E c i i = if c then E i + 1 else E i := by
  unfold finE
  split
  · exact if_pos rfl
  · rfl

theorem le_finE {c : Prop} [Decidable c] {i : Nat} (k : Nat) : E k ≤ finE E c i k := by
  by_cases h : k = i
  · rw [h, finE_self]; split <;> omega
  · rw [finE_ne h]

/-- Row `t` of the new tableau ends in the column of the box. -/
theorem row_box (hp : SInc p E H f) (h1 : 1 ≤ t) {c : Prop} [Decidable c] (hn : ¬ c → t < E t)
    (hb : b = if c then (t, E t) else (H (E t - 1) - 1, E t - 1)) : b.2 + 1 = finE E c t t ∧ t ≤ b.1 := by
  rw [finE_self]
  by_cases h : c
  · rw [if_pos h] at hb ⊢; subst hb; exact ⟨rfl, le_refl _⟩
  · rw [if_neg h] at hb ⊢; subst hb
    have := hn h
    have h2 := hp.col t (E t - 1) h1
    simp only
    omega

/-- Column `u` of the new tableau ends in the row of the box. -/
theorem col_box (hp : SInc p E H f) {c : Prop} [Decidable c] (hn : ¬ c → 1 < H u)
    (hb : b = if c then (H u, u) else (H u - 1, E (H u - 1) - 1)) : b.1 + 1 = finE H c u u ∧ u ≤ b.2 := by
  rw [finE_self]
  by_cases h : c
  · rw [if_pos h] at hb ⊢; subst hb; exact ⟨rfl, le_refl _⟩
  · rw [if_neg h] at hb ⊢; subst hb
    have := hn h
    have h2 := hp.col (H u - 1) u (by omega)
    simp only
    omega

/-- After D2 in row `t`, the column phase leaves row `t`. -/
theorem d2_reach (hp : SInc p E H f) (hG : SInc T E H G) (hr : RowTr E f G A X 1 t) (hX : X t = t)
    (hc : Tr loC H (tr G) (tr F) C Y (t + 1) u) (hC : C (t + 1) = f t t) (hY : Y u = H u) : E t ≤ u := by
  have h1 := hr.tr.le
  have key : ∀ k, t + 1 ≤ k → k ≤ u → k < E t → Y k ≤ t := by
    intro k hk
    have pk : C k < G t k → k ≤ u → k < E t → Y k ≤ t := by
      intro h2 h3 h4
      by_contra hn
      have := (hc.pos k hk h3).2.2.1 t h1 (by omega)
      simp only [tr] at this
      omega
    induction k, hk using Nat.le_induction with
    | base =>
      intro h2 h3
      apply pk _ h2 h3
      rw [hC, hr.tr.same t (t + 1) (by omega) (le_refl _) (by omega)]
      exact hp.row t t h1 (le_refl _) h3
    | succ k hk ih =>
      intro h2 h3
      have hYk := ih (by
        intro h4 h5 h6
        by_contra hn
        have := (hc.pos k hk h5).2.2.1 t h1 (by omega)
        simp only [tr] at this
        omega) (by omega) (by omega)
      apply pk _ h2 h3
      rw [hc.bump k (by omega) (by omega)]
      have h4 := hG.row t k h1 (by omega) h3
      have h5 : 1 ≤ Y k := (hc.pos k (by omega) (by omega)).1
      simp only [tr]
      rcases Nat.eq_or_lt_of_le hYk with h6 | h6
      · rw [h6]; exact h4
      · have := hG.colLt (i := Y k) (i' := t) (j := k) h5 h6 (by omega) (by omega)
        omega
  by_contra hn
  have htu := hc.le
  have h2 := key u htu (le_refl _) (by omega)
  have h3 := (hp.col t u h1).2 (by omega)
  omega

/-! ## Weakly increasing letters -/

theorem le_row_row (hp : SInc p E H f) (hp1 : SInc p' E1 H1 F) (hc : Corner E E1 b) (h : RowCase E H f a E1 H1 F b)
    (h' : RowCase E1 H1 F a' E2 H2 F2 b') (ha : a ≤ a') : b.2 < b'.2 ∨ b = b' := by
  obtain ⟨A, X, t, hr, hA, hX, hn, hE1, hH1, hb⟩ := h
  obtain ⟨A', X', t', hr', hA', hX', hn', hE2, hH2, hb'⟩ := h'
  have h1 := hr.tr.le
  have h1' := hr'.tr.le
  obtain ⟨e1, e2⟩ := row_box hp h1 hn hb
  obtain ⟨e1', e2'⟩ := row_box hp1 h1' hn' hb'
  rw [← hE1] at e1
  have hb0 := hc.box hp1
  obtain ⟨k1, -⟩ := le_last hp.arrR hr.tr hX (hi' := E1) (by intro i hi; rw [hE1, finE_ne hi])
    (by rw [hE1, finE_self, hX]) hr'.tr (le_refl _) h1 (fun i x _ _ => Or.inl rfl) (by rw [hA, hA']; exact ha)
  have hlo := hp1.lo t h1
  have h3 : b.2 < E1 t' := hp1.up' (i := t') (i' := t) (by omega) k1 (by omega) (by omega)
  by_cases hf : Fit loR F F2 t' (E1 t') (A' t')
  · rw [if_pos hf] at hb'
    subst hb'
    exact Or.inl h3
  · rw [if_neg hf] at hb'
    rcases Nat.lt_or_ge b.2 (E1 t' - 1) with h4 | h4
    · left; rw [hb']; exact h4
    · right
      have h5 : E1 t' - 1 = b.2 := by omega
      rw [hb', h5, hb0.2.2.2]
      rfl

theorem le_row_D2 (hp : SInc p E H f) (h : RowCase E H f a E1 H1 F b)
    (h' : D2Case E1 H1 F a' E2 H2 F2 b') (ha : a ≤ a') : False := by
  obtain ⟨A, X, t, hr, hA, hX, hn, hE1, hH1, hb⟩ := h
  obtain ⟨A', X', t', G', C', Y', u', hr', hA', hX', hlt', -⟩ := h'
  have h1 := hr.tr.le
  have h1' := hr'.tr.le
  obtain ⟨k1, k2⟩ := le_last hp.arrR hr.tr hX (hi' := E1) (by intro i hi; rw [hE1, finE_ne hi])
    (by rw [hE1, finE_self, hX]) hr'.tr (le_refl _) h1 (fun i x _ _ => Or.inl rfl) (by rw [hA, hA']; exact ha)
  have hne : t' ≠ t := by
    rintro rfl
    have := k2 rfl
    omega
  have hv := le_value hp.arrR hr.tr hr'.tr (le_refl _) (fun i x _ hx => Or.inl ⟨rfl, fun hi => by
    rw [hE1, finE_ne (by omega)] at hx; exact hx⟩) (fun _ => by rw [hA, hA']; exact ha) t' h1' k1 (le_refl _)
  have h2 := (hr'.tr.pos t' h1' (le_refl _)).2.2.2 (by omega)
  have h3 := hr.off t' h1' (by omega)
  have h4 := (hr.tr.pos t' h1' (by omega)).2.2.1 t' (le_refl _) h3
  rw [hX', hr.tr.same t' t' (by omega) (by omega) (by omega)] at h2
  omega

theorem le_row_D1 (hp : SInc p E H f) (h : RowCase E H f a E1 H1 F b)
    (h' : D1Case E1 H1 F a' E2 H2 F2 b') (ha : a ≤ a') : False := by
  obtain ⟨A, X, t, hr, hA, hX, hn, hE1, hH1, hb⟩ := h
  obtain ⟨A', X', t', hr', hA', hX', hlt', hf', hE', -⟩ := h'
  have h1 := hr.tr.le
  have h1' := hr'.tr.le
  obtain ⟨k1, k2⟩ := le_last hp.arrR hr.tr hX (hi' := E1) (by intro i hi; rw [hE1, finE_ne hi])
    (by rw [hE1, finE_self, hX]) hr'.tr (le_refl _) h1 (fun i x _ _ => Or.inl rfl) (by rw [hA, hA']; exact ha)
  have hne : t' ≠ t := by
    rintro rfl
    have := k2 rfl
    omega
  by_cases ht : t = t' + 1
  · rw [← ht, hE1, finE_self] at hE'
    have := hp.lo t h1
    split at hE'
    · omega
    · rename_i hf
      have := hn hf
      omega
  · have h2 := hr.tr.lt (t' + 1) (by omega) (by omega)
    have h3 : t' + 1 ≤ X (t' + 1) := (hr.tr.pos (t' + 1) (by omega) (by omega)).1
    rw [hE1, finE_ne (by omega)] at hE'
    omega

theorem le_D1_D2 (hp : SInc p E H f) (h : D1Case E H f a E1 H1 F b)
    (h' : D2Case E1 H1 F a' E2 H2 F2 b') (ha : a ≤ a') : False := by
  obtain ⟨A, X, t, hr, hA, hX, hlt, hn, hE, hE1, hH1, hb⟩ := h
  obtain ⟨A', X', t', G', C', Y', u', hr', hA', hX', hlt', -⟩ := h'
  subst hE1
  have h1 := hr.tr.le
  have h1' := hr'.tr.le
  have htt : t' ≤ t := by
    have e1 := (hp.row_iff h1').1 hlt'
    have e2 := hp.row_iff (i := t + 1) (by omega)
    omega
  have hv := le_value hp.arrR hr.tr hr'.tr (le_refl _) (fun i x _ hx => Or.inl ⟨rfl, fun _ => hx⟩)
    (fun _ => by rw [hA, hA']; exact ha) t' h1' htt (le_refl _)
  have h2 := (hr'.tr.pos t' h1' (le_refl _)).2.2.2 (by omega)
  have h3 : t' < X t' := by
    rcases Nat.eq_or_lt_of_le htt with h4 | h4
    · rw [h4]; omega
    · exact hr.off t' h1' h4
  have h4 := (hr.tr.pos t' h1' (by omega)).2.2.1 t' (le_refl _) h3
  rw [hX', hr.tr.same t' t' (by omega) (by omega) (by omega)] at h2
  omega

theorem le_D1_D1 (hp : SInc p E H f) (h : D1Case E H f a E1 H1 F b) (h' : D1Case E1 H1 F a' E2 H2 F2 b') : b = b' := by
  obtain ⟨A, X, t, hr, hA, hX, hlt, hn, hE, hE1, hH1, hb⟩ := h
  obtain ⟨A', X', t', hr', hA', hX', hlt', hf', hE', -, -, hb'⟩ := h'
  subst hE1
  have h1 := hr.tr.le
  have h1' := hr'.tr.le
  have e1 := hp.row_iff h1
  have e2 := hp.row_iff (i := t + 1) (by omega)
  have e3 := hp.row_iff h1'
  have e4 := hp.row_iff (i := t' + 1) (by omega)
  have : t = t' := by omega
  subst this
  rw [hb, hb']

theorem last_row_D1 (hp1 : SInc p' E1 H1 F) (hc : Corner E E1 b) (h' : D1Case E1 H1 F a' E2 H2 F2 b') :
    b.1 < b'.1 ∨ b = b' := by
  obtain ⟨A', X', t', hr', hA', hX', hlt', hf', hE', -, -, hb'⟩ := h'
  obtain ⟨b1, b2, b3, b4⟩ := hc.box hp1
  have h1' := hr'.tr.le
  have e1 := (hp1.row_iff b1).1 (by omega)
  have e4 := hp1.row_iff (i := t' + 1) (by omega)
  subst hb'
  rcases Nat.lt_or_ge b.1 t' with h | h
  · exact Or.inl h
  · right
    have : b.1 = t' := by omega
    ext
    · exact this
    · simp only; rw [← this, b3]; rfl

/-- After D2 the entries of the first rows are old or larger than all letters of the row phase. -/
theorem d2_near (hp : SInc p E H f) (hr : RowTr E f G A X 1 t) (hX : X t = t) (hlt : t < E t)
    (hc : Tr loC H (tr G) (tr F) C Y (t + 1) u) (hC : C (t + 1) = f t t) (hY : Y u = H u)
    (hE1 : E1 = finE E (Fit loC (tr G) (tr F) u (H u) (C u)) (H u)) (hEu : E (H u) = u) {i x : Nat} (hx : x < E1 i) :
    (F i x = G i x ∧ x < E i) ∨ (A t < F i x ∧ (x < E i → F i x < G i x)) := by
  have h1 := hr.tr.le
  have h2 := (hr.tr.pos t h1 (le_refl _)).2.2.2 (by omega)
  rw [hX] at h2
  have hu := hc.le
  have hnew : ¬ x < E i → F i x = C u := by
    intro hn
    rw [hE1] at hx
    by_cases hi : i = H u
    · rw [hi, finE_self] at hx
      rw [hi] at hn
      split at hx
      · rename_i hf
        have hxu : x = u := by omega
        rw [hi, hxu]
        have := hc.fit u (H u) hu (le_refl _) (by rw [hY]; exact ⟨rfl, hf⟩)
        exact this
      · omega
    · rw [finE_ne hi] at hx; omega
  have hm := hc.mono (t + 1) u (le_refl _) hu (le_refl _)
  by_cases hn : x < E i
  · rcases hc.cases x i with h3 | ⟨h3, h4, h5, h6, h7⟩
    · exact Or.inl ⟨h3, hn⟩
    · right
      have hm' := hc.mono (t + 1) x (le_refl _) h3 h4
      simp only [tr] at h6 h7
      refine ⟨by omega, fun _ => ?_⟩
      have : i < H x := by
        rcases Nat.eq_or_lt_of_le h4 with h8 | h8
        · rw [h5, h8, hY, hEu] at hn; omega
        · rw [h5]; exact hc.lt x h3 h8
      have := h7 this
      omega
  · right
    have := hnew hn
    exact ⟨by omega, fun h => absurd h hn⟩

theorem le_D2_D2 (hp : SInc p E H f) (hp1 : SInc p' E1 H1 F) (hc : Corner E E1 b) (h : D2Case E H f a E1 H1 F b)
    (h' : D2Case E1 H1 F a' E2 H2 F2 b') (ha : a ≤ a') : b.1 < b'.1 ∨ b = b' := by
  obtain ⟨A, X, t, G, C, Y, u, hr, hA, hX, hlt, ⟨T, hG⟩, hC, hC1, hY, hEu, hYlt, hnf, hE1, hH1, hb⟩ := h
  obtain ⟨A', X', t', G', C', Y', u', hr', hA', hX', hlt', ⟨T', hG'⟩, hC', hC1', hY', hEu', hYlt', hnf', hE2, hH2, hb'⟩ := h'
  have h1 := hr.tr.le
  have h1' := hr'.tr.le
  have htu := hC.le
  have htu' := hC'.le
  have hHu : H u < u := by have := hYlt u htu (le_refl _); omega
  have hHu' : H1 u' < u' := by have := hYlt' u' htu' (le_refl _); omega
  obtain ⟨e1, e2⟩ := col_box hp hnf hb
  rw [← hH1] at e1
  obtain ⟨b1, b2, b3, b4⟩ := hc.box hp1
  have near : ∀ {i x}, x < E1 i → (F i x = G i x ∧ x < E i) ∨ (A t < F i x ∧ (x < E i → F i x < G i x)) :=
    fun hx => d2_near hp hr hX hlt hC hC1 hY hE1 hEu hx
  have hp2 := (hr'.tr.pos t' h1' (le_refl _)).2.2.2 (by omega)
  rw [hX'] at hp2
  have hpt := (hr.tr.pos t h1 (le_refl _)).2.2.2 (by omega)
  rw [hX] at hpt
  have hFd : ∀ k, k ≤ t → F k k = G k k := by
    intro k hk
    exact hC.out k k (by omega)
  have hv : t' ≤ t → A t' ≤ A' t' := fun htt =>
    le_value hp.arrR hr.tr hr'.tr (le_refl _) (fun i x _ hx => by
      rcases near hx with h2 | h2
      · exact Or.inl ⟨h2.1, fun _ => h2.2⟩
      · exact Or.inr (Or.inr (le_of_lt h2.1))) (fun _ => by rw [hA, hA']; exact ha) t' h1' htt (le_refl _)
  have htt : t ≤ t' := by
    by_contra hn
    have h2 := hv (by omega)
    have h3 := hr.off t' h1' (by omega)
    have h4 := (hr.tr.pos t' h1' (by omega)).2.2.1 t' (le_refl _) h3
    rw [hFd t' (by omega), hr.tr.same t' t' (by omega) (by omega) (by omega)] at hp2
    omega
  have htu2 : t' + 1 ≤ u := by
    by_contra hn
    have h3 : t' < E t' := by
      rcases (hc.shape t' t').1 ⟨h1', le_refl _, hlt'⟩ with h4 | h4
      · have e3 := congrArg Prod.fst h4
        have e4 := congrArg Prod.snd h4
        simp only at e3 e4
        by_cases hf : Fit loC (tr G) (tr F) u (H u) (C u)
        · rw [if_pos hf] at hb; rw [hb] at e3 e4; simp only at e3 e4; omega
        · rw [if_neg hf] at hb
          rw [hE1] at hlt'
          unfold finE at hlt'
          rw [if_neg hf] at hlt'
          exact hlt'
      · exact h4.2.2
    have h4 := hp.up' (i := H u) (i' := t') (j := t') (hp.one u) (by omega) (le_refl _) h3
    omega
  have hcv : C (t' + 1) ≤ C' (t' + 1) := by
    rw [hC1']
    rcases Nat.eq_or_lt_of_le htt with h2 | h2
    · subst h2
      have h3 := hv (le_refl _)
      rw [hC1, hFd t (le_refl _)]
      rw [hFd t (le_refl _)] at hp2
      rcases hr.tr.cases t t with h4 | ⟨_, _, _, h4, _⟩
      · rw [h4]
      · omega
    · have h3 := hYlt t' (by omega) (by omega)
      have h5 : 1 ≤ Y t' := (hC.pos t' (by omega) (by omega)).1
      rw [hC.bump t' (by omega) (by omega)]
      have h6 : F t' t' = G t' t' := hC.same t' t' (by omega) (by omega) (by omega)
      rw [h6]
      simp only [tr]
      have h7 : t' < E t' := by
        rcases near hlt' with h8 | h8
        · exact h8.2
        · by_contra hn
          rw [hE1] at hlt'
          by_cases h9 : t' = H u
          · exact hn (by rw [h9, hEu]; omega)
          · rw [finE_ne h9] at hlt'; omega
      exact le_of_lt (hG.colLt (i := Y t') (i' := t') (j := t') h5 h3 (le_refl _) h7)
  obtain ⟨k1, k2⟩ := le_last hG.arrC hC hY (hi' := H1) (by intro i hi; rw [hH1, finE_ne hi])
    (by rw [hH1, finE_self, hY]) hC' (by omega) htu2 (by
      intro k i hk hi
      rcases hr'.tr.cases i k with h2 | ⟨h2, h3, h4, h5, h6⟩
      · exact Or.inl h2
      · right
        have := hr'.tr.mono i t' h2 h3 (le_refl _)
        simp only [tr]
        rw [h5, hC1']
        omega) hcv
  have hHle : H1 u ≤ H1 u' := by
    by_contra hn
    have h2 := (hp1.col (H1 u') u (hp1.one u')).1 (by omega)
    omega
  obtain ⟨e1', e2'⟩ := col_box hp1 hnf' hb'
  rw [finE_self] at e1'
  by_cases hf : Fit loC (tr G') (tr F2) u' (H1 u') (C' u')
  · rw [if_pos hf] at e1'; left; omega
  · rw [if_neg hf] at e1' hb'
    rcases Nat.lt_or_ge b.1 b'.1 with h2 | h2
    · exact Or.inl h2
    · right
      have h3 : H1 u' - 1 = b.1 := by omega
      rw [hb', h3, b3]
      rfl

/-! ## Strictly decreasing letters -/

theorem loR_mono : ∀ i, 1 ≤ i → loR i ≤ loR (i + 1) := fun i _ => Nat.le_succ i

theorem loC_mono : ∀ i, 1 ≤ i → loC i ≤ loC (i + 1) := fun _ _ => le_refl 1

theorem near_self (hE : ∀ i, E i ≤ E1 i) {s t : Nat} : Near loR E E1 F F A X s t :=
  ⟨hE, fun _ _ _ _ _ _ => ⟨le_refl _, Or.inl rfl⟩⟩

theorem gt_row_row (hp : SInc p E H f) (hp1 : SInc p' E1 H1 F) (hc : Corner E E1 b) (h : RowCase E H f a E1 H1 F b)
    (h' : RowCase E1 H1 F a' E2 H2 F2 b') (ha : a' < a) : b.1 < b'.1 := by
  obtain ⟨A, X, t, hr, hA, hX, hn, hE1, hH1, hb⟩ := h
  obtain ⟨A', X', t', hr', hA', hX', hn', hE2, hH2, hb'⟩ := h'
  have h1 := hr.tr.le
  have h1' := hr'.tr.le
  obtain ⟨b1, b2, b3, b4⟩ := hc.box hp1
  obtain ⟨e1, e2⟩ := row_box hp h1 hn hb
  obtain ⟨e1', e2'⟩ := row_box hp1 h1' hn' hb'
  rw [← hE1] at e1
  have key := gt_all hp.arrR hp1.arrR hr.tr hr'.tr (near_self (by intro i; rw [hE1]; exact le_finE i)) loR_mono
    (by intro hf; rw [hX] at hf ⊢; rw [hE1, finE_self, if_pos hf]; omega) (le_refl _) (by omega)
    (fun _ => by rw [hA, hA']; exact ha)
  have htt : t < t' := by
    by_contra hcon
    obtain ⟨_, j, j1, j2, j3, j4, _⟩ := key t' h1' (by omega) (le_refl _)
    omega
  by_cases hf : Fit loR f F t (E t) (A t)
  · rw [if_pos hf] at hb
    rw [hb]
    simp only
    omega
  · have hlt := hn hf
    obtain ⟨_, j, j1, j2, j3, j4, j5, _⟩ := key t h1 (le_refl _) (by omega)
    have j0 : t ≤ j := j1
    have hj : F t j ≤ F t b.2 := hp1.arrR.rowLe h1 j1 (by omega) (by omega)
    have walk := gt_walk hp1.arrR hr'.tr (q := t) (c := b.2) h1 (fun _ => by omega)
    have hcol : ∀ k, t ≤ k → k ≤ b.1 → loR k ≤ b.2 ∧ b.2 < E1 k := by
      intro k k1 k2
      refine ⟨?_, hp1.up' (i := k) (i' := b.1) (by omega) k2 b2 (by omega)⟩
      show k ≤ b.2
      omega
    have : b.1 < t' := by
      by_contra hcon
      have h3 := (walk t' (by omega) (fun k k1 k2 => hcol k k1 (by omega)) (le_refl _)).2 htt
      have h4 := (hcol t' (by omega) (by omega)).2
      omega
    omega

/-- If the first insertion ends on the diagonal, the second one cannot end in the row phase. -/
theorem gt_diag_row (hp1 : SInc p' E1 H1 F) {p'' : Tab} {H2 : Nat → Nat} (hp2 : SInc p'' E2 H2 F2) (hc : Corner E E1 b)
    (hc' : Corner E1 E2 b') (hb : b.1 = b.2) (hlt : b.1 < b'.1) : False := by
  obtain ⟨b1, b2, b3, b4⟩ := hc.box hp1
  obtain ⟨b1', b2', b3', b4'⟩ := hc'.box hp2
  have h1 := hp2.up' (i := b.1) (i' := b'.1) b1 (by omega) b2' (by omega)
  rcases (hc'.shape b.1 b'.2).1 ⟨b1, by omega, h1⟩ with h2 | h2
  · have := congrArg Prod.fst h2
    simp only at this
    omega
  · omega

theorem gt_diag_D1 (hp1 : SInc p' E1 H1 F) (hc : Corner E E1 b) (hb : b.1 = b.2) (h' : D1Case E1 H1 F a' E2 H2 F2 b') : False := by
  obtain ⟨A', X', t', hr', hA', hX', hlt', hf', hE', -⟩ := h'
  obtain ⟨b1, b2, b3, b4⟩ := hc.box hp1
  have h1' := hr'.tr.le
  have e1 := (hp1.row_iff b1).1 (by omega)
  have e4 := hp1.row_iff (i := t' + 1) (by omega)
  have h2 := hp1.up' (i := b.1) (i' := t') (j := t' + 1 - 1) b1
  have h3 := hp1.row_iff h1'
  have h4 := hp1.row_iff (i := b.1 + 1) (by omega)
  have h5 : ¬ b.1 + 1 < E1 (b.1 + 1) := by
    intro h6
    have := hp1.up' (i := b.1) (i' := b.1 + 1) (j := b.1 + 1) b1 (by omega) (le_refl _) h6
    omega
  have : t' = b.1 := by omega
  rw [this] at hlt'
  omega

/-- The box of the second insertion, if it passes D2 in a row weakly above the box of the first. -/
theorem d2_col (hp1 : SInc p' E1 H1 F) (hc : Corner E E1 b) (h' : D2Case E1 H1 F a' E2 H2 F2 b')
    (hl : ∀ i, 1 ≤ i → i < E1 i → i ≤ b.1) : b.2 < b'.2 := by
  obtain ⟨A', X', t', G', C', Y', u', hr', hA', hX', hlt', ⟨T', hG'⟩, hC', hC1', hY', hEu', hYlt', hnf', hE2, hH2, hb'⟩ := h'
  obtain ⟨b1, b2, b3, b4⟩ := hc.box hp1
  have h1' := hr'.tr.le
  have h2 := d2_reach hp1 hG' hr' hX' hC' hC1' hY'
  obtain ⟨e1', e2'⟩ := col_box hp1 hnf' hb'
  have h3 := hp1.up' (i := t') (i' := b.1) (j := b.2) h1' (hl t' h1' hlt') b2 (by omega)
  omega

theorem gt_diag_D2 (hp1 : SInc p' E1 H1 F) (hc : Corner E E1 b) (hb : b.1 = b.2)
    (h' : D2Case E1 H1 F a' E2 H2 F2 b') : b.2 < b'.2 := by
  obtain ⟨b1, b2, b3, b4⟩ := hc.box hp1
  apply d2_col hp1 hc h'
  intro i hi hlt
  by_contra hcon
  have := hp1.up' (i := b.1) (i' := i) (j := i) b1 (by omega) (le_refl _) hlt
  omega

theorem gt_D1_D2 (hp : SInc p E H f) (hp1 : SInc p' E1 H1 F) (hc : Corner E E1 b) (h : D1Case E H f a E1 H1 F b)
    (h' : D2Case E1 H1 F a' E2 H2 F2 b') : b.2 < b'.2 := by
  apply d2_col hp1 hc h'
  obtain ⟨A, X, t, hr, hA, hX, hlt, hn, hE, hE1, hH1, hb⟩ := h
  intro i hi hlt
  subst hE1
  have h2 := hp.row_iff (i := t + 1) (by omega)
  have h3 := hp.row_iff hi
  rw [hb]
  simp only
  omega

/-- If the first insertion passes a diagonal transition in row `t`, the second one passes D2 weakly above. -/
theorem gt_end (hp : SInc p E H f) (hp1 : SInc p' E1 H1 F) (hr : RowTr E f G A X 1 t) (hlt : X t < E1 t) (htE : t < E1 t)
    (hXt : X t = t ∨ (X t = t + 1 ∧ ¬ F t (t + 1) = A t)) (hnear : Near loR E E1 G F A X 1 t)
    (hr' : RowTr E1 F G' A' X' 1 t') (ha : A' 1 < A 1) :
    ((t' ≤ t ∧ X' t' < E1 t') ∧ (t' = t → X' t' = t')) ∧ (X t = t → t' = t → F t t = A t) := by
  have h1 := hr.tr.le
  have h1' := hr'.tr.le
  have key := gt_all hp.arrR hp1.arrR hr.tr hr'.tr hnear loR_mono (fun _ => hlt) (le_refl _) (by omega) (fun _ => ha)
  have hX : t ≤ t' → X' t = t := by
    intro htt
    obtain ⟨_, j, j1, j2, j3, j4, j5, j6⟩ := key t h1 (le_refl _) htt
    have h2 : t ≤ X' t := (hr'.tr.pos t h1 htt).1
    rcases hXt with h3 | ⟨h3, h4⟩
    · omega
    · rcases j6 with j6 | ⟨j6, j7⟩
      · omega
      · rw [h3] at j6; exact absurd j6 h4
  have htt : t' ≤ t := by
    by_contra hcon
    have h2 := hX (by omega)
    have h3 := hr'.off t h1 (by omega)
    omega
  refine ⟨⟨⟨htt, ?_⟩, ?_⟩, ?_⟩
  · obtain ⟨_, j, j1, j2, j3, j4, j5, j6⟩ := key t' h1' htt (le_refl _)
    omega
  · intro h2; rw [h2]; exact hX (by omega)
  · intro h2 h3
    obtain ⟨_, j, j1, j2, j3, j4, j5, j6⟩ := key t h1 (le_refl _) (by omega)
    have j0 : t ≤ j := j1
    rcases j6 with j6 | ⟨j6, _⟩
    · omega
    · rw [h2] at j6; exact j6

theorem D1_end (hp : SInc p E H f) (hp1 : SInc p' E1 H1 F) (h : D1Case E H f a E1 H1 F b) (hr' : RowTr E1 F G' A' X' 1 t')
    (hA' : A' 1 = a') (ha : a' < a) : X' t' < E1 t' ∧ (E1 (t' + 1) = t' + 1 → X' t' = t') := by
  obtain ⟨A, X, t, hr, hA, hX, hlt, hn, hE, hE1, hH1, hb⟩ := h
  subst hE1
  have h1 := hr.tr.le
  have h1' := hr'.tr.le
  have hpos := (hr.tr.pos t h1 (le_refl _)).2.2.2 (by omega)
  have hF := hr.tr.same t (t + 1) h1 (le_refl _) (by rw [hX]; tauto)
  have key := gt_end hp hp1 hr (by omega) (by omega) (Or.inr ⟨hX, by rw [hX] at hpos; omega⟩)
    (near_self (fun _ => le_refl _)) hr' (by rw [hA, hA']; exact ha)
  refine ⟨key.1.1.2, fun h2 => key.1.2 ?_⟩
  have e1 := hp.row_iff h1
  have e2 := hp.row_iff (i := t' + 1) (by omega)
  omega

theorem D2_end (hp : SInc p E H f) (hp1 : SInc p' E1 H1 F) (hr : RowTr E f G A X 1 t) (hA : A 1 = a) (hX : X t = t) (hlt : t < E t)
    (hC : Tr loC H (tr G) (tr F) C Y (t + 1) u) (hC1 : C (t + 1) = f t t) (hY : Y u = H u)
    (hE1 : E1 = finE E (Fit loC (tr G) (tr F) u (H u) (C u)) (H u)) (hEu : E (H u) = u)
    (hr' : RowTr E1 F G' A' X' 1 t') (hA' : A' 1 = a') (ha : a' < a) :
    t' ≤ t ∧ X' t' < E1 t' ∧ (E1 (t' + 1) = t' + 1 → X' t' = t') ∧ (t' = t → F t t = A t) := by
  have h1 := hr.tr.le
  have h1' := hr'.tr.le
  have hmono : ∀ i, E i ≤ E1 i := by intro i; rw [hE1]; exact le_finE i
  have hm := hmono t
  have hnear : Near loR E E1 G F A X 1 t := by
    refine ⟨hmono, ?_⟩
    intro i x hi hix hx hor
    have hxE : x < E i := by
      rcases hor with h2 | ⟨h2, h3, h4⟩
      · exact h2
      · rcases Nat.eq_or_lt_of_le h3 with h5 | h5
        · rw [h4, h5, hX]; exact hlt
        · rw [h4]; exact hr.tr.lt i h2 h5
    rcases d2_near hp hr hX hlt hC hC1 hY hE1 hEu hx with h2 | h2
    · exact ⟨le_of_eq h2.1, Or.inl h2.1⟩
    · have := h2.2 hxE
      exact ⟨by omega, by omega⟩
  have key := gt_end hp hp1 hr (by omega) (by omega) (Or.inl hX) hnear hr' (by rw [hA, hA']; exact ha)
  refine ⟨key.1.1.1, key.1.1.2, fun h2 => key.1.2 ?_, key.2 hX⟩
  have e1 := hp1.row_iff h1
  have e2 := hp1.row_iff (i := t' + 1) (by omega)
  have := key.1.1.1
  omega

theorem gt_D2_D2 (hp : SInc p E H f) (hp1 : SInc p' E1 H1 F) (hc : Corner E E1 b) (h : D2Case E H f a E1 H1 F b)
    (h' : D2Case E1 H1 F a' E2 H2 F2 b') (ha : a' < a) : b.2 < b'.2 := by
  obtain ⟨A, X, t, G, C, Y, u, hr, hA, hX, hlt, ⟨T, hG⟩, hC, hC1, hY, hEu, hYlt, hnf, hE1, hH1, hb⟩ := h
  obtain ⟨A', X', t', G', C', Y', u', hr', hA', hX', hlt', ⟨T', hG'⟩, hC', hC1', hY', hEu', hYlt', hnf', hE2, hH2, hb'⟩ := h'
  have h1 := hr.tr.le
  have h1' := hr'.tr.le
  have htu := hC.le
  have htu' := hC'.le
  obtain ⟨b1, b2, b3, b4⟩ := hc.box hp1
  obtain ⟨e1, e2⟩ := col_box hp hnf hb
  rw [← hH1] at e1
  obtain ⟨e1', e2'⟩ := col_box hp1 hnf' hb'
  obtain ⟨htt, -, -, hfit⟩ := D2_end hp hp1 hr hA hX hlt hC hC1 hY hE1 hEu hr' hA' ha
  have hEm := hc.mono hp hp1 h1
  have hreach := d2_reach hp1 hG' hr' hX' hC' hC1' hY'
  have htE := hp1.up' (i := t') (i' := t) (j := t) h1' htt (le_refl _) (by omega)
  have hpt := (hr.tr.pos t h1 (le_refl _)).2.2.2 (by omega)
  rw [hX] at hpt
  have hFt : F t t = G t t := hC.out t t (by omega)
  have hFle : F t t ≤ f t t := by rw [hFt]; exact hr.tr.le_old t t hlt
  have hD : F t' t' < f t t := by
    rcases Nat.eq_or_lt_of_le htt with h2 | h2
    · rw [h2, hfit h2]; exact hpt
    · have h3 := hp1.arrR.rowLt (i := t') (j := t') (j' := t) h1' (le_refl _) h2 htE
      have h4 := hp1.colLt (i := t') (i' := t) (j := t) h1' h2 (le_refl _) (by omega)
      omega
  have hp2 := (hr'.tr.pos t' h1' (le_refl _)).2.2.2 (by omega)
  rw [hX'] at hp2
  have hnear : Near loC H H1 (tr F) (tr G') C Y (t + 1) u := by
    refine ⟨by intro i; rw [hH1]; exact le_finE i, ?_⟩
    intro k i hk hi hik _
    have hi1 : 1 ≤ i := hi
    have hkE := (hp1.col i k hi1).1 hik
    refine ⟨hr'.tr.le_old i k hkE.2, ?_⟩
    rcases hr'.tr.cases i k with h2 | ⟨h2, h3, h4, h5, h6⟩
    · exact Or.inl h2
    · right; left
      rw [hC1]
      show F i k < f t t
      rcases Nat.eq_or_lt_of_le h3 with h7 | h7
      · rw [h4, h7, hX']; exact hD
      · have h8 := hr'.tr.bump i h2 h7
        have h9 := hr'.tr.mono (i + 1) t' (by omega) (by omega) (le_refl _)
        rw [h4]
        omega
  have hlast : t < t' + 1 → t' = t := by omega
  have hCs : C' (t + 1) < C (t + 1) := by
    rw [hC1]
    rcases Nat.eq_or_lt_of_le htt with h2 | h2
    · rw [← h2, hC1', h2]; rw [h2] at hD; exact hD
    · have h3 := hYlt' t (by omega) (by omega)
      have h5 : 1 ≤ Y' t := (hC'.pos t (by omega) (by omega)).1
      rw [hC'.bump t (by omega) (by omega)]
      have h6 := hG'.colLt (i := Y' t) (i' := t) (j := t) h5 h3 (le_refl _) (by omega)
      have h7 : G' t t = F t t := hr'.tr.out t t (by omega)
      simp only [tr]
      omega
  have key := gt_all hG.arrC hG'.arrC hC hC' hnear loC_mono
    (by intro hf; rw [hY] at hf ⊢; rw [hH1, finE_self, if_pos hf]; omega) (by omega)
    (by
      intro _ hn
      rw [hC1, Nat.add_sub_cancel] at hn
      simp only [tr] at hn
      have h3 : 1 ≤ Y (t + 1) := (hC.pos (t + 1) (le_refl _) htu).1
      have h4 := hYlt (t + 1) (le_refl _) htu
      have h5 : Y (t + 1) = t := by
        by_contra hne
        have h6 := hp1.colLt (i := Y (t + 1)) (i' := t) (j := t) h3 (by omega) (le_refl _) (by omega)
        omega
      rw [h5] at hn ⊢
      have h6 : t' ≠ t := by
        intro h7
        have := hfit h7
        omega
      rw [Nat.add_sub_cancel]
      exact ⟨by omega, hYlt' t (by omega) (by omega)⟩) (fun _ => hCs)
  have huu : u < u' := by
    by_contra hcon
    obtain ⟨_, j, j1, j2, j3, j4, _⟩ := key u' (by omega) (by omega) (le_refl _)
    omega
  by_cases hf : Fit loC (tr G) (tr F) u (H u) (C u)
  · rw [if_pos hf] at hb
    rw [hb]
    simp only
    omega
  · have h1H := hnf hf
    obtain ⟨_, j, j1, j2, j3, j4, j5, _⟩ := key u htu (le_refl _) (by omega)
    have hj : tr G' u j ≤ tr G' u b.1 := hG'.arrC.rowLe (by omega) j1 (by omega) (by omega)
    have walk := gt_walk hG'.arrC hC' (q := u) (c := b.1) (by omega) (fun _ => by omega)
    have hcol : ∀ k, u ≤ k → k ≤ b.2 → loC k ≤ b.1 ∧ b.1 < H1 k := by
      intro k k1 k2
      refine ⟨b1, (hp1.col b.1 k b1).2 ⟨?_, by omega⟩⟩
      have := (hp1.col b.1 u b1).1 (by omega)
      omega
    have : b.2 < u' := by
      by_contra hcon
      have h3 := (walk u' (by omega) (fun k k1 k2 => hcol k k1 (by omega)) (le_refl _)).2 huu
      have h4 := (hcol u' (by omega) (by omega)).2
      omega
    omega

/-! ## Both cases together -/

/-- One insertion. -/
def OneStep (E H : Nat → Nat) (f : Nat → Nat → Int) (a : Int) (E1 H1 : Nat → Nat) (F : Nat → Nat → Int) (neg : Bool) (b : Nat × Nat) :
    Prop :=
  (neg = false ∧ RowCase E H f a E1 H1 F b) ∨ (neg = true ∧ (D1Case E H f a E1 H1 F b ∨ D2Case E H f a E1 H1 F b))

variable {neg neg' : Bool}

theorem pieri_le (hp : SInc p E H f) (hp1 : SInc p' E1 H1 F) (hc : Corner E E1 b) (h : OneStep E H f a E1 H1 F neg b)
    (h' : OneStep E1 H1 F a' E2 H2 F2 neg' b') (ha : a ≤ a') : SRel neg neg' b b' := by
  rcases h with ⟨rfl, h⟩ | ⟨rfl, h⟩ <;> rcases h' with ⟨rfl, h'⟩ | ⟨rfl, h'⟩
  · exact le_row_row hp hp1 hc h h' ha
  · rcases h' with h' | h'
    · exact (le_row_D1 hp h h' ha).elim
    · exact (le_row_D2 hp h h' ha).elim
  · trivial
  · rcases h' with h' | h'
    · exact last_row_D1 hp1 hc h'
    · rcases h with h | h
      · exact (le_D1_D2 hp h h' ha).elim
      · exact le_D2_D2 hp hp1 hc h h' ha

/-- The sign after `negate`. -/
def flipAt (neg : Bool) (b : Nat × Nat) : Bool := if b.1 = b.2 then neg else !neg

theorem pieri_gt (hp : SInc p E H f) (hp1 : SInc p' E1 H1 F) {p'' : Tab} (hp2 : SInc p'' E2 H2 F2) (hc : Corner E E1 b)
    (hc' : Corner E1 E2 b') (hd : neg = true → b.1 ≠ b.2) (hd' : neg' = true → b'.1 ≠ b'.2)
    (h : OneStep E H f a E1 H1 F neg b)
    (h' : OneStep E1 H1 F a' E2 H2 F2 neg' b') (ha : a' < a) : SRelS (flipAt neg b) (flipAt neg' b') b b' := by
  have hD2 : b.2 < b'.2 → flipAt neg b = false → neg' = true → SRelS (flipAt neg b) (flipAt neg' b') b b' := by
    intro h1 h2 h3
    have : flipAt neg' b' = false := by rw [flipAt, if_neg (hd' h3), h3]; rfl
    rw [h2, this]
    exact h1
  rcases h with ⟨rfl, h⟩ | ⟨rfl, h⟩
  · by_cases hb : b.1 = b.2
    · have hfl : flipAt false b = false := by rw [flipAt, if_pos hb]
      rcases h' with ⟨rfl, h'⟩ | ⟨rfl, h' | h'⟩
      · exact (gt_diag_row hp1 hp2 hc hc' hb (gt_row_row hp hp1 hc h h' ha)).elim
      · exact (gt_diag_D1 hp1 hc hb h').elim
      · exact hD2 (gt_diag_D2 hp1 hc hb h') hfl rfl
    · have hfl : flipAt false b = true := by rw [flipAt, if_neg hb]; rfl
      rcases h' with ⟨rfl, h'⟩ | ⟨rfl, h'⟩
      · have := gt_row_row hp hp1 hc h h' ha
        rw [hfl]
        cases flipAt false b'
        · trivial
        · exact this
      · have : flipAt true b' = false := by rw [flipAt, if_neg (hd' rfl)]; rfl
        rw [hfl, this]
        trivial
  · have hfl : flipAt true b = false := by rw [flipAt, if_neg (hd rfl)]; rfl
    have hend : ∀ {A' X' t' G'}, RowTr E1 F G' A' X' 1 t' → A' 1 = a' → X' t' < E1 t' ∧ (E1 (t' + 1) = t' + 1 → X' t' = t') := by
      intro A' X' t' G' hr' hA'
      rcases h with h | ⟨A, X, t, G, C, Y, u, hr, hA, hX, hlt, ⟨T, hG⟩, hC, hC1, hY, hEu, hYlt, hnf, hE1, hH1, hb⟩
      · exact D1_end hp hp1 h hr' hA' ha
      · have := D2_end hp hp1 hr hA hX hlt hC hC1 hY hE1 hEu hr' hA' ha
        exact ⟨this.2.1, this.2.2.1⟩
    rcases h' with ⟨rfl, h'⟩ | ⟨rfl, h' | h'⟩
    · obtain ⟨A', X', t', hr', hA', hX', -⟩ := h'
      have := (hend hr' hA').1
      omega
    · obtain ⟨A', X', t', hr', hA', hX', hlt', hf', hE', -⟩ := h'
      have := (hend hr' hA').2 hE'
      omega
    · refine hD2 ?_ hfl rfl
      rcases h with h | h
      · exact gt_D1_D2 hp hp1 hc h h'
      · exact gt_D2_D2 hp hp1 hc h h' ha

end Verif.FInsertion
