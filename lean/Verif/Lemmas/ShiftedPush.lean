import Verif.Lemmas.ShiftedRecord

/-! One round of orthogonal Hecke insertion, and its inverse. -/

namespace Verif.FInsertion

open Tab Lines
open Insertion (HState mkState items_ne_nil)

variable {p p' q : Tab} {E H E1 H1 : Nat → Nat} {f F : Nat → Nat → Int} {a : Int} {neg : Bool} {b : Nat × Nat} {N : Nat}

/-- What is known about the insertion of `a` into `p`. -/
structure Outcome (p : Tab) (E H : Nat → Nat) (a : Int) (p' : Tab) (E1 H1 : Nat → Nat) (F : Nat → Nat → Int) (neg : Bool)
    (b : Nat × Nat) : Prop where
  inc : SInc p' E1 H1 F
  path : ∃ pl c, FInsertion.path (p.maxRow + p.maxColumn + 4) (stR p E 1 a) = some (pl ++ [(⟨p', none⟩, c)]) ∧
    recordNeg p' (pl.map Prod.snd ++ [c]) c = neg ∧ recordBox p' neg c = some b
  corner : Corner E E1 b
  diag : neg = true → b.1 ≠ b.2
  back : ∀ s, Rec neg s → ((1 ≤ b.1 ∧ b.1 ≤ b.2 ∧ b.2 < E b.1) → 1 < s.dedup.length) →
    (¬ (1 ≤ b.1 ∧ b.1 ≤ b.2 ∧ b.2 < E b.1) → s.dedup.length = 1) →
    ∃ s1 k, inverseTerminal ⟨p', none⟩ (b, s) = some s1 ∧ k ≤ p.maxRow + p.maxColumn + 1 ∧
      ∀ fuel, rewind (k + fuel) s1 = rewind fuel (stR p E 1 a)

theorem ready_one (h0 : 0 < a) (h1 : a % 2 = 0) : RReady E f 1 a :=
  ⟨le_refl _, h0, h1, Or.inl rfl, Or.inl rfl, Or.inl rfl⟩

theorem mono_max {T T' : Tab} {f' : Nat → Nat → Int} (h : SInc T E H f) (h' : SInc T' E1 H1 f')
    (hs : ∀ i j, (1 ≤ i ∧ i ≤ j ∧ j < E i) → (1 ≤ i ∧ i ≤ j ∧ j < E1 i)) :
    T.maxRow ≤ T'.maxRow ∧ T.maxColumn ≤ T'.maxColumn := by
  constructor
  · rcases maxRow_mem T with h0 | ⟨j, hj⟩
    · omega
    · exact Tab.le_maxRow ((h'.has_iff _ _).2 (hs _ _ ((h.has_iff _ _).1 hj)))
  · rcases maxColumn_mem T with h0 | ⟨i, hi⟩
    · omega
    · exact Tab.le_maxColumn ((h'.has_iff _ _).2 (hs _ _ ((h.has_iff _ _).1 hi)))

/-- From the outcome of the insertion to `push` and `unpush`. -/
theorem push_outcome (hp : SInc p E H f) (hq : SQInv q E N) (ho : Outcome p E H a p' E1 H1 F neg b) :
    push p q (N + 1) a = some (p', q.add b (sgn neg (N + 1))) ∧ SQInv (q.add b (sgn neg (N + 1))) E1 (N + 1) ∧
      unpush p' (q.add b (sgn neg (N + 1))) = some (p, q, a) ∧ p'.items ≠ [] := by
  have hl1 := hp.lo 1 (le_refl _)
  have h3 : E 1 - 1 + 2 = E 1 + 1 := by omega
  have hmk : mkState p none = some ⟨p, none⟩ := rfl
  have hadd : (⟨p, none⟩ : HState).add a = some (stR p E 1 a) := by
    simp only [HState.add]
    rw [hp.maxColumn, h3, add_of_none (hp.outerR_none 1)]
    exact mkState_stR hp (by omega)
  obtain ⟨pl, c, hpath, hneg, hbox⟩ := ho.path
  have hins : insert (p.maxRow + p.maxColumn + 4) ⟨p, none⟩ a = some (⟨p', none⟩, pl.map Prod.snd ++ [c]) := by
    rw [insert, hadd]
    simp only
    rw [hpath]
    simp
  have hQ := hq.add ho.corner ho.diag
  have hb := (ho.corner.shape b.1 b.2).2 (Or.inl rfl)
  have hhas : p'.has b = true := (ho.inc.has_iff b.1 b.2).2 hb
  have hmax := mono_max hp ho.inc (fun i j h => (ho.corner.shape i j).2 (Or.inr h))
  refine ⟨?_, hQ, ?_, items_ne_nil hhas⟩
  · rw [push, hmk]
    simp only [Option.bind_some]
    rw [hins]
    simp only [List.getLast?_append, List.getLast?_singleton, Option.some_or, hneg, hbox, Option.map_some]
    rfl
  · rw [unpush, hq.pop_add hQ]
    simp only
    obtain ⟨s1, k, hinv, hk, hback⟩ := ho.back _ (hq.isRec b neg)
      (by
        intro h
        rw [hq.rec_length]
        have := hq.ent_ne_nil (b := b) ((hq.shape b.1 b.2).2 h)
        have := List.length_pos_of_ne_nil this
        omega)
      (by
        intro h
        rw [hq.rec_length, SQInv.ent_eq_nil]
        · rfl
        · intro hc
          exact h ((hq.shape b.1 b.2).1 hc))
    have hprev : (mkState p' none).bind (fun s => previous s (some (b, sortInts (q.ent b ++ [sgn neg (N + 1)])))) = some s1 := by
      have : mkState p' none = some ⟨p', none⟩ := rfl
      rw [this]
      simp only [Option.bind_some]
      simp only [previous, HState.isInitial, HState.outerInLastColumn, outerInLastRow, Bool.false_eq_true, if_false]
      exact hinv
    rw [hprev]
    simp only
    have hrew : rewind (p'.maxRow + p'.maxColumn + 2) s1 = some (stR p E 1 a) := by
      obtain ⟨g, hg⟩ := Nat.exists_eq_add_of_le (show k ≤ p'.maxRow + p'.maxColumn + 2 by omega)
      rw [hg, hback g]
      cases g <;> simp [rewind, isInitial_stR]
    rw [hrew]
    simp only [Option.bind_some]
    have e1 : (p.set (1, E 1 + 1) [a]).remove? (1, E 1 + 1) = some p := by
      rw [remove?, if_pos (by rw [has_set]; simp), del_set (hp.outerR_none 1)]
    have e2 : (p.set (1, E 1 + 1) [a]).entry (1, E 1 + 1) = some a := entry_of_get? (by rw [Tab.get?_set]; simp)
    simp only [HState.pop, stR, e1, e2]

/-! ## The three kinds of bumping paths -/

/-- Insertion ends in the row phase. -/
def RowCase (E H : Nat → Nat) (f : Nat → Nat → Int) (a : Int) (E1 H1 : Nat → Nat) (F : Nat → Nat → Int) (b : Nat × Nat) : Prop :=
  ∃ A X t, RowTr E f F A X 1 t ∧ A 1 = a ∧ X t = E t ∧ (¬ Fit loR f F t (E t) (A t) → t < E t) ∧
    E1 = finE E (Fit loR f F t (E t) (A t)) t ∧ H1 = finE H (Fit loR f F t (E t) (A t)) (E t) ∧
    b = if Fit loR f F t (E t) (A t) then (t, E t) else (H (E t - 1) - 1, E t - 1)

/-- Insertion ends with the diagonal transition D1. -/
def D1Case (E H : Nat → Nat) (f : Nat → Nat → Int) (a : Int) (E1 H1 : Nat → Nat) (F : Nat → Nat → Int) (b : Nat × Nat) : Prop :=
  ∃ A X t, RowTr E f F A X 1 t ∧ A 1 = a ∧ X t = t + 1 ∧ t + 1 < E t ∧ ¬ Fit loR f F t (t + 1) (A t) ∧ E (t + 1) = t + 1 ∧
    E1 = E ∧ H1 = H ∧ b = (t, E t - 1)

/-- Insertion passes through the diagonal transition D2 and ends in the column phase. -/
def D2Case (E H : Nat → Nat) (f : Nat → Nat → Int) (a : Int) (E1 H1 : Nat → Nat) (F : Nat → Nat → Int) (b : Nat × Nat) : Prop :=
  ∃ A X t G C Y u, RowTr E f G A X 1 t ∧ A 1 = a ∧ X t = t ∧ t < E t ∧ (∃ T, SInc T E H G) ∧
    Tr loC H (tr G) (tr F) C Y (t + 1) u ∧ C (t + 1) = f t t ∧ Y u = H u ∧ E (H u) = u ∧
    (∀ k, t + 1 ≤ k → k ≤ u → Y k < k) ∧ (¬ Fit loC (tr G) (tr F) u (H u) (C u) → 1 < H u) ∧
    E1 = finE E (Fit loC (tr G) (tr F) u (H u) (C u)) (H u) ∧ H1 = finE H (Fit loC (tr G) (tr F) u (H u) (C u)) u ∧
    b = if Fit loC (tr G) (tr F) u (H u) (C u) then (H u, u) else (H u - 1, E (H u - 1) - 1)

theorem finE_congr {c c' : Prop} [Decidable c] [Decidable c'] (h : c ↔ c') (E : Nat → Nat) (i : Nat) :
    finE E c i = finE E c' i := by
  unfold finE
  simp only [h]

section
variable {T' : Tab} {f' : Nat → Nat → Int} {t : Nat} {a' : Int}

theorem row_outcome (hp : SInc p E H f) (hs : RowSteps E H p f 1 a T' f' t a') (hx : Pos loR E f' t a' (E t)) :
    ∃ E1 H1 F b, Outcome p E H a (nextT T' f' t (E t) a') E1 H1 F false b ∧ RowCase E H f a E1 H1 F b := by
  obtain ⟨A, X, hA, hA1, hAt, hXt, hfit, hft⟩ := hs.trace hx
  have hinc := hs.inc
  have hr := hs.ready
  have hone := hr.one
  have hlo := hinc.lo t hone
  have hmr := hinc.maxRow_eq hp
  have hle := hr.le_maxRow hinc
  have hfin := finInc hinc hr hx rfl
  have han := hinc.anti t hone
  have hnf : ¬ Fit loR f' f' t (E t) a' → t < E t := fun h => lt_of_not_fit hr hx rfl h
  refine ⟨_, _, _, if Fit loR f' f' t (E t) a' then (t, E t) else (H (E t - 1) - 1, E t - 1), ⟨hfin, ?_, ?_, ?_, ?_⟩, ?_⟩
  · obtain ⟨pl, hpl, hpath⟩ := hs.path
    refine ⟨pl, (t, E t), ?_, ?_, ?_⟩
    · obtain ⟨g, hg⟩ := Nat.exists_eq_add_of_le (show t - 1 + 2 ≤ p.maxRow + p.maxColumn + 4 by omega)
      rw [hg, Nat.add_assoc, hpath, show 2 + g = (g + 1) + 1 by omega, FInsertion.path, next_stR hinc hr, rowStep_st hinc hr hx, if_pos rfl,
        rowR1_eq hinc hr hx rfl]
      simp only [Option.map_some]
      rw [path_none]
      rfl
    · rw [recordNeg, List.dropLast_concat, Bool.or_eq_false_iff]
      constructor
      · rw [List.any_eq_false]
        intro c hc
        rw [List.mem_map] at hc
        obtain ⟨d, hd, rfl⟩ := hc
        have := hpl d hd
        simpa using this
      · rw [Bool.and_eq_false_iff]
        by_cases hf : Fit loR f' f' t (E t) a'
        · left
          have : (nextT T' f' t (E t) a').has (t, E t) = true := by
            rw [hfin.has_iff, finE, if_pos hf, addE, if_pos rfl]; omega
          rw [this]; rfl
        · right
          have := hnf hf
          simp; omega
    · by_cases hf : Fit loR f' f' t (E t) a'
      · rw [if_pos hf]
        apply recordBox_new
        rw [hfin.has_iff, finE, if_pos hf, addE, if_pos rfl]; omega
      · rw [if_neg hf]
        have hT : nextT T' f' t (E t) a' = T' := by rw [nextT, if_neg hf]
        rw [hT]
        exact recordBox_row hinc hone (hnf hf) rfl
  · by_cases hf : Fit loR f' f' t (E t) a'
    · rw [if_pos hf]
      constructor
      · intro i j
        rw [Prod.mk.injEq, finE, if_pos hf, addE]
        split
        · rename_i hc; subst hc; omega
        · omega
      · rw [finE, if_pos hf, addE]; simp
      · rw [finE, if_pos hf, addE]; simp; omega
    · rw [if_neg hf]
      have := hnf hf
      have hHx := (hinc.col t (E t - 1) hone).2 (by omega)
      have hD := (hinc.col (H (E t - 1) - 1) (E t - 1) (by omega)).1 (by omega)
      have hb := hinc.col (H (E t - 1) - 1 + 1) (E t - 1) (by omega)
      constructor
      · intro i j
        rw [Prod.mk.injEq, finE, if_neg hf]
        constructor
        · intro h; exact Or.inr h
        · rintro (⟨rfl, rfl⟩ | h)
          · omega
          · exact h
      · rw [finE, if_neg hf]
        simp only
        intro hc
        have := hinc.up' (i := t) (i' := H (E t - 1) - 1) (j := E t - 1 + 1) hone (by omega) (by omega) hc
        omega
      · rw [finE, if_neg hf]
        simp only
        omega
  · intro h; cases h
  · intro s hrec h1 h2
    have hback := hs.back
    by_cases hf : Fit loR f' f' t (E t) a'
    · rw [if_pos hf] at h1 h2 ⊢
      refine ⟨_, t - 1, inverseTerminal_row_new hinc hr rfl hf hrec (h2 (by simp only; omega)), by omega, hback⟩
    · rw [if_neg hf] at h1 h2 ⊢
      have := hnf hf
      have hHx := (hinc.col t (E t - 1) hone).2 (by omega)
      have hD := (hinc.col (H (E t - 1) - 1) (E t - 1) (by omega)).1 (by omega)
      refine ⟨_, t - 1, inverseTerminal_row_old hinc hr hx rfl hf hrec (h1 (by simp only; omega)), by omega, hback⟩
  · rw [← hAt] at hfit hnf
    refine ⟨A, X, t, by rw [hAt] at *; exact hA, hA1, hXt, fun h => hnf (fun h' => h (by rw [hAt] at *; exact hfit.2 h')), ?_, ?_, ?_⟩
    · rw [hAt] at *; exact finE_congr hfit.symm _ _
    · rw [hAt] at *; exact finE_congr hfit.symm _ _
    · rw [hAt] at *
      simp only [hfit]

theorem d1_outcome (hp : SInc p E H f) (hs : RowSteps E H p f 1 a T' f' t a') (hx : Pos loR E f' t a' (t + 1)) (hlt : t + 1 < E t)
    (hd : IsD1 E f' t (t + 1) a') : ∃ E1 H1 F b, Outcome p E H a T' E1 H1 F true b ∧ D1Case E H f a E1 H1 F b := by
  obtain ⟨A, X, hA, hA1, hAt, hXt, hfit, hft⟩ := hs.trace hx
  obtain ⟨hn, -, hE⟩ := hd
  have hinc := hs.inc
  have hr := hs.ready
  have hone := hr.one
  have hmr := hinc.maxRow_eq hp
  have hle := hr.le_maxRow hinc
  have hF : nextF loR f' t (t + 1) a' = f' := by rw [nextF, if_neg hn]
  have hE1 := hinc.up' (i := 1) (i' := t) (j := t + 1) (le_refl 1) hone (by omega) hlt
  refine ⟨E, H, f', (t, E t - 1), ⟨hinc, ?_, ?_, ?_, ?_⟩, ?_⟩
  · obtain ⟨pl, hpl, hpath⟩ := hs.path
    refine ⟨pl ++ [(stC T' T'.maxRow (t + 1) (f' t (t + 1)), (t, t + 1))], (t + 1, t + 1), ?_, ?_, ?_⟩
    · obtain ⟨g, hg⟩ := Nat.exists_eq_add_of_le (show t - 1 + 3 ≤ p.maxRow + p.maxColumn + 4 by omega)
      rw [hg, Nat.add_assoc, hpath, show 3 + g = (g + 2) + 1 by omega, FInsertion.path, next_stR hinc hr, rowStep_st hinc hr hx,
        if_neg (by omega), if_pos (by omega), rowD1_eq hinc hr hx hlt hn rfl hE]
      simp only [Option.map_some]
      rw [show g + 2 = (g + 1) + 1 by omega, FInsertion.path, next_stC hinc (by omega), colC1_D1 hinc hone hlt hE]
      simp only [Option.map_some]
      rw [path_none]
      simp
    · rw [recordNeg]
      have : T'.has (t + 1, t + 1) = false := by
        rw [← Bool.not_eq_true, hinc.has_iff]; omega
      rw [this]
      simp
    · exact recordBox_col hinc (by omega) (by omega) (by simp only [Nat.add_sub_cancel]; omega)
  · constructor
    · intro i j
      rw [Prod.mk.injEq]
      constructor
      · intro h; exact Or.inr h
      · rintro (⟨rfl, rfl⟩ | h)
        · omega
        · exact h
    · simp only; omega
    · simp only; omega
  · intro _; simp only; omega
  · intro s hrec h1 h2
    refine ⟨_, t - 1 + 1, inverseTerminal_D1 hinc hone hlt hE hrec (h1 (by simp only; omega)), by omega, ?_⟩
    intro fuel
    rw [show t - 1 + 1 + fuel = t - 1 + fuel + 1 by omega, rewind_stC hinc (by omega), inverseCol_D1 hinc hr hx hlt hn]
    exact hs.back fuel
  · rw [hF] at hA hfit
    exact ⟨A, X, t, hA, hA1, hXt, hlt, by rw [hAt]; exact fun h => hn (hfit.1 h), hE, rfl, rfl, rfl⟩

theorem d2_outcome (hp : SInc p E H f) (hs : RowSteps E H p f 1 a T' f' t a') (hx : Pos loR E f' t a' t) (hlt : t < E t) :
    ∃ p' E1 H1 F b, Outcome p E H a p' E1 H1 F true b ∧ D2Case E H f a E1 H1 F b := by
  obtain ⟨A, X, hA, hA1, hAt, hXt, hfit, hft⟩ := hs.trace hx
  have hinc := hs.inc
  have hr := hs.ready
  have hone := hr.one
  have hmr := hinc.maxRow_eq hp
  have hle := hr.le_maxRow hinc
  have hinc2 := nextInc hinc hr hx hlt
  have hr2 := readyD2 hinc hr hx hlt
  have hmr2 := hinc2.maxRow_eq hinc
  obtain ⟨T3, f3, u, a3, hs3, hx3⟩ := colSteps_exists hinc2 hr2
  obtain ⟨C, Y, hC, hC1, hCu, hYu, hfitC, hYlt⟩ := hs3.trace hx3
  have hinc3 := hs3.inc
  have hr3 := hs3.ready
  have hmr3 := hinc3.maxRow_eq hinc
  have hfin := finIncC hinc3 hr3 hx3 rfl
  have hE := hr3.E_eq hinc3 hx3 rfl
  have hab := hr3.lt_above hinc3 hx3
  have huE := hr3.le_E hinc3
  have hH1 : 1 ≤ H u := hx3.1
  have htu := hs3.le
  have hnf := one_lt_of_not_fit hr3 hx3
  have han := hinc3.anti (H u) hH1
  have hmc := hp.maxColumn
  have hup : ∀ h : 1 < H u, u < E (H u - 1) := fun h => ((hinc3.col (H u - 1) u (by omega)).1 (by omega)).2
  refine ⟨nextTC T3 f3 u (H u) a3, _, _, _, if Fit loC (tr f3) (tr f3) u (H u) a3 then (H u, u) else (H u - 1, E (H u - 1) - 1),
    ⟨hfin, ?_, ?_, ?_, ?_⟩, ?_⟩
  · obtain ⟨pl, hpl, hpath⟩ := hs.path
    obtain ⟨pl3, hpath3⟩ := hs3.path
    rw [hmr2] at hpath3
    refine ⟨pl ++ (stC (nextT T' f' t t a') T'.maxRow (t + 1) (f' t t), (t, t)) :: pl3, (H u, u), ?_, ?_, ?_⟩
    · obtain ⟨g, hg⟩ := Nat.exists_eq_add_of_le (show t - 1 + (u - (t + 1) + 3) ≤ p.maxRow + p.maxColumn + 4 by omega)
      have hn3 := next_stC (a := a3) hinc3 huE
      rw [hg, Nat.add_assoc, hpath, show u - (t + 1) + 3 + g = (u - (t + 1) + (g + 2)) + 1 by omega, FInsertion.path,
        next_stR hinc hr, rowStep_st hinc hr hx, if_neg (by omega), if_neg (by omega), rowD2_eq hinc hr hx hlt]
      simp only [Option.map_some]
      rw [hmr3] at hn3
      have hcs := colStep_st (a := a3) hinc3 (show 1 ≤ u by omega) hx3
      rw [if_pos rfl, colC1_eq hinc3 hr3 hx3 rfl, hmr3] at hcs
      rw [hpath3, show g + 2 = (g + 1) + 1 by omega, FInsertion.path, hn3, hcs]
      simp only [Option.map_some]
      rw [path_none]
      simp
    · rw [recordNeg, List.dropLast_concat]
      simp
    · by_cases hf : Fit loC (tr f3) (tr f3) u (H u) a3
      · rw [if_pos hf]
        apply recordBox_new
        rw [hfin.has_iff, finE, if_pos hf, addE, if_pos rfl]; omega
      · rw [if_neg hf]
        have hT : nextTC T3 f3 u (H u) a3 = T3 := by rw [nextTC, if_neg hf]
        rw [hT]
        have := hup (hnf hf)
        exact recordBox_col hinc3 (hnf hf) (by omega) (by omega)
  · by_cases hf : Fit loC (tr f3) (tr f3) u (H u) a3
    · rw [if_pos hf]
      constructor
      · intro i j
        rw [Prod.mk.injEq, finE, if_pos hf, addE]
        split
        · rename_i hc; subst hc; omega
        · omega
      · rw [finE, if_pos hf, addE]; simp; omega
      · rw [finE, if_pos hf, addE]; simp; omega
    · rw [if_neg hf]
      have h1 := hnf hf
      have := hup (hnf hf)
      constructor
      · intro i j
        rw [Prod.mk.injEq, finE, if_neg hf]
        constructor
        · intro h; exact Or.inr h
        · rintro (⟨rfl, rfl⟩ | h)
          · omega
          · exact h
      · rw [finE, if_neg hf]
        simp only; omega
      · rw [finE, if_neg hf]
        simp only
        rw [show H u - 1 + 1 = H u by omega]
        omega
  · intro _
    split
    · simp only; omega
    · rename_i hf
      have h1 := hnf hf
      have := hup (hnf hf)
      simp only; omega
  · intro s hrec h1 h2
    have hback : ∀ fuel, rewind (u - (t + 1) + t + fuel) (stC T3 T3.maxRow u a3) = rewind fuel (stR p E 1 a) := by
      intro fuel
      rw [hmr3, ← hmr2, show u - (t + 1) + t + fuel = u - (t + 1) + (t - 1 + fuel + 1) by omega, hs3.back,
        rewind_stC hinc2 (by omega)]
      have := inverseCol_D2 hinc hr hx hlt
      rw [hmr2, this]
      exact hs.back fuel
    by_cases hf : Fit loC (tr f3) (tr f3) u (H u) a3
    · rw [if_pos hf] at h1 h2 ⊢
      refine ⟨_, u - (t + 1) + t, inverseTerminal_col_new hinc3 hr3 hx3 rfl hf hrec (h2 (by simp only; omega)), by omega, hback⟩
    · rw [if_neg hf] at h1 h2 ⊢
      have h3 := hnf hf
      have := hup (hnf hf)
      refine ⟨_, u - (t + 1) + t, inverseTerminal_col_old hinc3 hr3 hx3 rfl hf hrec (h1 (by simp only; omega)), by omega, hback⟩
  · refine ⟨A, X, t, _, C, Y, u, hA, hA1, hXt, hlt, ⟨_, hinc2⟩, hC, by rw [hC1, hft], hYu, hE, hYlt, ?_, ?_, ?_, ?_⟩
    · rw [hCu]; exact fun h => hnf (fun h' => h (hfitC.2 h'))
    · rw [hCu]; exact finE_congr hfitC.symm _ _
    · rw [hCu]; exact finE_congr hfitC.symm _ _
    · rw [hCu]
      simp only [hfitC]

end

/-- One insertion step and its inverse. -/
theorem push_run (hp : SInc p E H f) (hq : SQInv q E N) (h0 : 0 < a) (h1 : a % 2 = 0) :
    ∃ p' b neg E1 H1 F, push p q (N + 1) a = some (p', q.add b (sgn neg (N + 1))) ∧ SInc p' E1 H1 F ∧
      SQInv (q.add b (sgn neg (N + 1))) E1 (N + 1) ∧ unpush p' (q.add b (sgn neg (N + 1))) = some (p, q, a) ∧ p'.items ≠ [] ∧
      Corner E E1 b ∧ (neg = true → b.1 ≠ b.2) ∧
      ((neg = false ∧ RowCase E H f a E1 H1 F b) ∨ (neg = true ∧ (D1Case E H f a E1 H1 F b ∨ D2Case E H f a E1 H1 F b))) := by
  obtain ⟨T', f', t, a', x, hs, hx, hend⟩ := rowSteps_exists hp (ready_one (E := E) (f := f) h0 h1)
  rcases hend with rfl | ⟨rfl, hlt⟩ | ⟨htx, hxE, hd⟩
  · obtain ⟨E1, H1, F, b, ho, hc⟩ := row_outcome hp hs hx
    obtain ⟨r1, r2, r3, r4⟩ := push_outcome hp hq ho
    exact ⟨_, b, false, E1, H1, F, r1, ho.inc, r2, r3, r4, ho.corner, ho.diag, Or.inl ⟨rfl, hc⟩⟩
  · obtain ⟨p', E1, H1, F, b, ho, hc⟩ := d2_outcome hp hs hx hlt
    obtain ⟨r1, r2, r3, r4⟩ := push_outcome hp hq ho
    exact ⟨_, b, true, E1, H1, F, r1, ho.inc, r2, r3, r4, ho.corner, ho.diag, Or.inr ⟨rfl, Or.inr hc⟩⟩
  · obtain rfl := hd.2.1
    obtain ⟨E1, H1, F, b, ho, hc⟩ := d1_outcome hp hs hx hxE hd
    obtain ⟨r1, r2, r3, r4⟩ := push_outcome hp hq ho
    exact ⟨_, b, true, E1, H1, F, r1, ho.inc, r2, r3, r4, ho.corner, ho.diag, Or.inr ⟨rfl, Or.inl hc⟩⟩

end Verif.FInsertion
