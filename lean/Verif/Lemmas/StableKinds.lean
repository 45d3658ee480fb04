import Verif.Lemmas.StableGen
import Verif.Lemmas.WordsPeaks
import Verif.Lemmas.HeckeActions
import Verif.Lemmas.SymplecticAction
import Verif.Lemmas.FpfWords

/-!
# The three kinds of levels: when they end, what they reach, what the cache can hold
-/

attribute [-simp] List.getD_eq_getElem?_getD

namespace Verif.Perm

open Verif.Symm Verif.Part Verif.PermSpec

attribute [local irreducible] mul s inverse identity len mod act demazure

namespace LevelKind

variable (K : LevelKind)

/-! ### the cache -/

theorem drain_mono {fuel fuel' : Nat} (hf : fuel ≤ fuel') {ph : Phase} {bound : Int} {index : Nat} {L : List Level}
    {r : List Level × List Level} (h : K.drain fuel ph bound index L = some r) : K.drain fuel' ph bound index L = some r := by
  induction fuel generalizing fuel' ph bound index L r with
  | zero => rw [drain] at h; cases h
  | succ fuel ih =>
    obtain ⟨f', rfl⟩ : ∃ f', fuel' = f' + 1 := ⟨fuel' - 1, by omega⟩
    rw [drain] at h ⊢
    rcases hp : K.pull L ph with ⟨o, ph'⟩
    rw [hp] at h
    cases o with
    | none => exact h
    | some level =>
      simp only at h ⊢
      split at h
      · rename_i h0; rw [if_pos h0]; exact h
      · rename_i h0
        rw [if_neg h0]
        rw [Option.map_eq_some_iff] at h ⊢
        obtain ⟨r', h1, h2⟩ := h
        exact ⟨r', ih (by omega) h1, h2⟩

theorem good_of_entry {T : Nat} (hT : K.level T = []) {L : List Level} (h : CacheEntry K L) : K.Good L := by
  induction h with
  | empty => exact K.good_nil
  | @run L L' levels fuel bound h hr ih =>
    obtain ⟨m, L'', h1, h2, -⟩ := K.run_spec T hT (fuel := max fuel (T + 1)) (by omega) bound ih
    have h3 : K.run (max fuel (T + 1)) bound L = some (levels, L') := K.drain_mono (le_max_left _ _) hr
    rw [h1, Option.some.injEq, Prod.mk.injEq] at h3
    rw [← h3.2]; exact h2

theorem level_eq_nil {T : Nat} (h : ∀ w : List Nat, w.length = T → (∀ i ∈ w, i ∈ K.letters) →
    (∀ v, v <+: w → v ≠ [] → K.ok v = true) → False) : K.level T = [] := by
  rw [List.eq_nil_iff_forall_not_mem]
  rintro ⟨p, w⟩ hm
  obtain ⟨h1, h2, h3, -⟩ := ((K.level_spec T).2 p w).1 hm
  exact h w h1 h2 h3

theorem reach_total {g : SPerm → Nat → SPerm} (hs : ∀ p i, K.step p i = some (g p i)) (p : SPerm) (u : List Nat) :
    K.reach p u = some (u.foldl g p) := by
  induction u generalizing p with
  | nil => rfl
  | cons i u ih => rw [reach, hs, Option.bind_some, ih, List.foldl_cons]

end LevelKind

theorem nodup_letters (n : Nat) : (letters n).Nodup :=
  List.nodup_range.map (fun _ _ h => Nat.succ.inj h)

/-! ### when the levels end -/

theorem ascents_end {n N : Nat} {K : LevelKind} (hl : ∀ i ∈ K.letters, i < N) (hok : K.ok = ascentOk (some (n : Int))) :
    K.level (n * N + 1) = [] := by
  apply K.level_eq_nil
  intro w h1 h2 h3
  have hne : w ≠ [] := by rintro rfl; simp at h1
  have h4 := h3 w (List.prefix_refl _) hne
  rw [hok, ascentOk, decide_eq_true_eq] at h4
  have h5 : ∀ a ∈ w.map (fun a : Nat => (a : Int)), 0 ≤ a ∧ a < (N : Int) := by
    intro a ha
    obtain ⟨i, hi, rfl⟩ := List.mem_map.1 ha
    have := hl i (h2 i hi)
    omega
  have h6 := Words.length_le_of_ascents _ h5 (by simpa using hne)
  rw [List.length_map, h1] at h6
  obtain ⟨i, w', rfl⟩ := List.exists_cons_of_ne_nil hne
  have h7 := (h5 i (by simp)).2
  rw [List.map_cons, List.headD_cons] at h6
  have h8 : Words.ascents ((i :: w').map (fun a : Nat => (a : Int))) + 1 ≤ n := by omega
  have h9 := Nat.mul_le_mul_right N h8
  rw [Nat.add_mul, Nat.one_mul] at h9
  rw [List.map_cons] at h9
  push_cast at h6
  have h10 : ((Words.ascents ((i : Int) :: w'.map (fun a : Nat => (a : Int))) * N : Nat) : Int) + N ≤ (n * N : Nat) := by
    exact_mod_cast h9
  push_cast at h10
  omega

theorem peaks_end {n N : Nat} {K : LevelKind} (hl : ∀ i ∈ K.letters, i < N) (hok : K.ok = peakOk (some (n : Int))) :
    K.level (n * (2 * N) + 1) = [] := by
  apply K.level_eq_nil
  intro w h1 h2 h3
  have hne : w ≠ [] := by rintro rfl; simp at h1
  have h4 := h3 w (List.prefix_refl _) hne
  rw [hok, peakOk, decide_eq_true_eq] at h4
  have h5 : ∀ a ∈ w.map (fun a : Nat => (a : Int)), 0 ≤ a ∧ a < (N : Int) := by
    intro a ha
    obtain ⟨i, hi, rfl⟩ := List.mem_map.1 ha
    have := hl i (h2 i hi)
    omega
  have h6 := (Words.isVs_peaks (w.map (fun a : Nat => (a : Int)))).length_le h5
  rw [List.length_map, h1] at h6
  have h7 : Words.peaks (w.map (fun a : Nat => (a : Int))) ≤ n := by omega
  have h8 := Nat.mul_le_mul_right (2 * N) h7
  omega

/-! ### the factors of a word pass the test -/

theorem dec_ok {n : Nat} {α : List Nat} (hα : α.length ≤ n) {u : List Nat} (hu : u.length = α.sum)
    (hz : ∀ s ∈ α.splitLengths u, Words.decreasingZeta (s.map (fun i : Nat => (i : Int))) ≠ 0) {v : List Nat} (hv : v <+: u)
    (hne : v ≠ []) : ascentOk (some (n : Int)) v = true := by
  have h1 : (α.splitLengths u).flatten = u := List.flatten_splitLengths _ _ (by omega)
  have h2 := Words.ascents_flatten ((α.splitLengths u).map (List.map (fun i : Nat => (i : Int)))) (by
    intro f hf
    obtain ⟨s, hs, rfl⟩ := List.mem_map.1 hf
    exact Words.dec_of_zeta (hz s hs)) (v := v.map (fun i : Nat => (i : Int))) (by
    rw [← List.map_flatten, h1]
    exact hv.map _) (by simpa using hne)
  rw [List.length_map, List.length_splitLengths] at h2
  rw [ascentOk, decide_eq_true_eq]
  omega

theorem peak_ok {zeta : List Int → Int} (hzeta : ∀ v, zeta v ≠ 0 → Words.IsV v) {n : Nat} {α : List Nat} (hα : α.length ≤ n)
    {u : List Nat} (hu : u.length = α.sum)
    (hz : ∀ s ∈ α.splitLengths u, zeta (s.map (fun i : Nat => (i : Int))) ≠ 0) {v : List Nat} (hv : v <+: u) :
    peakOk (some (n : Int)) v = true := by
  have h1 : (α.splitLengths u).flatten = u := List.flatten_splitLengths _ _ (by omega)
  have h2 : Words.IsVs n (u.map (fun i : Nat => (i : Int))) := by
    refine ⟨(α.splitLengths u).map (List.map (fun i : Nat => (i : Int))), ?_, ?_, ?_⟩
    · rw [List.length_map, List.length_splitLengths]; exact hα
    · intro f hf
      obtain ⟨s, hs, rfl⟩ := List.mem_map.1 hf
      exact hzeta _ (hz s hs)
    · rw [← List.map_flatten, h1]
  have h3 := h2.take v.length
  rw [← List.map_take, ← List.prefix_iff_eq_take.1 hv] at h3
  have h4 := Words.peaks_le h3
  rw [peakOk, decide_eq_true_eq]
  exact_mod_cast h4

theorem isV_of_dec {v : List Int} (h : Words.decreasingZeta v ≠ 0) : Words.IsV v :=
  ⟨v, [], by simp, Words.dec_of_zeta h, by simp⟩

/-! ### the twisted action on involutions -/

theorem invAct_of_not {w : SPerm} (hw : ∀ a, w.call (w.call a) = a) {i : Nat} (hd : ¬ Desc w.call i) :
    invAct w i = invStep w i := by
  rw [(invStep_spec hw hd).2.2, invAct, mod_assoc]

theorem invAct_of_desc {w : SPerm} (hw : ∀ a, w.call (w.call a) = a) {i : Nat} (hd : Desc w.call i) : invAct w i = w := by
  have h1 := not_desc_invStep hw hd
  have h2 := invAct_of_not (invStep_involution hw i) h1
  rw [invStep_invStep] at h2
  rw [← h2]
  have := grel_invAct.idem (invStep w i) i
  exact this

theorem invAct_involution {w : SPerm} (hw : ∀ a, w.call (w.call a) = a) (i : Nat) (a : Int) :
    (invAct w i).call ((invAct w i).call a) = a := by
  by_cases hd : Desc w.call i
  · rw [invAct_of_desc hw hd]; exact hw a
  · rw [invAct_of_not hw hd]; exact invStep_involution hw i a

/-! ### the symplectic action -/

/-- The involution of the natural numbers belonging to a fixed-point-free involution of `1, ..., n`. -/
def fval (n : Nat) (w : SPerm) (a : Nat) : Nat :=
  if a = 0 then 0 else if a ≤ n then (w.call a).toNat else if a % 2 = 1 then a + 1 else a - 1

theorem Fpf.fval_in {n : Nat} {w : SPerm} (h : Fpf n w) {a : Nat} (h1 : 1 ≤ a) (h2 : a ≤ n) :
    (fval n w a : Int) = w.call a ∧ 1 ≤ fval n w a ∧ fval n w a ≤ n := by
  have := h.le (a := a) (by omega) (by omega)
  have e : fval n w a = (w.call a).toNat := by rw [fval, if_neg (by omega), if_pos h2]
  omega

theorem Fpf.exists_fun {n : Nat} {w : SPerm} (h : Fpf n w) : ∃ F : YB.FpfFun, ∀ a, F.f a = fval n w a := by
  have hn : n % 2 = 0 := by have := h.even.2; omega
  refine ⟨⟨fval n w, fun a => ?_, fun a ha => ?_⟩, fun a => rfl⟩
  · by_cases h0 : a = 0
    · subst h0; rfl
    · by_cases h1 : a ≤ n
      · obtain ⟨e1, e2, e3⟩ := h.fval_in (a := a) (by omega) h1
        obtain ⟨e4, -, -⟩ := h.fval_in e2 e3
        rw [e1, h.inv] at e4
        omega
      · have e : fval n w a = if a % 2 = 1 then a + 1 else a - 1 := by
          rw [fval, if_neg h0, if_neg h1]
        have e' : fval n w (fval n w a) = if fval n w a % 2 = 1 then fval n w a + 1 else fval n w a - 1 := by
          rw [fval, if_neg, if_neg] <;> rw [e] <;> split <;> omega
        rw [e', e]
        (repeat' split) <;> omega
  · by_cases h1 : a ≤ n
    · obtain ⟨e1, e2, e3⟩ := h.fval_in (a := a) (by omega) h1
      have := h.ne a (by omega) (by omega)
      omega
    · rw [fval, if_neg (by omega), if_neg h1]
      split <;> omega

theorem Fpf.fval_inj {n : Nat} {w v : SPerm} (hw : Fpf n w) (hv : Fpf n v) (h : ∀ a, fval n w a = fval n v a) : w = v := by
  apply ext_pos
  intro a ha
  by_cases h1 : a ≤ n
  · obtain ⟨k, rfl⟩ : ∃ k : Nat, a = k := ⟨a.toNat, by omega⟩
    rw [← (hw.fval_in (a := k) (by omega) (by omega)).1, ← (hv.fval_in (a := k) (by omega) (by omega)).1, h]
  · rw [hw.odd.out a (by omega), hv.odd.out a (by omega)]

theorem desc_iff {w : SPerm} {i : Nat} (hi : 1 ≤ i) : Desc w.call i ↔ w.call ((i : Int) + 1) < w.call i := by
  rw [Desc, lo, if_neg (by omega)]

theorem Fpf.invAct_eq {n : Nat} {w : SPerm} (h : Fpf n w) {i : Nat} (h1 : 1 ≤ i) (h2 : i < n) (hc : w.call i ≠ (i : Int) + 1) :
    (w.call ((i : Int) + 1) < w.call i → invAct w i = w) ∧
    (w.call i < w.call ((i : Int) + 1) → invAct w i = Verif.Perm.conj w i) := by
  constructor
  · intro hd; exact invAct_of_desc h.inv ((desc_iff h1).2 hd)
  · intro hd
    rw [invAct_of_not h.inv (by rw [desc_iff h1]; omega), invStep, if_neg]
    · rfl
    · intro he
      have := congrArg (fun v : SPerm => v.call i) he
      simp only [call_mul, call_s] at this
      rw [(sFun_vals h1).1] at this
      have hne := h.ne i (by omega) (by omega)
      have hp := h.pos i (by omega)
      have hlo : lo i = i := by rw [lo, if_neg (by omega)]
      rw [sFun_of_ne (by omega) (by omega) hc (by omega)] at this
      omega

theorem swp_cast {i : Nat} (hi : 1 ≤ i) (a : Nat) : ((YB.swp i a : Nat) : Int) = sFun i a := by
  unfold YB.swp sFun
  (repeat' split) <;> omega

theorem Fpf.fval_conj {n : Nat} {w : SPerm} (h : Fpf n w) {i : Nat} (h1 : 1 ≤ i) (h2 : i < n) (a : Nat) :
    fval n (Verif.Perm.conj w i) a = YB.swp i (fval n w (YB.swp i a)) := by
  have hn : n % 2 = 0 := by have := h.even.2; omega
  by_cases h0 : a = 0
  · subst h0
    rw [YB.swp_o (i := i) (a := 0) (by omega) (by omega), fval, if_pos rfl, fval, if_pos rfl, YB.swp_o (by omega) (by omega)]
  · by_cases ha : a ≤ n
    · have e1 : 1 ≤ YB.swp i a ∧ YB.swp i a ≤ n := by unfold YB.swp; (repeat' split) <;> omega
      have e2 := ((h.conj h1 h2).fval_in (a := a) (by omega) ha).1
      have e3 := (h.fval_in e1.1 e1.2).1
      have e4 := swp_cast h1 (fval n w (YB.swp i a))
      rw [conj_call, ← swp_cast h1, ← e3, ← e4] at e2
      exact_mod_cast e2
    · rw [YB.swp_o (i := i) (a := a) (by omega) (by omega)]
      have e : ∀ v, fval n v a = if a % 2 = 1 then a + 1 else a - 1 := fun v => by rw [fval, if_neg h0, if_neg ha]
      rw [e, e, YB.swp_o] <;> split <;> omega

/-- One letter. -/
theorem sp_step {n : Nat} {ab : Option Int} {w : SPerm} (h : Fpf n w) {F : YB.FpfFun} (hF : ∀ a, F.f a = fval n w a) {i : Nat}
    (h1 : 1 ≤ i) (h2 : i < n) :
    (w.call i = (i : Int) + 1 ∧ (symplecticKind n ab true).step w i = none ∧ YB.spAct (some F) i = none) ∨
    (w.call i ≠ (i : Int) + 1 ∧ ∃ w' F', (symplecticKind n ab true).step w i = some w' ∧ YB.spAct (some F) i = some F' ∧
      Fpf n w' ∧ (∀ a, F'.f a = fval n w' a) ∧ ((w.call ((i : Int) + 1) < w.call i ∧ w' = w) ∨
      (w.call i < w.call ((i : Int) + 1) ∧ w' = Verif.Perm.conj w i))) := by
  have e1 := (h.fval_in (a := i) h1 (by omega)).1
  have e2 := (h.fval_in (a := i + 1) (by omega) (by omega)).1
  rw [← hF] at e1 e2
  push_cast at e2
  have hstep : (symplecticKind n ab true).step w i = if w.call i ≠ (i : Int) + 1 then some (invAct w i) else none := by
    simp [symplecticKind, invAct]
  rw [hstep]
  by_cases hc : w.call i = (i : Int) + 1
  · left
    refine ⟨hc, by rw [if_neg (not_not.2 hc)], YB.st_none h1 (by omega)⟩
  · right
    refine ⟨hc, ?_⟩
    rw [if_pos hc]
    rcases lt_trichotomy (w.call i) (w.call ((i : Int) + 1)) with hd | hd | hd
    · refine ⟨_, _, congrArg some ((h.invAct_eq h1 h2 hc).2 hd), YB.st_asc h1 (by omega) (by omega), h.conj h1 h2, fun a => ?_,
        Or.inr ⟨hd, rfl⟩⟩
      rw [YB.conj_f h1, hF, h.fval_conj h1 h2]
    · have := h.odd.inj _ _ hd
      omega
    · exact ⟨_, _, congrArg some ((h.invAct_eq h1 h2 hc).1 hd), YB.st_desc (by omega) (by omega), h, hF, Or.inl ⟨hd, rfl⟩⟩

/-- The words and the action. -/
theorem sp_reach {n : Nat} (hn : n % 2 = 0) (ab : Option Int) {F0 : YB.FpfFun} (hF0 : ∀ a, F0.f a = fval n (fpfStart n) a)
    (u : List Nat) (hu : ∀ i ∈ u, 1 ≤ i ∧ i < n) :
    ((symplecticKind n ab true).reach (fpfStart n) u = none ∧ u.foldl YB.spAct (some F0) = none) ∨
    ∃ w F, (symplecticKind n ab true).reach (fpfStart n) u = some w ∧ u.foldl YB.spAct (some F0) = some F ∧ Fpf n w ∧
      (∀ a, F.f a = fval n w a) := by
  induction u using List.reverseRecOn with
  | nil => exact Or.inr ⟨_, _, rfl, rfl, fpf_fpfStart hn, hF0⟩
  | append_singleton u i ih =>
    have hi := hu i (by simp)
    rw [LevelKind.reach_concat, List.foldl_append, List.foldl_cons, List.foldl_nil]
    rcases ih (fun j hj => hu j (by simp [hj])) with ⟨e1, e2⟩ | ⟨w, F, e1, e2, e3, e4⟩
    · left; rw [e1, e2]; exact ⟨rfl, rfl⟩
    · rw [e1, e2, Option.bind_some]
      rcases sp_step (ab := ab) e3 e4 hi.1 hi.2 with ⟨-, f1, f2⟩ | ⟨-, w', F', f1, f2, f3, f4, -⟩
      · left; exact ⟨f1, f2⟩
      · right; exact ⟨w', F', f1, f2, f3, f4⟩

theorem sp_reach_iff {n : Nat} {ab : Option Int} {F0 Fw : YB.FpfFun} {w : SPerm} (hw : Fpf n w)
    (hF0 : ∀ a, F0.f a = fval n (fpfStart n) a) (hFw : ∀ a, Fw.f a = fval n w a) (u : List Nat) (hu : ∀ i ∈ u, 1 ≤ i ∧ i < n) :
    (symplecticKind n ab true).reach (fpfStart n) u = some w ↔ u.foldl YB.spAct (some F0) = some Fw := by
  have hn : n % 2 = 0 := by have := hw.even.2; omega
  rcases sp_reach hn ab hF0 u hu with ⟨e1, e2⟩ | ⟨v, F, e1, e2, e3, e4⟩
  · rw [e1, e2]; simp
  · rw [e1, e2, Option.some.injEq, Option.some.injEq]
    constructor
    · rintro rfl
      exact YB.FpfFun.ext (funext fun a => by rw [e4, hFw])
    · rintro rfl
      exact e3.fval_inj hw (fun a => by rw [← e4, hFw])

/-- The words and the specification. -/
theorem symplecticHeckeWord_iff {n : Nat} (hn : n % 2 = 0) (ab : Option Int) (w : SPerm) (u : List Nat) :
    SymplecticHeckeWord n w u ↔ (∀ i ∈ u, 1 ≤ i ∧ i < n) ∧ (symplecticKind n ab true).reach (fpfStart n) u = some w := by
  obtain ⟨F0, hF0⟩ := (fpf_fpfStart hn).exists_fun
  constructor
  · intro h
    induction h with
    | nil h =>
      refine ⟨by simp, ?_⟩
      rw [LevelKind.reach, Option.some.injEq]
      exact ext_pos (fun x hx => by rw [h x hx, fpfStart_call hn x hx])
    | @stay z u i h h1 h2 h3 h4 ih =>
      refine ⟨fun j hj => ?_, ?_⟩
      · rw [List.mem_append, List.mem_singleton] at hj
        rcases hj with hj | rfl
        · exact ih.1 j hj
        · exact ⟨h1, h2⟩
      · rcases sp_reach hn ab hF0 u ih.1 with ⟨e1, -⟩ | ⟨v, F, e1, e2, e3, e4⟩
        · rw [e1] at ih; cases ih.2
        · rw [ih.2, Option.some.injEq] at e1
          subst e1
          rw [LevelKind.reach_concat, ih.2, Option.bind_some]
          rcases sp_step (ab := ab) e3 e4 h1 h2 with ⟨f0, -, -⟩ | ⟨-, w', F', f1, -, -, -, ⟨f5, f6⟩ | ⟨f5, f6⟩⟩
          · exact absurd f0 h4
          · rw [f1, f6]
          · omega
    | @conj z u i h h1 h2 h3 ih =>
      refine ⟨fun j hj => ?_, ?_⟩
      · rw [List.mem_append, List.mem_singleton] at hj
        rcases hj with hj | rfl
        · exact ih.1 j hj
        · exact ⟨h1, h2⟩
      · rcases sp_reach hn ab hF0 u ih.1 with ⟨e1, -⟩ | ⟨v, F, e1, e2, e3, e4⟩
        · rw [e1] at ih; cases ih.2
        · rw [ih.2, Option.some.injEq] at e1
          subst e1
          rw [LevelKind.reach_concat, ih.2, Option.bind_some]
          rcases sp_step (ab := ab) e3 e4 h1 h2 with ⟨f0, -, -⟩ | ⟨-, w', F', f1, -, -, -, ⟨f5, f6⟩ | ⟨f5, f6⟩⟩
          · have := e3.inv i
            rw [f0] at this
            omega
          · omega
          · rw [f1, f6]; rfl
  · rintro ⟨hu, hr⟩
    induction u using List.reverseRecOn generalizing w with
    | nil =>
      rw [LevelKind.reach, Option.some.injEq] at hr
      subst hr
      exact SymplecticHeckeWord.nil (fun x hx => fpfStart_call hn x hx)
    | append_singleton u i ih =>
      have hi := hu i (by simp)
      have hu' : ∀ j ∈ u, 1 ≤ j ∧ j < n := fun j hj => hu j (by simp [hj])
      rw [LevelKind.reach_concat] at hr
      rcases sp_reach hn ab hF0 u hu' with ⟨e1, -⟩ | ⟨v, F, e1, e2, e3, e4⟩
      · rw [e1] at hr; cases hr
      · rw [e1, Option.bind_some] at hr
        rcases sp_step (ab := ab) e3 e4 hi.1 hi.2 with ⟨-, f1, -⟩ | ⟨f0, w', F', f1, -, -, -, ⟨f5, f6⟩ | ⟨f5, f6⟩⟩
        · rw [f1] at hr; cases hr
        · rw [f1, Option.some.injEq] at hr
          subst hr f6
          exact SymplecticHeckeWord.stay (ih _ hu' e1) hi.1 hi.2 f5 f0
        · rw [f1, Option.some.injEq] at hr
          subst hr f6
          exact SymplecticHeckeWord.conj (ih _ hu' e1) hi.1 hi.2 f5

theorem symplecticHeckeWord_len {n : Nat} (hn : n % 2 = 0) {w : SPerm} {u : List Nat} (h : SymplecticHeckeWord n w u) :
    Fpf n w ∧ Verif.Perm.len w ≤ n / 2 + 2 * u.length := by
  obtain ⟨F0, hF0⟩ := (fpf_fpfStart hn).exists_fun
  have hfpf : ∀ {w u}, SymplecticHeckeWord n w u → Fpf n w := by
    intro w u h
    have h' := (symplecticHeckeWord_iff hn none w u).1 h
    rcases sp_reach hn none hF0 u h'.1 with ⟨e1, -⟩ | ⟨v, F, e1, e2, e3, e4⟩
    · rw [e1] at h'; cases h'.2
    · rw [h'.2, Option.some.injEq] at e1
      rw [e1]; exact e3
  refine ⟨hfpf h, ?_⟩
  induction h with
  | @nil z h =>
    have : z = fpfStart n := ext_pos (fun x hx => by rw [h x hx, fpfStart_call hn x hx])
    rw [this, len_fpfStart hn]; omega
  | @stay z u i h h1 h2 h3 h4 ih => rw [List.length_append, List.length_singleton]; omega
  | @conj z u i h h1 h2 h3 ih =>
    have h5 := hfpf h
    have hd : ¬ Desc z.call i := by rw [desc_iff h1]; omega
    have hle : Verif.Perm.len (mul (mul (s i) z) (s i)) ≤ Verif.Perm.len z + 2 := by
      by_cases hc : mul (s i) z = mul z (s i)
      · have := conj_of_comm hc
        rw [Verif.Perm.conj] at this
        rw [this]; omega
      · rw [(len_conj h5.inv hd hc).1]
    rw [List.length_append, List.length_singleton]
    omega

end Verif.Perm
