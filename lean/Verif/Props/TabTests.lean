import Verif.Lemmas.TabSemi

/-!
# C80: `is_semistandard` and `is_standard` decide what their names say
-/

namespace Verif.Tab

open Verif.Part

attribute [-simp] List.getD_eq_getElem?_getD

/-- Every choice of one entry from each box is a marked filling without repeated letters where they are not allowed. -/
def MarkedSemistandard (dp : Bool) (T : Nat × Nat → Option (List Int)) : Prop :=
  ∃ n : Nat, ∀ f : Nat × Nat → Int, (∀ b s, T b = some s → f b ∈ s) → IsMarked dp n {b | (T b).isSome} f

theorem dbl_lt {v w : Int} (hv : v ≠ 0) (hw : w ≠ 0) : dbl v < dbl w ↔ MarkedLT v w := by
  unfold dbl MarkedLT
  rcases lt_or_gt_of_ne hv with h1 | h1 <;> rcases lt_or_gt_of_ne hw with h2 | h2
  · rw [if_neg (by omega), if_neg (by omega), abs_of_neg h1, abs_of_neg h2]; omega
  · rw [if_neg (by omega), if_pos (by omega), abs_of_neg h1, abs_of_pos h2]; omega
  · rw [if_pos (by omega), if_neg (by omega), abs_of_pos h1, abs_of_neg h2]; omega
  · rw [if_pos (by omega), if_pos (by omega), abs_of_pos h1, abs_of_pos h2]; omega

theorem dbl_inj {v w : Int} (hv : v ≠ 0) (hw : w ≠ 0) : dbl v = dbl w ↔ v = w := by
  unfold dbl
  split_ifs <;> omega

theorem dbl_even {v : Int} (hv : v ≠ 0) : (dbl v % 2 = 0 ↔ 0 < v) ∧ (dbl v % 2 = 1 ↔ v < 0) := by
  unfold dbl
  split_ifs <;> omega

theorem maxDbl_spec {s : List Int} (hs : s ≠ []) : ∃ m, maxDbl s = some m ∧ (∃ v ∈ s, dbl v = m) ∧ ∀ v ∈ s, dbl v ≤ m := by
  unfold maxDbl
  cases h : (s.map dbl).max? with
  | none => simp at h; exact absurd h hs
  | some m =>
    rw [List.max?_eq_some_iff] at h
    obtain ⟨h1, h2⟩ := h
    obtain ⟨v, hv, rfl⟩ := List.mem_map.1 h1
    exact ⟨_, rfl, ⟨v, hv, rfl⟩, fun w hw => h2 _ (List.mem_map.2 ⟨w, hw, rfl⟩)⟩

theorem minDbl_spec {s : List Int} (hs : s ≠ []) : ∃ m, minDbl s = some m ∧ (∃ v ∈ s, dbl v = m) ∧ ∀ v ∈ s, m ≤ dbl v := by
  unfold minDbl
  cases h : (s.map dbl).min? with
  | none => simp at h; exact absurd h hs
  | some m =>
    rw [List.min?_eq_some_iff] at h
    obtain ⟨h1, h2⟩ := h
    obtain ⟨v, hv, rfl⟩ := List.mem_map.1 h1
    exact ⟨_, rfl, ⟨v, hv, rfl⟩, fun w hw => h2 _ (List.mem_map.2 ⟨w, hw, rfl⟩)⟩

/-- The tests against a neighbour. -/
theorem neighbourOk_spec {s s' : List Int} (hs' : s' ≠ []) {m : Int} (hm : (∃ v ∈ s, dbl v = m) ∧ ∀ v ∈ s, dbl v ≤ m)
    {parity : Int} : ∃ b, neighbourOk parity m s' = some b ∧
      (b = true ↔ ∀ v ∈ s, ∀ w ∈ s', dbl v < dbl w ∨ (dbl v = dbl w ∧ dbl v % 2 ≠ parity)) := by
  obtain ⟨m', h1, ⟨w0, hw0, rfl⟩, h3⟩ := minDbl_spec hs'
  obtain ⟨⟨v0, hv0, rfl⟩, hm2⟩ := hm
  refine ⟨_, by rw [neighbourOk, h1]; rfl, ?_⟩
  rw [Bool.not_eq_true', decide_eq_false_iff_not]
  constructor
  · intro h v hv w hw
    have h4 := hm2 v hv
    have h5 := h3 w hw
    by_cases he : dbl v0 = dbl w0
    · by_cases he2 : dbl v = dbl w
      · right
        refine ⟨he2, ?_⟩
        intro hp
        apply h
        right
        have : dbl v = dbl w0 := by omega
        rw [this] at hp
        exact ⟨he, hp⟩
      · left; omega
    · left; omega
  · intro h hc
    rcases h v0 hv0 w0 hw0 with h4 | ⟨h4, h5⟩
    · omega
    · rcases hc with hc | ⟨_, hc⟩
      · omega
      · rw [h4] at h5; exact h5 hc

/-- What `is_semistandard` requires of a box. -/
def BoxGood (dp : Bool) (T : Tab) (b : Nat × Nat) (s : List Int) : Prop :=
  (b.1 = b.2 → dp = false → ∀ v ∈ s, 0 ≤ v) ∧
  (∀ s', T.get? (b.1, b.2 + 1) = some s' → ∀ v ∈ s, ∀ w ∈ s', dbl v < dbl w ∨ (dbl v = dbl w ∧ dbl v % 2 ≠ 1)) ∧
  (∀ s', T.get? (b.1 + 1, b.2) = some s' → ∀ v ∈ s, ∀ w ∈ s', dbl v < dbl w ∨ (dbl v = dbl w ∧ dbl v % 2 ≠ 0))

theorem boxOk_spec {T : Tab} (hne : ∀ b s, T.get? b = some s → s ≠ []) (dp : Bool) {p : (Nat × Nat) × List Int} (hp : T.get? p.1 = some p.2) :
    ∃ b, boxOk T dp p = some b ∧ (b = true ↔ BoxGood dp T p.1 p.2) := by
  obtain ⟨⟨i, j⟩, s⟩ := p
  simp only at hp
  have hs := hne _ _ hp
  obtain ⟨m, hm1, hm2⟩ := maxDbl_spec hs
  obtain ⟨μ, hμ⟩ : ∃ μ, s.min? = some μ := by
    cases h : s.min? with
    | none => simp at h; exact absurd h hs
    | some μ => exact ⟨μ, rfl⟩
  have hμ' := List.min?_eq_some_iff.1 hμ
  unfold boxOk BoxGood
  simp only [hm1, hμ]
  by_cases hd : i = j ∧ (!dp) = true ∧ μ < 0
  · rw [if_pos hd]
    refine ⟨false, rfl, ?_⟩
    simp only [Bool.false_eq_true, false_iff]
    rintro ⟨h, _⟩
    have := h hd.1 (by simpa using hd.2.1) μ hμ'.1
    omega
  · rw [if_neg hd]
    have hd' : i = j → dp = false → ∀ v ∈ s, 0 ≤ v := by
      intro h1 h2 v hv
      have := hμ'.2 v hv
      by_contra hc
      exact hd ⟨h1, by simp [h2], by omega⟩
    have hR : ∃ b1, (match T.get? (i, j + 1) with | some s => neighbourOk 1 m s | none => some true) = some b1 ∧
        (b1 = true ↔ ∀ s', T.get? (i, j + 1) = some s' → ∀ v ∈ s, ∀ w ∈ s', dbl v < dbl w ∨ (dbl v = dbl w ∧ dbl v % 2 ≠ 1)) := by
      cases h : T.get? (i, j + 1) with
      | none => exact ⟨true, rfl, by simp⟩
      | some s' =>
        obtain ⟨b, h1, h2⟩ := neighbourOk_spec (hne _ _ h) hm2 (parity := 1)
        exact ⟨b, h1, by rw [h2]; simp⟩
    have hB : ∃ b1, (match T.get? (i + 1, j) with | some s => neighbourOk 0 m s | none => some true) = some b1 ∧
        (b1 = true ↔ ∀ s', T.get? (i + 1, j) = some s' → ∀ v ∈ s, ∀ w ∈ s', dbl v < dbl w ∨ (dbl v = dbl w ∧ dbl v % 2 ≠ 0)) := by
      cases h : T.get? (i + 1, j) with
      | none => exact ⟨true, rfl, by simp⟩
      | some s' =>
        obtain ⟨b, h1, h2⟩ := neighbourOk_spec (hne _ _ h) hm2 (parity := 0)
        exact ⟨b, h1, by rw [h2]; simp⟩
    obtain ⟨b1, h1, h1'⟩ := hR
    obtain ⟨b2, h2, h2'⟩ := hB
    refine ⟨b1 && b2, ?_, ?_⟩
    · refine (congrArg (fun o : Option Bool => match o with
        | none => none
        | some false => some false
        | some true => (match T.get? (i + 1, j) with | some s => neighbourOk 0 m s | none => some true)) h1).trans ?_
      cases b1 with
      | false => rfl
      | true => exact h2
    · rw [Bool.and_eq_true, h1', h2']
      exact ⟨fun h => ⟨hd', h⟩, fun h => h.2⟩

theorem semistandardLoop_spec {T : Tab} (hne : ∀ b s, T.get? b = some s → s ≠ []) (dp : Bool) (l : List ((Nat × Nat) × List Int))
    (hl : ∀ p ∈ l, T.get? p.1 = some p.2) :
    ∃ b, semistandardLoop T dp l = some b ∧ (b = true ↔ ∀ p ∈ l, BoxGood dp T p.1 p.2) := by
  induction l with
  | nil => exact ⟨true, rfl, by simp⟩
  | cons p l ih =>
    obtain ⟨b, h1, h2⟩ := ih (fun q hq => hl q (by simp [hq]))
    obtain ⟨c, h3, h4⟩ := boxOk_spec hne dp (hl p (by simp))
    rw [semistandardLoop, h3]
    cases c with
    | false =>
      refine ⟨false, rfl, ?_⟩
      simp only [Bool.false_eq_true, false_iff] at h4 ⊢
      exact fun h => h4 (h p (by simp))
    | true =>
      refine ⟨b, h1, ?_⟩
      rw [h2]
      simp only [List.mem_cons, forall_eq_or_imp]
      exact ⟨fun h => ⟨h4.1 rfl, h⟩, fun h => h.2⟩

theorem le_sum_of_mem {l : List Nat} {a : Nat} (h : a ∈ l) : a ≤ l.sum := by
  induction l with
  | nil => simp at h
  | cons b l ih =>
    rw [List.sum_cons]
    rcases List.mem_cons.1 h with rfl | h
    · omega
    · have := ih h; omega

theorem mem_values {T : Tab} {v : Int} : v ∈ T.values ↔ ∃ b s, T.get? b = some s ∧ v ∈ s := by
  rw [values, List.mem_flatMap]
  constructor
  · rintro ⟨⟨b, s⟩, h1, h2⟩; exact ⟨b, s, get?_eq_some.2 h1, h2⟩
  · rintro ⟨b, s, h1, h2⟩; exact ⟨(b, s), get?_eq_some.1 h1, h2⟩

/-- A choice of entries with prescribed entries in two boxes. -/
theorem exists_choice {T : Tab} (hne : ∀ b s, T.get? b = some s → s ≠ []) {b b' : Nat × Nat} (hbb : b ≠ b') {s s' : List Int}
    (hb : T.get? b = some s) (hb' : T.get? b' = some s') {v w : Int} (hv : v ∈ s) (hw : w ∈ s') :
    ∃ f : Nat × Nat → Int, (∀ c t, T.get? c = some t → f c ∈ t) ∧ f b = v ∧ f b' = w := by
  refine ⟨fun c => if c = b then v else if c = b' then w else (T.ent c).headD 0, ?_, by simp, by simp [hbb.symm]⟩
  intro c t hc
  simp only
  split_ifs with h1 h2
  · subst h1; rw [hb] at hc; cases hc; exact hv
  · subst h2; rw [hb'] at hc; cases hc; exact hw
  · rw [ent_of_get? hc]
    cases t with
    | nil => exact absurd rfl (hne _ _ hc)
    | cons a t => simp

/-- C80: on tableaux with nonempty tuples and without entry 0, `is_semistandard` does not raise, and returns True exactly if the
tableau is semistandard in the sense of marked tableaux. -/
theorem C80_semistandard {T : Tab} (hne : ∀ b s, T.get? b = some s → s ≠ []) (h0 : (0 : ℤ) ∉ T.values) (dp : Bool) :
    ∃ b, isSemistandard? T dp = some b ∧ (b = true ↔ MarkedSemistandard dp T.get?) := by
  obtain ⟨b, h1, h2⟩ := semistandardLoop_spec hne dp T.items (fun p hp => get?_eq_some.2 hp)
  refine ⟨b, h1, ?_⟩
  rw [h2]
  have hnz : ∀ b s, T.get? b = some s → ∀ v ∈ s, v ≠ 0 := by
    rintro b s hs v hv rfl
    exact h0 (mem_values.2 ⟨b, s, hs, hv⟩)
  constructor
  · intro h
    refine ⟨(T.values.map Int.natAbs).sum, ?_⟩
    intro f hf
    have hget : ∀ b, b ∈ {b | (T.get? b).isSome = true} → ∃ s, T.get? b = some s ∧ f b ∈ s := by
      intro b hb
      obtain ⟨s, hs⟩ := Option.isSome_iff_exists.1 hb
      exact ⟨s, hs, hf b s hs⟩
    refine ⟨?_, ?_, ?_, ?_⟩
    · intro b hb
      obtain ⟨s, hs, hfs⟩ := hget b hb
      have h3 := hnz b s hs _ hfs
      have h4 : f b ∈ T.values := mem_values.2 ⟨b, s, hs, hfs⟩
      have h5 : (f b).natAbs ≤ (T.values.map Int.natAbs).sum := le_sum_of_mem (List.mem_map.2 ⟨_, h4, rfl⟩)
      rw [Int.abs_eq_natAbs]
      omega
    · intro i j hb hb'
      obtain ⟨s, hs, hfs⟩ := hget _ hb
      obtain ⟨s', hs', hfs'⟩ := hget _ hb'
      have hv := hnz _ _ hs _ hfs
      have hw := hnz _ _ hs' _ hfs'
      rcases (h ((i, j), s) (get?_eq_some.1 hs)).2.1 s' hs' _ hfs _ hfs' with h3 | ⟨h3, h4⟩
      · left; exact (dbl_lt hv hw).1 h3
      · right
        refine ⟨(dbl_inj hv hw).1 h3, ?_⟩
        have := (dbl_even hv).2
        omega
    · intro i j hb hb'
      obtain ⟨s, hs, hfs⟩ := hget _ hb
      obtain ⟨s', hs', hfs'⟩ := hget _ hb'
      have hv := hnz _ _ hs _ hfs
      have hw := hnz _ _ hs' _ hfs'
      rcases (h ((i, j), s) (get?_eq_some.1 hs)).2.2 s' hs' _ hfs _ hfs' with h3 | ⟨h3, h4⟩
      · left; exact (dbl_lt hv hw).1 h3
      · right
        refine ⟨(dbl_inj hv hw).1 h3, ?_⟩
        have := (dbl_even hv).1
        omega
    · intro hdp i hb
      obtain ⟨s, hs, hfs⟩ := hget _ hb
      have hv := hnz _ _ hs _ hfs
      have := (h ((i, i), s) (get?_eq_some.1 hs)).1 rfl hdp _ hfs
      omega
  · rintro ⟨n, hn⟩ ⟨⟨i, j⟩, s⟩ hp
    have hs := get?_eq_some.2 hp
    refine ⟨?_, ?_, ?_⟩
    · intro hij hdp v hv
      simp only at hij hv
      subst hij
      obtain ⟨f, hf, hfv⟩ : ∃ f : Nat × Nat → Int, (∀ c t, T.get? c = some t → f c ∈ t) ∧ f (i, i) = v := by
        refine ⟨fun c => if c = (i, i) then v else (T.ent c).headD 0, ?_, by simp⟩
        intro c t hc
        simp only
        split_ifs with h1
        · subst h1; rw [hs] at hc; cases hc; exact hv
        · rw [ent_of_get? hc]
          cases t with
          | nil => exact absurd rfl (hne _ _ hc)
          | cons a t => simp
      have := (hn f hf).2.2.2 hdp i (by rw [Set.mem_ofPred_eq, hs]; rfl)
      omega
    · intro s' hs' v hv w hw
      simp only at hs' hv
      obtain ⟨f, hf, hfv, hfw⟩ := exists_choice hne (by simp : (i, j) ≠ (i, j + 1)) hs hs' hv hw
      have hv0 := hnz _ _ hs _ hv
      have hw0 := hnz _ _ hs' _ hw
      have h3 := (hn f hf).2.1 i j (by rw [Set.mem_ofPred_eq, hs]; rfl) (by rw [Set.mem_ofPred_eq, hs']; rfl)
      rw [hfv, hfw] at h3
      rcases h3 with h3 | ⟨h3, h4⟩
      · left; exact (dbl_lt hv0 hw0).2 h3
      · right
        refine ⟨by rw [h3], ?_⟩
        have := (dbl_even hv0).2
        omega
    · intro s' hs' v hv w hw
      simp only at hs' hv
      obtain ⟨f, hf, hfv, hfw⟩ := exists_choice hne (by simp : (i, j) ≠ (i + 1, j)) hs hs' hv hw
      have hv0 := hnz _ _ hs _ hv
      have hw0 := hnz _ _ hs' _ hw
      have h3 := (hn f hf).2.2.1 i j (by rw [Set.mem_ofPred_eq, hs]; rfl) (by rw [Set.mem_ofPred_eq, hs']; rfl)
      rw [hfv, hfw] at h3
      rcases h3 with h3 | ⟨h3, h4⟩
      · left; exact (dbl_lt hv0 hw0).2 h3
      · right
        refine ⟨by rw [h3], ?_⟩
        have := (dbl_even hv0).1
        omega

/-- C80: `is_standard` returns True exactly if the tableau is semistandard without primes on the diagonal and the absolute values
of its entries are `1, 2, ..., N`, each once. -/
theorem C80_standard {T : Tab} (hne : ∀ b s, T.get? b = some s → s ≠ []) (h0 : (0 : ℤ) ∉ T.values) :
    ∃ b, isStandard? T = some b ∧ (b = true ↔ MarkedSemistandard false T.get? ∧
      (T.values.map (fun x => |x|)).Perm ((List.range T.values.length).map (fun k : ℕ => (k : ℤ) + 1))) := by
  obtain ⟨b, h1, h2⟩ := C80_semistandard hne h0 false
  rw [isStandard?, h1]
  cases b with
  | false =>
    refine ⟨false, rfl, ?_⟩
    simp only [Bool.false_eq_true, false_iff] at h2 ⊢
    exact fun h => h2 h.1
  | true =>
    refine ⟨_, rfl, ?_⟩
    rw [decide_eq_true_iff, List.length_map]
    obtain ⟨V, hV⟩ : ∃ V, T.values.map (fun x => |x|) = V := ⟨_, rfl⟩
    rw [hV]
    constructor
    · intro h
      refine ⟨h2.1 rfl, ?_⟩
      rw [← h]; exact (sortInts_perm' _).symm
    · rintro ⟨_, h⟩
      refine ((sortInts_perm' _).trans h).eq_of_pairwise (fun a b _ _ h1 h2 => le_antisymm h1 h2) (sortInts_sorted _) ?_
      rw [List.pairwise_map]
      refine List.pairwise_lt_range.imp ?_
      intro a b hab; omega

/-- The shifted tableau with rows `1, 2'` and `3`. -/
example : isSemistandard? (((empty.set (1, 1) [1]).set (1, 2) [-2]).set (2, 2) [3]) false = some true ∧
    isStandard? (((empty.set (1, 1) [1]).set (1, 2) [-2]).set (2, 2) [3]) = some true ∧
    isSemistandard? (((empty.set (1, 1) [-1]).set (1, 2) [-2]).set (2, 2) [3]) false = some false ∧
    isSemistandard? (((empty.set (1, 1) [-1]).set (1, 2) [-2]).set (2, 2) [3]) true = some true ∧
    isSemistandard? ((empty.set (1, 1) [1]).set (2, 1) [1]) false = some false ∧
    isSemistandard? ((empty.set (1, 2) [-1]).set (1, 3) [-1]) false = some false := by decide +kernel

end Verif.Tab
