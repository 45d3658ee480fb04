import Verif.Lemmas.Involutions

/-! Fixed-point-free involutions. -/

namespace Verif.Perm

attribute [-simp] List.getD_eq_getElem?_getD

/-- `s_i w s_i`. -/
def conj (w : SPerm) (i : Nat) : SPerm := mul (mul (s i) w) (s i)

theorem conj_call (w : SPerm) (i : Nat) (a : Int) : (conj w i).call a = sFun i (w.call (sFun i a)) := call_conj w i a

theorem conj_conj (w : SPerm) (i : Nat) : conj (conj w i) i = w := ext_call (fun a => by simp [conj_call])

theorem conj_involution {w : SPerm} (hw : ∀ a, w.call (w.call a) = a) (i : Nat) (a : Int) :
    (conj w i).call ((conj w i).call a) = a := by
  rw [conj_call, conj_call, sFun_sFun, hw, sFun_sFun]

/-- The loop of `from_fpf_involution_word`, letter by letter. -/
theorem fromFpfLoop_concat (strict : Bool) (w : SPerm) (a : List Nat) (i : Nat) :
    fromFpfLoop strict w (a ++ [i]) = (fromFpfLoop strict w a).bind (fun v =>
      if (i ∈ rightDescents v ∨ mul (s i) v = mul v (s i)) ∧ strict then none else some (conj v i)) := by
  induction a generalizing w with
  | nil =>
    simp only [List.nil_append, fromFpfLoop, Option.bind_some, conj]
    split
    · rename_i h
      rw [if_pos ⟨Or.inl h.1, h.2⟩]
    · rename_i h
      split
      · rename_i h'
        rw [if_pos ⟨Or.inr h'.1, h'.2⟩]
      · rename_i h'
        rw [if_neg]
        rintro ⟨h1 | h1, h2⟩
        · exact h ⟨h1, h2⟩
        · exact h' ⟨h1, h2⟩
  | cons j a ih =>
    simp only [List.cons_append, fromFpfLoop]
    split
    · rfl
    · split
      · rfl
      · exact ih _

theorem fromFpfLoop_true_concat {w v : SPerm} {a : List Nat} {i : Nat} :
    fromFpfLoop true w (a ++ [i]) = some v ↔ ∃ u, fromFpfLoop true w a = some u ∧ ¬ Desc u.call i ∧
      mul (s i) u ≠ mul u (s i) ∧ v = conj u i := by
  rw [fromFpfLoop_concat, Option.bind_eq_some_iff]
  refine exists_congr (fun u => and_congr_right (fun _ => ?_))
  have hm := mem_rightDescents u i
  by_cases h1 : Desc u.call i
  · simp [h1, hm.2 h1]
  · have hm' : i ∉ rightDescents u := fun h => h1 (hm.1 h)
    by_cases h2 : mul (s i) u = mul u (s i)
    · simp [h2]
    · simp [h1, h2, hm', eq_comm]

/-- The value of the loop. -/
theorem fromFpfLoop_value {strict : Bool} {w v : SPerm} {a : List Nat} (h : fromFpfLoop strict w a = some v) :
    v = mul (mul (inverse (fromWord a)) w) (fromWord a) := by
  induction a using List.reverseRecOn generalizing v with
  | nil =>
    rw [fromFpfLoop, Option.some.injEq] at h
    subst h
    have : inverse (fromWord []) = identity := inverse_of_involution identity_involution
    rw [this, one_mul']
    exact (mul_one' _).symm
  | append_singleton a i ih =>
    rw [fromFpfLoop_concat, Option.bind_eq_some_iff] at h
    obtain ⟨u, h1, h2⟩ := h
    split at h2
    · cases h2
    · rw [Option.some.injEq] at h2
      rw [← h2, ih h1, conj, fromWord_concat, inverse_mul_rev, inverse_s]
      simp only [mul_assoc']

theorem fromFpfLoop_false (w : SPerm) (a : List Nat) : fromFpfLoop false w a =
    some (mul (mul (inverse (fromWord a)) w) (fromWord a)) := by
  have : ∃ v, fromFpfLoop false w a = some v := by
    induction a using List.reverseRecOn with
    | nil => exact ⟨w, rfl⟩
    | append_singleton a i ih =>
      obtain ⟨u, h⟩ := ih
      exact ⟨conj u i, by rw [fromFpfLoop_concat, h]; simp⟩
  obtain ⟨v, h⟩ := this
  rw [h, fromFpfLoop_value h]

theorem conj_of_comm {w : SPerm} {i : Nat} (h : mul (s i) w = mul w (s i)) : conj w i = w := by
  rw [conj, h, mul_s_s]

theorem len_conj_le_of_desc {w : SPerm} {i : Nat} (hd : Desc w.call i) : len (conj w i) ≤ len w := by
  rw [conj, mul_assoc']
  have h1 := len_mul_s_of_desc hd
  by_cases h : i ∈ leftDescents (mul w (s i))
  · have := len_s_mul_of_desc h
    omega
  · have := len_s_mul_of_not h
    omega

/-- Every letter adds at most two to the length; the strict loop returns a value exactly if each adds two. -/
theorem fromFpfLoop_len {w : SPerm} (hw : ∀ a, w.call (w.call a) = a) (a : List Nat) :
    ∃ v, fromFpfLoop false w a = some v ∧ (∀ b, v.call (v.call b) = b) ∧ len v ≤ len w + 2 * a.length ∧
      (fromFpfLoop true w a = some v ↔ len v = len w + 2 * a.length) ∧ (fromFpfLoop true w a ≠ some v → fromFpfLoop true w a = none) := by
  induction a using List.reverseRecOn with
  | nil => exact ⟨w, rfl, hw, by simp, by simp [fromFpfLoop], fun h => absurd rfl h⟩
  | append_singleton a i ih =>
    obtain ⟨v, h1, h2, h3, h4, h5⟩ := ih
    refine ⟨conj v i, by rw [fromFpfLoop_concat, h1]; simp, conj_involution h2 i, ?_⟩
    rw [List.length_append, List.length_singleton]
    have hnone : ∀ (hc : len v < len w + 2 * a.length ∨ Desc v.call i ∨ mul (s i) v = mul v (s i)), fromFpfLoop true w (a ++ [i]) = none := by
      intro hc
      rw [fromFpfLoop_concat]
      by_cases hs : fromFpfLoop true w a = some v
      · rw [hs, Option.bind_some, if_pos]
        refine ⟨?_, rfl⟩
        rw [mem_rightDescents]
        have := h4.1 hs
        rcases hc with hc | hc
        · omega
        · exact hc
      · rw [h5 hs]
        rfl
    by_cases hd : Desc v.call i
    · have := len_conj_le_of_desc hd
      have hn := hnone (Or.inr (Or.inl hd))
      refine ⟨by omega, ?_, fun _ => hn⟩
      rw [hn]
      constructor
      · intro h; cases h
      · intro h; omega
    · by_cases hc : mul (s i) v = mul v (s i)
      · have hn := hnone (Or.inr (Or.inr hc))
        rw [conj_of_comm hc]
        refine ⟨by omega, ?_, fun _ => hn⟩
        rw [hn]
        constructor
        · intro h; cases h
        · intro h; omega
      · have hl : len (conj v i) = len v + 2 := (len_conj h2 hd hc).1
        by_cases hs : len v = len w + 2 * a.length
        · have : fromFpfLoop true w (a ++ [i]) = some (conj v i) :=
            fromFpfLoop_true_concat.2 ⟨v, h4.2 hs, hd, hc, rfl⟩
          refine ⟨by omega, ?_, fun h => absurd this h⟩
          rw [this]
          simp only [true_iff]
          omega
        · have hn := hnone (Or.inl (by omega))
          refine ⟨by omega, ?_, fun _ => hn⟩
          rw [hn]
          constructor
          · intro h; cases h
          · intro h; omega

theorem fromFpfLoop_true_len {w v : SPerm} (hw : ∀ a, w.call (w.call a) = a) {a : List Nat}
    (h : fromFpfLoop true w a = some v) : len v = len w + 2 * a.length := by
  obtain ⟨u, h1, h2, h3, h4, h5⟩ := fromFpfLoop_len hw a
  have : u = v := by
    by_contra hc
    have := h5 (by rw [h]; exact fun h' => hc (Option.some.inj h').symm)
    rw [h] at this
    cases this
  subst this
  exact h4.1 h

/-! ### unsigned fixed-point-free involutions -/

/-- An involution of `1..n` without signs and without fixed points. -/
structure Fpf (n : Nat) (w : SPerm) : Prop where
  inv : ∀ a, w.call (w.call a) = a
  odd : Odd w.call n
  pos : ∀ a : Int, 0 < a → 0 < w.call a
  ne : ∀ a : Int, 0 < a → a ≤ n → w.call a ≠ a

theorem Fpf.rank {n : Nat} {w : SPerm} (h : Fpf n w) : w.rank = n := by
  have h1 := rank_le_of_odd h.odd
  by_contra hc
  have := (call_odd w).out n (by omega)
  exact h.ne n (by omega) le_rfl this

theorem Fpf.le {n : Nat} {w : SPerm} (h : Fpf n w) {a : Int} (h1 : 0 < a) (h2 : a ≤ n) : 0 < w.call a ∧ w.call a ≤ n := by
  have := h.odd.bound a (by omega)
  have := h.pos a h1
  omega

theorem isUnsigned_iff {w : SPerm} : isUnsigned w = true ↔ ∀ a, 0 < a → 0 < w.call a := by
  rw [isUnsigned, List.all_eq_true]
  constructor
  · intro h a ha
    by_cases hr : a ≤ w.rank
    · rw [SPerm.call, if_pos ⟨ha, hr⟩]
      have hl : (a - 1).toNat < w.oneline.length := by
        have : w.rank = w.oneline.length := rfl
        omega
      rw [List.getD_eq_getElem _ _ hl]
      simpa using h _ (List.getElem_mem hl)
    · rw [(call_odd w).out a (by omega)]
      exact ha
  · intro h x hx
    obtain ⟨k, hk, rfl⟩ := List.mem_iff_getElem.1 hx
    have := h ((k : Int) + 1) (by omega)
    have hr : w.rank = w.oneline.length := rfl
    rw [SPerm.call, if_pos (by omega), show ((k : Int) + 1 - 1).toNat = k by omega, List.getD_eq_getElem _ _ hk] at this
    simpa using this

theorem isFpf_iff {w : SPerm} : isFpfInvolution w = true ∧ isUnsigned w = true ↔ Fpf w.rank w := by
  rw [isUnsigned_iff, isFpfInvolution, Bool.and_eq_true, List.all_eq_true]
  have hi : decide (w = inverse w) = true ↔ ∀ a, w.call (w.call a) = a := isInvolution_iff
  rw [hi]
  constructor
  · rintro ⟨⟨h1, h2⟩, h3⟩
    refine ⟨h1, call_odd w, h3, fun a h4 h5 => ?_⟩
    have := h2 (a - 1).toNat (by rw [List.mem_range]; omega)
    rw [show (((a - 1).toNat : Nat) : Int) + 1 = a by omega] at this
    simpa using this
  · intro h
    refine ⟨⟨h.inv, fun k hk => ?_⟩, h.pos⟩
    rw [List.mem_range] at hk
    simpa using h.ne ((k : Int) + 1) (by omega) (by omega)

theorem Fpf.checks {n : Nat} {w : SPerm} (h : Fpf n w) : isFpfInvolution w = true ∧ isUnsigned w = true :=
  isFpf_iff.2 (by rw [h.rank]; exact h)

theorem sFun_pos {i : Nat} (hi : 1 ≤ i) {a : Int} : 0 < sFun i a ↔ 0 < a := by
  unfold sFun
  (repeat' split) <;> omega

theorem Fpf.conj {n : Nat} {w : SPerm} (h : Fpf n w) {i : Nat} (h1 : 1 ≤ i) (h2 : i + 1 ≤ n) : Fpf n (conj w i) := by
  have so := (sFun_odd i).mono h2
  refine ⟨conj_involution h.inv i, ?_, fun a ha => ?_, fun a ha1 ha2 he => ?_⟩
  · have ho := call_odd (Verif.Perm.conj w i)
    refine ⟨ho.neg, ho.inj, fun a ha => ?_, fun a ha => ?_⟩
    · rw [conj_call]
      exact so.bound _ (h.odd.bound _ (so.bound _ ha))
    · rw [conj_call, so.out a ha, h.odd.out a ha, so.out a ha]
  · rw [conj_call, sFun_pos h1]
    exact h.pos _ ((sFun_pos h1).2 ha)
  · rw [conj_call] at he
    have e := congrArg (sFun i) he
    rw [sFun_sFun] at e
    have h3 := so.bound a (by omega)
    have h4 := (sFun_pos (a := a) h1).2 ha1
    exact h.ne _ h4 (by omega) e

theorem Fpf.even {n : Nat} {w : SPerm} (h : Fpf n w) : (negations w).length = 0 ∧ n = 2 * (pairs w).length := by
  have hr := h.rank
  have h1 := count_points h.inv hr.le
  have h2 := length_negations w hr.le
  have hf : fixSet n w.call = {0} := by
    ext a
    rw [mem_fixSet, Finset.mem_singleton]
    constructor
    · rintro ⟨h3, h4⟩
      by_contra hc
      rcases lt_or_gt_of_ne hc with h5 | h5
      · refine h.ne (-a) (by omega) (by omega) ?_
        rw [h.odd.neg, h4]
      · exact h.ne a h5 (by omega) h4
    · rintro rfl
      exact ⟨by simp, h.odd.zero⟩
  have hn : negSet n w.call = {0} := by
    ext a
    rw [mem_negSet, Finset.mem_singleton]
    constructor
    · rintro ⟨h3, h4⟩
      by_contra hc
      rcases lt_or_gt_of_ne hc with h5 | h5
      · have := h.pos (-a) (by omega)
        rw [h.odd.neg] at this
        omega
      · have := h.pos a h5
        omega
    · rintro rfl
      exact ⟨by simp, by rw [h.odd.zero]; rfl⟩
  rw [hn, Finset.card_singleton] at h1 h2
  rw [hf, Finset.card_singleton] at h1
  omega

/-- A descent is an exchanged pair or does not commute. -/
theorem Fpf.comm_iff_of_desc {n : Nat} {w : SPerm} (h : Fpf n w) {i : Nat} (hd : Desc w.call i) :
    mul (s i) w = mul w (s i) ↔ w.call i = (i : Int) + 1 := by
  have h1 : ¬ Desc (mul w (s i)).call i := by rw [desc_mul_s]; simpa using hd
  have key : mul (s i) (mul w (s i)) = mul (mul w (s i)) (s i) ↔ mul (s i) w = mul w (s i) := by
    rw [mul_s_s, ← mul_assoc']
    constructor
    · intro he
      conv_rhs => rw [← he]
      rw [mul_s_s]
    · intro he
      rw [he, mul_s_s]
  have hi : 1 ≤ i := by
    by_contra hc
    have : i = 0 := by omega
    subst this
    rw [Desc, lo, if_pos rfl] at hd
    have h2 := h.pos 1 (by omega)
    rw [show (-1 : Int) = -(1 : Int) from rfl, h.odd.neg] at hd
    simp at hd
    omega
  have hlo : lo i = i := if_neg (by omega)
  rw [← key, comm_iff h1]
  simp only [call_mul, call_s, sFun_lo, sFun_hi]
  rw [hlo]
  have p1 := h.pos i (by omega)
  have p2 := h.pos (i + 1) (by omega)
  constructor
  · rintro (⟨-, h3⟩ | ⟨h2, -⟩)
    · exact h3
    · omega
  · intro h3
    refine Or.inl ⟨?_, h3⟩
    rw [← h3, h.inv]

theorem Fpf.desc_lt {n : Nat} {w : SPerm} (h : Fpf n w) {i : Nat} (hd : Desc w.call i) : 1 ≤ i ∧ i + 1 ≤ n := by
  constructor
  · by_contra hc
    have : i = 0 := by omega
    subst this
    rw [Desc, lo, if_pos rfl] at hd
    have h2 := h.pos 1 (by omega)
    rw [show (-1 : Int) = -(1 : Int) from rfl, h.odd.neg] at hd
    simp at hd
    omega
  · by_contra hc
    by_cases h0 : i = 0
    · subst h0
      rw [Desc, lo, if_pos rfl] at hd
      have h2 := h.pos 1 (by omega)
      rw [show (-1 : Int) = -(1 : Int) from rfl, h.odd.neg] at hd
      simp at hd
      omega
    · rw [Desc, lo, if_neg h0, h.odd.out ((i : Int) + 1) (by omega)] at hd
      have := h.odd.bound i
      by_cases hi : i ≤ n
      · have := this (by omega)
        omega
      · rw [h.odd.out i (by omega)] at hd
        omega

/-! ### the starting permutation -/

theorem fpfStart_step {n : Nat} (hn : n % 2 = 0) : fpfStart (n + 2) = mul (fpfStart n) (s (n + 1)) := by
  rw [fpfStart, fpfStart, List.range_succ, List.range_succ, List.filter_append, List.filter_append, List.foldl_append,
    List.foldl_append]
  have h1 : List.filter (fun i => decide (i % 2 = 1)) [n] = [] := by
    simp [hn]
  have h2 : List.filter (fun i => decide (i % 2 = 1)) [n + 1] = [n + 1] := by
    have : (n + 1) % 2 = 1 := by omega
    simp [this]
  rw [h1, h2]
  rfl

theorem fpfStart_zero : fpfStart 0 = identity := rfl

theorem fpfStart_call {n : Nat} (hn : n % 2 = 0) (a : Int) (ha : 0 < a) :
    (fpfStart n).call a = if a ≤ n then (if a % 2 = 1 then a + 1 else a - 1) else a := by
  obtain ⟨k, rfl⟩ : ∃ k, n = 2 * k := ⟨n / 2, by omega⟩
  clear hn
  induction k generalizing a with
  | zero =>
    rw [show 2 * 0 = 0 from rfl, fpfStart_zero, call_identity, if_neg (by simpa using ha)]
  | succ k ih =>
    rw [show 2 * (k + 1) = 2 * k + 2 by omega, fpfStart_step (by omega), call_mul, call_s,
      ih _ ((sFun_pos (by omega)).2 ha)]
    unfold sFun
    push_cast
    (repeat' split) <;> omega

theorem fpf_fpfStart {n : Nat} (hn : n % 2 = 0) : Fpf n (fpfStart n) := by
  have ho := call_odd (fpfStart n)
  have hc := fpfStart_call hn
  have hinv : ∀ a : Int, 0 < a → (fpfStart n).call ((fpfStart n).call a) = a := by
    intro a ha
    rw [hc _ (by rw [hc a ha]; (repeat' split) <;> omega), hc a ha]
    (repeat' split) <;> omega
  refine ⟨fun a => ?_, ⟨ho.neg, ho.inj, fun a ha => ?_, fun a ha => ?_⟩, fun a ha => ?_, fun a h1 h2 => ?_⟩
  · rcases lt_trichotomy a 0 with h | h | h
    · have := hinv (-a) (by omega)
      rw [ho.neg, ho.neg] at this
      omega
    · rw [h, ho.zero, ho.zero]
    · exact hinv a h
  · rcases lt_trichotomy a 0 with h | h | h
    · have := hc (-a) (by omega)
      rw [ho.neg] at this
      split at this <;> (try split at this) <;> omega
    · rw [h, ho.zero]; simp
    · have := hc a h
      split at this <;> (try split at this) <;> omega
  · rcases lt_trichotomy a 0 with h | h | h
    · have := hc (-a) (by omega)
      rw [ho.neg, if_neg (by omega)] at this
      omega
    · omega
    · rw [hc a h, if_neg (by omega)]
  · rw [hc a ha]
    (repeat' split) <;> omega
  · rw [hc a h1, if_pos h2]
    split <;> omega

/-- Without descents other than exchanged pairs it is the starting permutation. -/
theorem Fpf.eq_start {n : Nat} {w : SPerm} (h : Fpf n w)
    (hd : ∀ i, Desc w.call i → w.call i = (i : Int) + 1) : w = fpfStart n := by
  have he := h.even.2
  have hn : n % 2 = 0 := by omega
  have key : ∀ k : Nat, 2 * k + 2 ≤ n → w.call ((2 * k + 1 : Nat) : Int) = ((2 * k + 2 : Nat) : Int) := by
    intro k
    induction k using Nat.strong_induction_on with
    | _ k ih =>
      intro hk
      obtain ⟨b, hb⟩ : ∃ b, w.call ((2 * k + 1 : Nat) : Int) = b := ⟨_, rfl⟩
      have hlow : ∀ c : Int, 0 < c → c ≤ 2 * k → 0 < w.call c ∧ w.call c ≤ 2 * k := by
        intro c h1 h2
        obtain ⟨j, hj⟩ : ∃ j : Nat, c = ((2 * j + 1 : Nat) : Int) ∨ c = ((2 * j + 2 : Nat) : Int) :=
          ⟨((c - 1) / 2).toNat, by omega⟩
        have h3 := ih j (by omega) (by omega)
        rcases hj with hj | hj
        · rw [hj, h3]; omega
        · rw [hj, ← h3, h.inv]; omega
      have hge : ∀ c : Int, 2 * k < c → 2 * k < w.call c := by
        intro c h1
        have h2 := h.pos c (by omega)
        by_contra h3
        have := hlow (w.call c) h2 (by omega)
        rw [h.inv] at this
        omega
      have hbn := h.le (a := ((2 * k + 1 : Nat) : Int)) (by omega) (by omega)
      have hb1 := hge ((2 * k + 1 : Nat) : Int) (by omega)
      have hb2 := h.ne ((2 * k + 1 : Nat) : Int) (by omega) (by omega)
      rw [hb] at hbn hb1 hb2 ⊢
      have hwb : w.call b = ((2 * k + 1 : Nat) : Int) := by rw [← hb, h.inv]
      have h1 := hge (b - 1) (by omega)
      have h2 : w.call (b - 1) ≠ ((2 * k + 1 : Nat) : Int) := by
        intro hc
        have := h.odd.inj _ _ (hc.trans hwb.symm)
        omega
      have h3 := hd (b - 1).toNat (by
        rw [Desc, lo, if_neg (by omega), show (((b - 1).toNat : Nat) : Int) = b - 1 by omega, sub_add_cancel, hwb]
        omega)
      rw [show (((b - 1).toNat : Nat) : Int) = b - 1 by omega, sub_add_cancel] at h3
      have h4 : w.call (w.call (b - 1)) = b - 1 := h.inv _
      rw [h3, hwb] at h4
      omega
  apply ext_call
  have hpos : ∀ a : Int, 0 < a → w.call a = (fpfStart n).call a := by
    intro a ha
    rw [fpfStart_call hn a ha]
    by_cases hle : a ≤ n
    · rw [if_pos hle]
      obtain ⟨j, hj⟩ : ∃ j : Nat, a = ((2 * j + 1 : Nat) : Int) ∨ a = ((2 * j + 2 : Nat) : Int) :=
        ⟨((a - 1) / 2).toNat, by omega⟩
      have h3 := key j (by omega)
      rcases hj with hj | hj
      · rw [hj, h3, if_pos (by omega)]; omega
      · rw [hj, ← h3, h.inv, h3, if_neg (by omega)]; omega
    · rw [if_neg hle, h.odd.out a (by omega)]
  intro a
  rcases lt_trichotomy a 0 with h' | h' | h'
  · have := hpos (-a) (by omega)
    rw [h.odd.neg, (call_odd _).neg] at this
    omega
  · rw [h', h.odd.zero, (call_odd _).zero]
  · exact hpos a h'

/-! ### words -/

/-- The strict loop started at the starting permutation of `1..n`. -/
abbrev fpfRun (n : Nat) (a : List Nat) : Option SPerm := fromFpfLoop true (fpfStart n) a

theorem Fpf.not_desc_conj {n : Nat} {w : SPerm} (h : Fpf n w) {i : Nat} (hd : Desc w.call i) (hc : w.call i ≠ (i : Int) + 1) :
    ¬ Desc (Verif.Perm.conj w i).call i ∧ mul (s i) (Verif.Perm.conj w i) ≠ mul (Verif.Perm.conj w i) (s i) := by
  have h1 : mul (s i) w ≠ mul w (s i) := fun h' => hc ((h.comm_iff_of_desc hd).1 h')
  have h2 := not_desc_invStep h.inv hd
  rw [invStep, if_neg h1] at h2
  change ¬ Desc (Verif.Perm.conj w i).call i at h2
  refine ⟨h2, fun h' => ?_⟩
  have h3 := conj_of_comm h'
  rw [conj_conj] at h3
  rw [← h3] at h2
  exact h2 hd

theorem fpfRun_concat {n : Nat} {w : SPerm} (h : Fpf n w) {a : List Nat} {i : Nat} :
    fpfRun n (a ++ [i]) = some w ↔ Desc w.call i ∧ w.call i ≠ (i : Int) + 1 ∧ fpfRun n a = some (conj w i) := by
  rw [fpfRun, fromFpfLoop_true_concat]
  constructor
  · rintro ⟨u, h1, h2, h3, hv⟩
    have hu' : conj w i = u := by rw [hv, conj_conj]
    have hu : ∀ a, u.call (u.call a) = a := by
      rw [← hu']
      exact conj_involution h.inv i
    have hd : Desc w.call i := by
      rw [hv]
      exact (len_conj hu h2 h3).2.2
    refine ⟨hd, fun hc => h2 ?_, ?_⟩
    · have := conj_of_comm ((h.comm_iff_of_desc hd).2 hc)
      rw [hu'] at this
      rwa [this]
    · rw [fpfRun, h1, hu']
  · rintro ⟨h1, h2, h3⟩
    obtain ⟨h4, h5⟩ := h.not_desc_conj h1 h2
    exact ⟨conj w i, h3, h4, h5, (conj_conj w i).symm⟩

theorem fpfRun_letters {n : Nat} {w : SPerm} (h : Fpf n w) {a : List Nat} (ha : fpfRun n a = some w) :
    ∀ i ∈ a, 1 ≤ i ∧ i + 1 ≤ n := by
  induction a using List.reverseRecOn generalizing w with
  | nil => simp
  | append_singleton a i ih =>
    obtain ⟨h1, h2, h3⟩ := (fpfRun_concat h).1 ha
    have h4 := h.desc_lt h1
    have := ih (h.conj h4.1 h4.2) h3
    intro j hj
    rw [List.mem_append, List.mem_singleton] at hj
    rcases hj with hj | rfl
    · exact this j hj
    · exact h4

theorem fpfRun_fpf {n : Nat} (hn : n % 2 = 0) {w : SPerm} {a : List Nat} (hl : ∀ i ∈ a, 1 ≤ i ∧ i + 1 ≤ n)
    {strict : Bool} (ha : fromFpfLoop strict (fpfStart n) a = some w) : Fpf n w := by
  induction a using List.reverseRecOn generalizing w with
  | nil =>
    rw [fromFpfLoop, Option.some.injEq] at ha
    rw [← ha]
    exact fpf_fpfStart hn
  | append_singleton a i ih =>
    rw [fromFpfLoop_concat, Option.bind_eq_some_iff] at ha
    obtain ⟨u, h1, h2⟩ := ha
    split at h2
    · cases h2
    · rw [Option.some.injEq] at h2
      rw [← h2]
      have := hl i (by simp)
      exact (ih (fun j hj => hl j (by simp [hj])) h1).conj this.1 this.2

theorem Fpf.len_conj_of_desc {n : Nat} {w : SPerm} (h : Fpf n w) {i : Nat} (hd : Desc w.call i)
    (hc : w.call i ≠ (i : Int) + 1) : len w = len (Verif.Perm.conj w i) + 2 := by
  obtain ⟨h1, h2⟩ := h.not_desc_conj hd hc
  have h3 := (len_conj (conj_involution h.inv i) h1 h2).1
  have e : mul (mul (s i) (Verif.Perm.conj w i)) (s i) = w := by
    have := conj_conj w i
    rwa [Verif.Perm.conj.eq_def (Verif.Perm.conj w i)] at this
  rw [e] at h3
  exact h3

theorem len_fpfStart {n : Nat} (hn : n % 2 = 0) : len (fpfStart n) = n / 2 := by
  obtain ⟨k, rfl⟩ : ∃ k, n = 2 * k := ⟨n / 2, by omega⟩
  clear hn
  induction k with
  | zero => decide
  | succ k ih =>
    rw [show 2 * (k + 1) = 2 * k + 2 by omega, fpfStart_step (by omega), len_mul_s_of_not, ih]
    · omega
    · have h := fpf_fpfStart (n := 2 * k) (by omega)
      intro hd
      have := h.desc_lt hd
      omega

theorem getFpfInvolutionWord?_spec {n : Nat} (fuel : Nat) : ∀ {w : SPerm}, Fpf n w → len w < n / 2 + 2 * fuel →
    ∃ a, getFpfInvolutionWord? fuel w = .ok a ∧ fpfRun n a = some w := by
  have hstart : ∀ {w : SPerm}, Fpf n w → (leftDescents w).filter (fun i : Nat => w.call i ≠ (i : Int) + 1) = [] →
      w = fpfStart n := by
    intro w h he
    apply h.eq_start
    intro i hd
    by_contra hc
    have : i ∈ (leftDescents w).filter (fun i : Nat => w.call i ≠ (i : Int) + 1) := by
      rw [List.mem_filter, mem_leftDescents, inverse_of_involution h.inv]
      exact ⟨hd, by simpa using hc⟩
    rw [he] at this
    cases this
  have hmin : ∀ (k : Nat) {w : SPerm}, Fpf n w → len w ≤ k → n / 2 ≤ len w := by
    intro k
    induction k using Nat.strong_induction_on with
    | _ k ih =>
      intro w h hk
      by_cases hc : ∀ i, Desc w.call i → w.call i = (i : Int) + 1
      · rw [h.eq_start hc, len_fpfStart (by have := h.even.2; omega)]
      · push Not at hc
        obtain ⟨i, hd, hi⟩ := hc
        have h1 := h.len_conj_of_desc hd hi
        have h2 := h.desc_lt hd
        have := ih (len (conj w i)) (by omega) (h.conj h2.1 h2.2) le_rfl
        omega
  induction fuel with
  | zero =>
    intro w h hf
    have := hmin _ h le_rfl
    omega
  | succ fuel ih =>
    intro w h hf
    rw [getFpfInvolutionWord?, if_pos h.checks.1]
    cases hm : ((leftDescents w).filter (fun i : Nat => w.call i ≠ (i : Int) + 1)).min? with
    | none =>
      rw [List.min?_eq_none_iff] at hm
      exact ⟨[], rfl, by rw [hstart h hm]; rfl⟩
    | some i =>
      have hi := (List.min?_eq_some_iff.1 hm).1
      rw [List.mem_filter, mem_leftDescents, inverse_of_involution h.inv] at hi
      obtain ⟨hd, hc⟩ := hi
      have hc : w.call i ≠ (i : Int) + 1 := by simpa using hc
      have h1 := h.len_conj_of_desc hd hc
      have h2 := h.desc_lt hd
      obtain ⟨a, ha1, ha2⟩ := ih (h.conj h2.1 h2.2) (by omega)
      refine ⟨a ++ [i], ?_, (fpfRun_concat h).2 ⟨hd, hc, ha2⟩⟩
      simp only
      have : mul (mul (s i) w) (s i) = conj w i := rfl
      rw [this, ha1]
      rfl

theorem Fpf.len {n : Nat} {w : SPerm} (h : Fpf n w) : ∃ a, fpfRun n a = some w ∧ len w = n / 2 + 2 * a.length := by
  obtain ⟨a, -, ha⟩ := getFpfInvolutionWord?_spec (Verif.Perm.len w + 1) h (by omega)
  have hn : n % 2 = 0 := by have := h.even.2; omega
  refine ⟨a, ha, ?_⟩
  rw [fromFpfLoop_true_len (fpf_fpfStart hn).inv ha, len_fpfStart hn]

/-- The fixed-point-free involution length. -/
theorem Fpf.fpfLength {n : Nat} {w : SPerm} (h : Fpf n w) : 2 * fpfInvolutionLength w + n / 2 = Verif.Perm.len w := by
  have h1 := ilen2_even h.inv
  have h2 := h.even
  obtain ⟨a, -, h3⟩ := h.len
  rw [fpfInvolutionLength, h.rank]
  unfold ilen2 at h1
  omega

/-! ### larger rank -/

theorem fpfRun_succ {n : Nat} (hn : n % 2 = 0) {a : List Nat} (hl : ∀ i ∈ a, i + 1 ≤ n) :
    fpfRun (n + 2) a = (fpfRun n a).map (fun v => mul v (s (n + 1))) := by
  induction a using List.reverseRecOn with
  | nil =>
    rw [fpfRun, fpfRun, fromFpfLoop, fromFpfLoop, fpfStart_step hn]
    rfl
  | append_singleton a i ih =>
    have hi := hl i (by simp)
    rw [fpfRun, fpfRun, fromFpfLoop_concat, fromFpfLoop_concat]
    have ih := ih (fun j hj => hl j (by simp [hj]))
    rw [fpfRun, fpfRun] at ih
    rw [ih]
    cases fromFpfLoop true (fpfStart n) a with
    | none => rfl
    | some v =>
      simp only [Option.map_some, Option.bind_some]
      have h1 : i ∈ rightDescents (mul v (s (n + 1))) ↔ i ∈ rightDescents v := by
        rw [mem_rightDescents, mem_rightDescents, Desc, Desc]
        simp only [call_mul, call_s]
        have e1 : sFun (n + 1) (lo i) = lo i := by
          unfold sFun lo
          (repeat' split) <;> omega
        have e2 : sFun (n + 1) ((i : Int) + 1) = (i : Int) + 1 := by
          unfold sFun
          (repeat' split) <;> omega
        rw [e1, e2]
      have hcomm : ∀ v, mul (mul v (s (n + 1))) (s i) = mul (mul v (s i)) (s (n + 1)) := by
        intro v
        exact (mul_comm_s (by omega) v).symm
      have h2 : mul (s i) (mul v (s (n + 1))) = mul (mul v (s (n + 1))) (s i) ↔ mul (s i) v = mul v (s i) := by
        rw [hcomm, ← mul_assoc']
        constructor
        · intro he
          have := congrArg (fun x => mul x (s (n + 1))) he
          simpa only [mul_s_s] using this
        · intro he
          rw [he]
      have h3 : conj (mul v (s (n + 1))) i = mul (conj v i) (s (n + 1)) := by
        rw [conj, conj, ← hcomm, mul_assoc' (s i) v]
      simp only [h1, h2, h3]
      split <;> rfl

theorem call_mul_tail {n : Nat} {v : SPerm} (hv : Odd v.call n) (x : Int) :
    (mul v (s (n + 1))).call x = if x.natAbs ≤ n then v.call x else sFun (n + 1) x := by
  rw [call_mul, call_s]
  split
  · rw [show sFun (n + 1) x = x by unfold sFun; (repeat' split) <;> omega]
  · apply hv.out
    unfold sFun
    (repeat' split) <;> omega

theorem Fpf.mul_tail {n : Nat} {v : SPerm} (h : Fpf n v) : Fpf (n + 2) (mul v (s (n + 1))) := by
  have ho := call_odd (mul v (s (n + 1)))
  have hc := call_mul_tail h.odd
  have hs : ∀ x : Int, ¬ x.natAbs ≤ n → ¬ (sFun (n + 1) x).natAbs ≤ n := by
    intro x hx
    unfold sFun
    (repeat' split) <;> omega
  refine ⟨fun a => ?_, ⟨ho.neg, ho.inj, fun a ha => ?_, fun a ha => ?_⟩, fun a ha => ?_, fun a h1 h2 => ?_⟩
  · rw [hc a]
    split
    · rename_i h1
      rw [hc, if_pos (h.odd.bound a h1), h.inv]
    · rename_i h1
      rw [hc, if_neg (hs a h1), sFun_sFun]
  · rw [hc]
    split
    · have := h.odd.bound a (by assumption)
      omega
    · exact ((sFun_odd (n + 1)).mono (by omega)).bound a ha
  · rw [hc, if_neg (by omega)]
    exact ((sFun_odd (n + 1)).mono (by omega)).out a ha
  · rw [hc]
    split
    · exact h.pos a ha
    · exact (sFun_pos (by omega)).2 ha
  · rw [hc]
    split
    · exact h.ne a h1 (by omega)
    · unfold sFun
      (repeat' split) <;> omega

theorem Fpf.of_tail {n : Nat} {w : SPerm} (h : Fpf (n + 2) w) (ht : w.call ((n + 1 : Nat) : Int) = ((n + 2 : Nat) : Int)) :
    Fpf n (mul w (s (n + 1))) := by
  have ho := call_odd (mul w (s (n + 1)))
  have ht2 : w.call ((n + 2 : Nat) : Int) = ((n + 1 : Nat) : Int) := by rw [← ht, h.inv]
  have hc : ∀ x : Int, x.natAbs ≤ n → (mul w (s (n + 1))).call x = w.call x := by
    intro x hx
    rw [call_mul, call_s, show sFun (n + 1) x = x by unfold sFun; (repeat' split) <;> omega]
  have hout : ∀ x : Int, n < x.natAbs → (mul w (s (n + 1))).call x = x := by
    have hp : ∀ x : Int, n < x → (mul w (s (n + 1))).call x = x := by
      intro x hx
      rw [call_mul, call_s]
      by_cases h1 : x = ((n + 1 : Nat) : Int)
      · rw [show sFun (n + 1) x = ((n + 2 : Nat) : Int) by unfold sFun; (repeat' split) <;> omega, ht2, h1]
      · by_cases h2 : x = ((n + 2 : Nat) : Int)
        · rw [show sFun (n + 1) x = ((n + 1 : Nat) : Int) by unfold sFun; (repeat' split) <;> omega, ht, h2]
        · rw [show sFun (n + 1) x = x by unfold sFun; (repeat' split) <;> omega]
          exact h.odd.out x (by omega)
    intro x hx
    by_cases h0 : 0 < x
    · exact hp x (by omega)
    · have := hp (-x) (by omega)
      rw [ho.neg] at this
      omega
  have hb : ∀ x : Int, x.natAbs ≤ n → ((mul w (s (n + 1))).call x).natAbs ≤ n := by
    intro x hx
    by_contra hcon
    have := hout _ (by omega : n < ((mul w (s (n + 1))).call x).natAbs)
    have := ho.inj _ _ this
    omega
  refine ⟨fun a => ?_, ⟨ho.neg, ho.inj, hb, hout⟩, fun a ha => ?_, fun a h1 h2 => ?_⟩
  · by_cases ha : a.natAbs ≤ n
    · rw [hc _ (hb a ha), hc a ha, h.inv]
    · rw [hout a (by omega), hout a (by omega)]
  · by_cases ha' : a.natAbs ≤ n
    · rw [hc a ha']
      exact h.pos a ha
    · rw [hout a (by omega)]
      exact ha
  · rw [hc a (by omega)]
    exact h.ne a h1 (by omega)

theorem fpfRun_tail {n : Nat} {w : SPerm} (h : Fpf (n + 2) w)
    (ht : w.call ((n + 1 : Nat) : Int) = ((n + 2 : Nat) : Int)) (a : List Nat) :
    fpfRun (n + 2) a = some w ↔ fpfRun n a = some (mul w (s (n + 1))) := by
  have hn : n % 2 = 0 := by have := h.even.2; omega
  constructor
  · intro ha
    have hl : ∀ i ∈ a, i + 1 ≤ n := by
      induction a using List.reverseRecOn generalizing w with
      | nil => simp
      | append_singleton a i ih =>
        obtain ⟨h1, h2, h3⟩ := (fpfRun_concat h).1 ha
        have h4 := h.desc_lt h1
        have hi : i + 1 ≤ n := by
          by_contra hc
          have : i = n ∨ i = n + 1 := by omega
          rcases this with rfl | rfl
          · rw [Desc, lo, if_neg (by omega)] at h1
            push_cast at ht
            have := h.le (a := (i : Int)) (by omega) (by omega)
            omega
          · apply h2
            rw [ht]
            push_cast
            omega
        have hcj : (conj w i).call ((n + 1 : Nat) : Int) = ((n + 2 : Nat) : Int) := by
          rw [conj_call, show sFun i ((n + 1 : Nat) : Int) = ((n + 1 : Nat) : Int) by unfold sFun; (repeat' split) <;> omega,
            ht]
          unfold sFun
          (repeat' split) <;> omega
        have := ih (h.conj h4.1 h4.2) hcj h3
        intro j hj
        rw [List.mem_append, List.mem_singleton] at hj
        rcases hj with hj | rfl
        · exact this j hj
        · exact hi
    rw [fpfRun_succ hn hl] at ha
    cases hr : fpfRun n a with
    | none => rw [hr] at ha; cases ha
    | some v =>
      rw [hr, Option.map_some, Option.some.injEq] at ha
      rw [← ha, mul_s_s]
  · intro ha
    have hl := fpfRun_letters (h.of_tail ht) ha
    rw [fpfRun_succ hn (fun i hi => (hl i hi).2), ha, Option.map_some, mul_s_s]

end Verif.Perm
