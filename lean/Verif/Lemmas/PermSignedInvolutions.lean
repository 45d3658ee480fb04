import Verif.Lemmas.PermInvolutionsAll

/-! # Signed involutions, and involutions without fixed points by levels -/

attribute [-simp] List.getD_eq_getElem?_getD

namespace Verif.Perm

open Verif.Partition

/-- `v` is `w` with the signs of the cycles of the numbers in `D` changed. -/
def Signs (w : SPerm) (D : List Nat) (v : SPerm) : Prop :=
  ∀ x : Nat, 1 ≤ x → v.call x = if x ∈ D ∨ (w.call x).toNat ∈ D then -w.call x else w.call x

/-- The numbers of `1, ..., n` that are not larger than their images. -/
def lowers (n : Nat) (w : SPerm) : List Nat := (ones n).filter (fun i : Nat => (i : Int) ≤ w.call i)

theorem mem_lowers {n : Nat} {w : SPerm} {i : Nat} : i ∈ lowers n w ↔ (1 ≤ i ∧ i ≤ n) ∧ (i : Int) ≤ w.call i := by
  rw [lowers, List.mem_filter, mem_ones]; simp

theorem conjugate_step {n : Nat} {w v : SPerm} (hw : UnsignedInvolution n w) {D : List Nat} (hD : ∀ i ∈ D, i ∈ lowers n w)
    (hv : Signs w D v) {i : Nat} (hi : i ∈ lowers n w) (hiD : i ∉ D) {t : SPerm} (ht : ∀ a, t.call a = uFun i i a) :
    Signs w (i :: D) (if v.call i = i then mul v t else mul (mul t v) t) := by
  obtain ⟨h1, h2, h3⟩ := hw
  rw [mem_lowers] at hi
  have hwi := h2 i (by omega)
  have hpos : ∀ x : Nat, 1 ≤ x → 0 < w.call x := fun x hx => h2 x (by omega)
  -- no number of the cycle of `i` is in `D`
  have hnot : (w.call i).toNat ∉ D := by
    intro hc
    have g1 := mem_lowers.1 (hD _ hc)
    rw [show (((w.call i).toNat : Nat) : Int) = w.call i by omega, h3] at g1
    have : (w.call i).toNat = i := by omega
    rw [this] at hc
    exact hiD hc
  have hvi : v.call i = w.call i := by
    rw [hv i hi.1.1, if_neg]
    rintro (hc | hc)
    · exact hiD hc
    · exact hnot hc
  intro x hx
  have hwx := hpos x hx
  have hx' := hv x hx
  have hcond : x ∈ i :: D ∨ (w.call x).toNat ∈ i :: D ↔ (x = i ∨ w.call x = i) ∨ (x ∈ D ∨ (w.call x).toNat ∈ D) := by
    simp only [List.mem_cons]
    constructor
    · rintro ((h | h) | (h | h))
      · exact .inl (.inl h)
      · exact .inr (.inl h)
      · exact .inl (.inr (by omega))
      · exact .inr (.inr h)
    · rintro ((h | h) | (h | h))
      · exact .inl (.inl h)
      · exact .inr (.inl (by omega))
      · exact .inl (.inr h)
      · exact .inr (.inr h)
  have hcyc : x = i ∨ w.call x = i → v.call x = w.call x := by
    intro h
    rw [hx', if_neg]
    rcases h with rfl | h
    · rintro (hc | hc)
      · exact hiD hc
      · exact hnot hc
    · have hxi : w.call i = x := by rw [← h, h3]
      rintro (hc | hc)
      · exact hnot (by rw [hxi]; simpa using hc)
      · rw [h] at hc; exact hiD (by simpa using hc)
  have hvabs : v.call x = w.call x ∨ v.call x = -w.call x := by
    rw [hx']; split
    · exact .inr rfl
    · exact .inl rfl
  by_cases hfix : v.call i = i
  · rw [if_pos hfix, call_mul, ht]
    rw [hvi] at hfix
    by_cases hxi : x = i
    · subst hxi
      rw [if_pos (hcond.2 (.inl (.inl rfl))), uFun, if_pos rfl, call_neg, hvi]
    · have hwxi : w.call x ≠ i := by
        intro hc
        rw [← hfix] at hc
        have := call_inj hc
        omega
      rw [uFun, if_neg (by omega), if_neg (by omega), if_neg (by omega), if_neg (by omega), hx']
      by_cases hP : x ∈ D ∨ (w.call x).toNat ∈ D
      · rw [if_pos hP, if_pos (hcond.2 (.inr hP))]
      · rw [if_neg hP, if_neg (by rw [hcond]; tauto)]
  · rw [if_neg hfix, call_mul, call_mul, ht, ht]
    rw [hvi] at hfix
    by_cases hxi : x = i
    · subst hxi
      rw [if_pos (hcond.2 (.inl (.inl rfl))), uFun, uFun]
      rw [show (if (x : Int) = x then -(x : Int) else if (x : Int) = x then -(x : Int) else if (x : Int) = -x then (x : Int) else
        if (x : Int) = -x then (x : Int) else x) = -(x : Int) by rw [if_pos rfl], call_neg, hvi]
      (repeat' split) <;> omega
    · have hin : uFun i i x = x := by
        rw [uFun, if_neg (by omega), if_neg (by omega), if_neg (by omega), if_neg (by omega)]
      rw [hin]
      by_cases hwxi : w.call x = i
      · rw [if_pos (hcond.2 (.inl (.inr hwxi))), hcyc (.inr hwxi), hwxi, uFun, if_pos rfl]
      · rw [show uFun i i (v.call x) = v.call x by
          rw [uFun, if_neg (by omega), if_neg (by omega), if_neg (by omega), if_neg (by omega)], hx']
        by_cases hP : x ∈ D ∨ (w.call x).toNat ∈ D
        · rw [if_pos hP, if_pos (hcond.2 (.inr hP))]
        · rw [if_neg hP, if_neg (by rw [hcond]; tauto)]

theorem conjugateLoop_spec {n : Nat} {w : SPerm} (hw : UnsignedInvolution n w) : ∀ {C D : List Nat} {v : SPerm},
    (∀ i ∈ D, i ∈ lowers n w) → (∀ i ∈ C, i ∈ lowers n w) → (D ++ C).Nodup → Signs w D v →
    ∃ u, conjugateLoop C v = some u ∧ Signs w (D ++ C) u := by
  intro C
  induction C with
  | nil => intro D v _ _ _ h; exact ⟨v, rfl, by rwa [List.append_nil]⟩
  | cons i C ih =>
    intro D v hD hC hn hv
    obtain ⟨t, h1, h2⟩ := reflectionS?_spec (mem_lowers.1 (hC i (by simp))).1.1 (le_refl i)
    have hiD : i ∉ D := by
      intro hc
      rw [List.nodup_append] at hn
      exact hn.2.2 i hc i (by simp) rfl
    have hst := conjugate_step hw hD hv (hC i (by simp)) hiD h2
    have hp : (D ++ i :: C).Perm ((i :: D) ++ C) := List.perm_middle
    obtain ⟨u, g1, g2⟩ := ih (D := i :: D) (fun j hj => by
      rcases List.mem_cons.1 hj with rfl | hj
      · exact hC j (by simp)
      · exact hD j hj) (fun j hj => hC j (by simp [hj])) (hp.nodup_iff.1 hn) hst
    refine ⟨u, ?_, ?_⟩
    · rw [conjugateLoop, h1]
      exact g1
    · intro x hx
      rw [g2 x hx]
      simp only [hp.mem_iff]

theorem Signs.abs {w v : SPerm} {D : List Nat} (h : Signs w D v) {x : Nat} (hx : 1 ≤ x) (hw : 0 < w.call x) :
    ((v.call x).natAbs : Int) = w.call x := by
  rw [h x hx]; split <;> omega

theorem Signs.mem {n : Nat} {w v : SPerm} (hw : UnsignedInvolution n w) {D : List Nat} (hD : ∀ i ∈ D, i ∈ lowers n w)
    (h : Signs w D v) {i : Nat} (hi : i ∈ lowers n w) : i ∈ D ↔ v.call i < 0 := by
  obtain ⟨h1, h2, h3⟩ := hw
  rw [mem_lowers] at hi
  have hwi := h2 i (by omega)
  rw [h i hi.1.1]
  constructor
  · intro hc
    rw [if_pos (.inl hc)]
    omega
  · intro hc
    split at hc
    · rename_i hP
      rcases hP with hP | hP
      · exact hP
      · have g1 := mem_lowers.1 (hD _ hP)
        rw [show (((w.call i).toNat : Nat) : Int) = w.call i by omega, h3] at g1
        have : (w.call i).toNat = i := by omega
        rwa [this] at hP
    · omega

/-- The permutation of the absolute values. -/
theorem exists_abs {n : Nat} {v : SPerm} (hr : v.rank ≤ n) (hv : ∀ a, v.call (v.call a) = a) :
    ∃ w, UnsignedInvolution n w ∧ ∀ x : Nat, 1 ≤ x → w.call x = (v.call x).natAbs := by
  obtain ⟨l, hl⟩ : ∃ l, absLine (line v.call n) = l := ⟨_, rfl⟩
  have hll : l.length = n := by rw [← hl, absLine, List.length_map, length_line]
  have hone : isOneline l = true := by
    have h1 := (isOneline_iff_perm _).1 (isOneline_call hr)
    rw [hl, length_line] at h1
    rw [isOneline_iff_perm, hll, ← hl, absLine, absLine, List.map_map]
    rw [← hl, absLine] at h1
    simpa [Function.comp_def] using h1
  obtain ⟨w, h1, h2, h3⟩ := construct_of_isOneline hone
  rw [hll] at h2 h3
  have hw : ∀ x : Nat, 1 ≤ x → w.call x = (v.call x).natAbs := by
    intro x hx
    by_cases hxn : x ≤ n
    · have h4 : (line w.call n)[x - 1]'(by rw [length_line]; omega) = ((line v.call n)[x - 1]'(by rw [length_line]; omega)).natAbs := by
        have h5 : line w.call n = absLine (line v.call n) := by rw [hl, ← h3]
        simp only [h5, absLine, List.getElem_map]
      rw [getElem_line, getElem_line, show (((x - 1 : Nat) : Int) + 1) = (x : Int) by omega] at h4
      exact h4
    · rw [(call_odd w).out x (by omega), (call_odd v).out x (by omega)]
      omega
  have hne : ∀ x : Nat, 1 ≤ x → v.call x ≠ 0 := fun x hx => (call_odd v).ne_zero (by omega)
  refine ⟨w, ⟨h2, fun x hx => ?_, inv_of_nat (fun x hx => ?_)⟩, hw⟩
  · have := hw x.toNat (by omega)
    rw [show ((x.toNat : Nat) : Int) = x by omega] at this
    have := hne x.toNat (by omega)
    rw [show ((x.toNat : Nat) : Int) = x by omega] at this
    omega
  · rw [hw x hx]
    have h4 := hne x hx
    rw [hw _ (by omega)]
    have h5 := hv x
    rcases lt_or_gt_of_ne h4 with h6 | h6
    · rw [show (((v.call x).natAbs : Nat) : Int) = -v.call x by omega, call_neg, h5]
      omega
    · rw [show (((v.call x).natAbs : Nat) : Int) = v.call x by omega, h5]
      omega

theorem Signs.involution {n : Nat} {w v : SPerm} (hw : UnsignedInvolution n w) {D : List Nat} (hD : ∀ i ∈ D, i ∈ lowers n w)
    (h : Signs w D v) : v.rank ≤ n ∧ ∀ a, v.call (v.call a) = a := by
  obtain ⟨h1, h2, h3⟩ := hw
  have hod := (call_odd w).mono h1
  constructor
  · by_contra hc
    have hvr := h v.rank (by omega)
    rw [hod.out v.rank (by omega), show ((v.rank : Int)).toNat = v.rank by omega, if_neg] at hvr
    · have h5 := v.trimmed
      rw [oneline_eq_line] at h5
      apply h5
      rw [List.getLast?_eq_getElem?, length_line, List.getElem?_eq_getElem (by rw [length_line]; omega), getElem_line,
        show (((v.rank - 1 : Nat) : Int) + 1) = (v.rank : Int) by omega, hvr]
    · rintro (h4 | h4) <;> (have := mem_lowers.1 (hD _ h4); omega)
  · refine inv_of_nat (fun x hx => ?_)
    have hwx := h2 x (by omega)
    have e1 := h x hx
    have e2 := h (w.call x).toNat (by omega)
    rw [show (((w.call x).toNat : Nat) : Int) = w.call x by omega, h3, show ((x : Int)).toNat = x by omega] at e2
    rw [e1]
    by_cases hP : x ∈ D ∨ (w.call x).toNat ∈ D
    · rw [if_pos hP, call_neg, e2, if_pos hP.symm]
      omega
    · rw [if_neg hP, e2, if_neg (fun hc => hP hc.symm)]

/-- The signs of an involution. -/
theorem signs_of_abs {n : Nat} {v w : SPerm} (hr : v.rank ≤ n) (hv : ∀ a, v.call (v.call a) = a) (hw : UnsignedInvolution n w)
    (ha : ∀ x : Nat, 1 ≤ x → w.call x = (v.call x).natAbs) :
    Signs w ((lowers n w).filter (fun i : Nat => v.call i < 0)) v := by
  obtain ⟨h1, h2, h3⟩ := hw
  have hm : ∀ i : Nat, i ∈ (lowers n w).filter (fun i : Nat => v.call i < 0) ↔ ((1 ≤ i ∧ i ≤ n) ∧ (i : Int) ≤ w.call i) ∧ v.call i < 0 := by
    intro i
    rw [List.mem_filter, mem_lowers]
    simp
  intro x hx
  have e1 := ha x hx
  have hwx := h2 x (by omega)
  have hin : v.call x < 0 → x ≤ n ∧ w.call x ≤ n := by
    intro hneg
    have : x ≤ n := by
      by_contra hc
      rw [(call_odd v).out x (by omega)] at hneg
      omega
    have := ((call_odd w).mono h1).bound x (by omega)
    omega
  -- the sign is the same at both ends of a cycle
  have hsgn : v.call x < 0 ↔ v.call (w.call x) < 0 := by
    have h5 := hv x
    have h6 : v.call x ≠ 0 := (call_odd v).ne_zero (by omega)
    rcases lt_or_gt_of_ne h6 with h7 | h7
    · rw [show w.call x = -v.call x by omega, call_neg, h5]
      omega
    · rw [show w.call x = v.call x by omega, h5]
      omega
  have key : (x ∈ (lowers n w).filter (fun i : Nat => v.call i < 0) ∨
      (w.call x).toNat ∈ (lowers n w).filter (fun i : Nat => v.call i < 0)) ↔ v.call x < 0 := by
    rw [hm, hm, show (((w.call x).toNat : Nat) : Int) = w.call x by omega, h3]
    constructor
    · rintro (⟨_, h⟩ | ⟨_, h⟩)
      · exact h
      · exact hsgn.2 h
    · intro h
      obtain ⟨g1, g2⟩ := hin h
      by_cases hle : (x : Int) ≤ w.call x
      · exact .inl ⟨⟨⟨hx, g1⟩, hle⟩, h⟩
      · exact .inr ⟨⟨⟨by omega, by omega⟩, by omega⟩, hsgn.1 h⟩
  by_cases hneg : v.call x < 0
  · rw [if_pos (key.2 hneg)]; omega
  · rw [if_neg (fun hc => hneg (key.1 hc))]; omega

theorem signedInvolutionsOver?_spec {n : Nat} {w : SPerm} (hw : UnsignedInvolution n w) :
    ∃ R, signedInvolutionsOver? n w = some R ∧ R.Nodup ∧ ∀ v, v ∈ R ↔ (v.rank ≤ n ∧ ∀ a, v.call (v.call a) = a) ∧
      ∀ x : Nat, 1 ≤ x → w.call x = (v.call x).natAbs := by
  have hln : (lowers n w).Nodup := (nodup_ones n).filter _
  obtain ⟨L, hL⟩ : ∃ L, (List.range ((lowers n w).length + 1)).flatMap (fun k => combinations (lowers n w) k) = L := ⟨_, rfl⟩
  have hmem : ∀ C, C ∈ L ↔ C.Sublist (lowers n w) := by
    intro C
    rw [← hL, List.mem_flatMap]
    constructor
    · rintro ⟨k, _, hC⟩
      exact ((mem_combinations _ _ _).1 hC).1
    · intro h
      exact ⟨C.length, List.mem_range.2 (by have := h.length_le; omega), (mem_combinations _ _ _).2 ⟨h, rfl⟩⟩
  have hid : Signs w [] w := by intro x hx; simp
  have hone : ∀ C ∈ L, ∃ u, conjugateLoop C w = some u ∧ Signs w C u := by
    intro C hC
    rw [hmem] at hC
    obtain ⟨u, g1, g2⟩ := conjugateLoop_spec hw (D := []) (C := C) (by simp) (fun i hi => hC.subset hi) (by simpa using hC.nodup hln) hid
    exact ⟨u, g1, by simpa using g2⟩
  obtain ⟨R, r1, r2, r3⟩ := mapM_option_exists (f := fun C => conjugateLoop C w) (l := L) (fun C hC => by
    obtain ⟨u, hu, _⟩ := hone C hC
    exact ⟨u, hu⟩)
  refine ⟨R, ?_, r3 (hL ▸ nodup_allCombinations _ hln _) (fun C hC C' hC' he => ?_), fun v => ?_⟩
  · rw [← r1, ← hL]; rfl
  · obtain ⟨u, g1, g2⟩ := hone C hC
    obtain ⟨u', g1', g2'⟩ := hone C' hC'
    rw [hmem] at hC hC'
    simp only [g1, g1', Option.some.injEq] at he
    subst he
    rw [sublist_eq_filter hln hC, sublist_eq_filter hln hC']
    refine List.filter_congr (fun i hi => ?_)
    rw [decide_eq_decide, g2.mem hw (fun j hj => hC.subset hj) hi, g2'.mem hw (fun j hj => hC'.subset hj) hi]
  · rw [r2]
    constructor
    · rintro ⟨C, hC, he⟩
      obtain ⟨u, g1, g2⟩ := hone C hC
      rw [hmem] at hC
      rw [g1, Option.some.injEq] at he
      subst he
      exact ⟨g2.involution hw (fun j hj => hC.subset hj), fun x hx => (g2.abs hx (hw.2.1 x (by omega))).symm⟩
    · rintro ⟨⟨h1, h2⟩, h3⟩
      have hs := signs_of_abs h1 h2 hw h3
      have hC : (lowers n w).filter (fun i : Nat => v.call i < 0) ∈ L := by rw [hmem]; exact List.filter_sublist
      obtain ⟨u, g1, g2⟩ := hone _ hC
      refine ⟨_, hC, ?_⟩
      rw [g1, Option.some.injEq]
      exact ext_nat (fun x hx => by rw [g2 x hx, hs x hx])

theorem signedInvolutions?_spec (n : Nat) (fpf : Bool) (hf : fpf = true → n % 2 = 0) :
    ∃ N R, (∀ fuel, N ≤ fuel → involutions? fuel n true fpf = some R) ∧ R.Nodup ∧
      ∀ v, v ∈ R ↔ v.rank ≤ n ∧ ∀ a, v.call (v.call a) = a := by
  obtain ⟨N, W, h1, h2, h3⟩ := unsignedInvolutions?_spec (n := n) (fpf := false) (by simp)
  have hW : ∀ w ∈ W, UnsignedInvolution n w := fun w hw => ((h3 w).1 hw).1
  obtain ⟨M, r, g1, g2⟩ := mapM_fuel (f := fun _ w => signedInvolutionsOver? n w) (l := W)
    (g := fun w y => y.Nodup ∧ ∀ v, v ∈ y ↔ (v.rank ≤ n ∧ ∀ a, v.call (v.call a) = a) ∧
      ∀ x : Nat, 1 ≤ x → w.call x = (v.call x).natAbs) (fun w hw => by
      obtain ⟨R, k1, k2⟩ := signedInvolutionsOver?_spec (hW w hw)
      exact ⟨0, R, fun _ _ => k1, k2⟩)
  obtain ⟨k1, k2⟩ := flatten_classes g2 h2 (fun w hw w' hw' v hv hv' =>
    ext_nat (fun x hx => by rw [hv.2 x hx, hv'.2 x hx]))
  refine ⟨N, r.flatten, fun fuel hfu => ?_, k1, fun v => ?_⟩
  · rw [involutions?, if_neg (by intro hc; have := hf hc.2; omega), if_pos rfl, h1 fuel hfu]
    have := g1 M le_rfl
    simp only [Option.bind_eq_bind, Option.bind_some]
    rw [this]
    rfl
  · rw [k2]
    constructor
    · rintro ⟨w, _, hv, _⟩
      exact hv
    · intro hv
      obtain ⟨w, k3, k4⟩ := exists_abs hv.1 hv.2
      exact ⟨w, (h3 w).2 ⟨k3, by simp⟩, hv, k4⟩

/-! ### involutions without fixed points, by levels -/

theorem minfpf?_eq {n : Nat} (hn : n % 2 = 0) : minfpf? n = some (fpfStart n) := by
  have h := fpf_fpfStart hn
  rw [minfpf?, if_pos hn, ← construct_call (show (fpfStart n).rank ≤ n by rw [h.rank])]
  congr 1
  rw [caller, List.map_map, line]
  refine List.map_congr_left (fun k hk => ?_)
  rw [List.mem_range] at hk
  rw [fpfStart_call hn _ (by omega), if_pos (by omega)]
  simp only [Function.comp]
  (repeat' split) <;> omega

theorem desc_pos {w : SPerm} {i : Nat} (h : 1 ≤ i) : Desc w.call i ↔ w.call ((i : Int) + 1) < w.call i := by
  rw [Desc, lo, if_neg (by omega)]

theorem mem_nextCrop {n : Nat} {crop : List SPerm} {z' : SPerm} : z' ∈ nextCrop n crop ↔
    ∃ z ∈ crop, ∃ i : Nat, (1 ≤ i ∧ i < n) ∧ z.call i < z.call ((i : Int) + 1) ∧ conj z i = z' := by
  simp only [nextCrop, List.mem_flatMap, List.mem_map, List.mem_filter, List.mem_range, decide_eq_true_eq]
  constructor
  · rintro ⟨z, hz, i, ⟨h1, h2, h3⟩, h4⟩
    exact ⟨z, hz, i, ⟨h2, h1⟩, h3, h4⟩
  · rintro ⟨z, hz, i, ⟨h1, h2⟩, h3, h4⟩
    exact ⟨z, hz, i, ⟨h2, h1, h3⟩, h4⟩

/-- An ascent is conjugated to a descent. -/
theorem Fpf.desc_conj {n : Nat} {z : SPerm} (h : Fpf n z) {i : Nat} (h1 : 1 ≤ i) (h2 : i < n) (ha : z.call i < z.call ((i : Int) + 1)) :
    Desc (Verif.Perm.conj z i).call i ∧ (Verif.Perm.conj z i).call i ≠ (i : Int) + 1 := by
  have hi0 : i ≠ 0 := by omega
  have e1 : z.call i ≠ i := h.ne i (by omega) (by omega)
  have e2 : z.call ((i : Int) + 1) ≠ (i : Int) + 1 := h.ne _ (by omega) (by omega)
  have e3 : z.call i ≠ (i : Int) + 1 := by
    intro hc
    have := h.inv i
    rw [hc] at this
    omega
  have e4 : z.call ((i : Int) + 1) ≠ i := by
    intro hc
    have := h.inv ((i : Int) + 1)
    rw [hc] at this
    omega
  have p1 := h.pos i (by omega)
  have p2 := h.pos ((i : Int) + 1) (by omega)
  have f1 : sFun i (i : Int) = (i : Int) + 1 := by unfold sFun; (repeat' split) <;> omega
  have f2 : sFun i ((i : Int) + 1) = i := by unfold sFun; (repeat' split) <;> omega
  have f3 : sFun i (z.call i) = z.call i := by unfold sFun; (repeat' split) <;> omega
  have f4 : sFun i (z.call ((i : Int) + 1)) = z.call ((i : Int) + 1) := by unfold sFun; (repeat' split) <;> omega
  rw [desc_pos h1, conj_call, conj_call, f1, f2, f3, f4]
  exact ⟨ha, e2⟩

/-- The list contains exactly the involutions of level `t`. -/
def LevelOk (n t : Nat) (crop : List SPerm) : Prop := crop.Nodup ∧ ∀ z, z ∈ crop ↔ Fpf n z ∧ len z = n / 2 + 2 * t

theorem levelOk_next {ord : List SPerm → List SPerm} (ho : ∀ l, (ord l).Perm l) {n t : Nat} {crop : List SPerm} (h : LevelOk n t crop) :
    LevelOk n (t + 1) (ord (nextCrop n crop).dedup) := by
  refine ⟨(ho _).nodup_iff.2 (List.nodup_dedup _), fun z' => ?_⟩
  rw [(ho _).mem_iff, List.mem_dedup, mem_nextCrop]
  constructor
  · rintro ⟨z, hz, i, ⟨h1, h2⟩, h3, rfl⟩
    obtain ⟨g1, g2⟩ := (h.2 z).1 hz
    have hf := g1.conj h1 (show i + 1 ≤ n by omega)
    obtain ⟨k1, k2⟩ := g1.desc_conj h1 h2 h3
    have := hf.len_conj_of_desc k1 k2
    rw [conj_conj] at this
    exact ⟨hf, by omega⟩
  · rintro ⟨g1, g2⟩
    have hne : z' ≠ fpfStart n := by
      rintro rfl
      have hn : n % 2 = 0 := by have := g1.even.2; omega
      rw [len_fpfStart hn] at g2
      omega
    obtain ⟨i, hi, hc⟩ : ∃ i, Desc z'.call i ∧ z'.call i ≠ (i : Int) + 1 := by
      by_contra hcon
      push Not at hcon
      exact hne (g1.eq_start hcon)
    obtain ⟨k1, k2⟩ := g1.desc_lt hi
    have k3 := g1.len_conj_of_desc hi hc
    have k4 := (g1.not_desc_conj hi hc).1
    refine ⟨conj z' i, (h.2 _).2 ⟨g1.conj k1 k2, by omega⟩, i, ⟨k1, by omega⟩, ?_, conj_conj _ _⟩
    rw [desc_pos k1] at k4
    have : (conj z' i).call i ≠ (conj z' i).call ((i : Int) + 1) := fun hc => by
      have := call_inj hc
      omega
    omega

theorem cropLoop_spec {ord : List SPerm → List SPerm} (ho : ∀ l, (ord l).Perm l) {n M : Nat} (hM : ∀ z, Fpf n z → len z ≤ M) (fuel : Nat) :
    ∀ {t : Nat} {crop : List SPerm}, LevelOk n t crop → M < n / 2 + 2 * (t + fuel) →
    ∃ R, cropLoop ord n (fuel + 1) crop = some R ∧ R.Nodup ∧ (∀ z, z ∈ R ↔ Fpf n z ∧ n / 2 + 2 * t ≤ len z) ∧
      R.Pairwise (fun y z => len y ≤ len z) := by
  have hlev : ∀ z, Fpf n z → ∃ k, len z = n / 2 + 2 * k := by
    intro z hz
    obtain ⟨a, _, h⟩ := hz.len
    exact ⟨_, h⟩
  have hempty : ∀ {t : Nat}, LevelOk n t [] → ∀ z, Fpf n z → len z < n / 2 + 2 * t := by
    intro t ht z hz
    by_contra hc
    obtain ⟨k, hk⟩ := hlev z hz
    -- go down from `z` to level `t`
    have key : ∀ d (y : SPerm), Fpf n y → len y = n / 2 + 2 * (t + d) → False := by
      intro d
      induction d with
      | zero =>
        intro y hy hl
        have := (ht.2 y).2 ⟨hy, by omega⟩
        simp at this
      | succ d ih =>
        intro y hy hl
        have hn : n % 2 = 0 := by have := hy.even.2; omega
        have hne : y ≠ fpfStart n := by
          rintro rfl
          rw [len_fpfStart hn] at hl
          omega
        obtain ⟨i, hi, hc⟩ : ∃ i, Desc y.call i ∧ y.call i ≠ (i : Int) + 1 := by
          by_contra hcon
          push Not at hcon
          exact hne (hy.eq_start hcon)
        obtain ⟨k1, k2⟩ := hy.desc_lt hi
        have k3 := hy.len_conj_of_desc hi hc
        exact ih _ (hy.conj k1 k2) (by omega)
    exact key (k - t) z hz (by omega)
  induction fuel with
  | zero =>
    intro t crop h hlt
    have : crop = [] := by
      rw [List.eq_nil_iff_forall_not_mem]
      intro z hz
      obtain ⟨g1, g2⟩ := (h.2 z).1 hz
      have := hM z g1
      omega
    subst this
    refine ⟨[], rfl, List.nodup_nil, fun z => ?_, List.Pairwise.nil⟩
    constructor
    · intro hz; simp at hz
    · rintro ⟨g1, g2⟩
      have := hempty h z g1
      omega
  | succ fuel ih =>
    intro t crop h hlt
    rw [cropLoop]
    by_cases hc : crop = []
    · subst hc
      rw [if_pos rfl]
      refine ⟨[], rfl, List.nodup_nil, fun z => ?_, List.Pairwise.nil⟩
      constructor
      · intro hz; simp at hz
      · rintro ⟨g1, g2⟩
        have := hempty h z g1
        omega
    · rw [if_neg hc]
      obtain ⟨R, r1, r2, r3, r4⟩ := ih (levelOk_next ho h) (by omega)
      rw [r1]
      refine ⟨crop ++ R, rfl, ?_, fun z => ?_, ?_⟩
      · rw [List.nodup_append]
        refine ⟨h.1, r2, ?_⟩
        rintro a ha b hb rfl
        have g1 := ((h.2 a).1 ha).2
        have g2 := ((r3 a).1 hb).2
        omega
      · rw [List.mem_append, h.2, r3]
        constructor
        · rintro (⟨g1, g2⟩ | ⟨g1, g2⟩)
          · exact ⟨g1, by omega⟩
          · exact ⟨g1, by omega⟩
        · rintro ⟨g1, g2⟩
          obtain ⟨k, hk⟩ := hlev z g1
          by_cases hkt : k = t
          · exact .inl ⟨g1, by omega⟩
          · exact .inr ⟨g1, by omega⟩
      · rw [List.pairwise_append]
        refine ⟨?_, r4, fun a ha b hb => ?_⟩
        · refine List.Pairwise.imp_of_mem (R := fun _ _ => True) ?_ (List.pairwise_of_forall (fun _ _ => trivial))
          intro a b ha hb _
          have g1 := ((h.2 a).1 ha).2
          have g2 := ((h.2 b).1 hb).2
          omega
        · have g1 := ((h.2 a).1 ha).2
          have g2 := ((r3 b).1 hb).2
          omega

theorem cropLoop_mono {ord : List SPerm → List SPerm} {n : Nat} (fuel : Nat) : ∀ {crop R : List SPerm},
    cropLoop ord n fuel crop = some R → cropLoop ord n (fuel + 1) crop = some R := by
  induction fuel with
  | zero => intro crop R h; simp [cropLoop] at h
  | succ fuel ih =>
    intro crop R h
    rw [cropLoop] at h ⊢
    split at h
    · rename_i hc
      rw [if_pos hc]
      exact h
    · rename_i hc
      rw [if_neg hc]
      rw [Option.map_eq_some_iff] at h ⊢
      obtain ⟨a, ha, rfl⟩ := h
      exact ⟨a, ih ha, rfl⟩

theorem fpfInvolutions?_spec {ord : List SPerm → List SPerm} (ho : ∀ l, (ord l).Perm l) {n : Nat} (hn : n % 2 = 0) :
    ∃ N R, (∀ fuel, N ≤ fuel → fpfInvolutions? ord fuel n = some R) ∧ R.Nodup ∧ (∀ z, z ∈ R ↔ Fpf n z) ∧
      R.Pairwise (fun y z => len y ≤ len z) := by
  obtain ⟨L, _, _, hL⟩ := allPerms?_false n
  obtain ⟨M, hM⟩ : ∃ M, ∀ z, Fpf n z → len z ≤ M := by
    refine ⟨(L.map len).foldl max 0, fun z hz => ?_⟩
    refine le_foldl_max 0 (.inl (List.mem_map.2 ⟨z, ?_, rfl⟩))
    rw [hL]
    exact ⟨by rw [hz.rank], hz.pos⟩
  have hz := fpf_fpfStart hn
  have h0 : LevelOk n 0 [fpfStart n] := by
    refine ⟨by simp, fun z => ?_⟩
    rw [List.mem_singleton]
    constructor
    · rintro rfl
      exact ⟨hz, by rw [len_fpfStart hn]; omega⟩
    · rintro ⟨g1, g2⟩
      refine g1.eq_start (fun i hi => ?_)
      by_contra hc
      obtain ⟨k1, k2⟩ := g1.desc_lt hi
      have k3 := g1.len_conj_of_desc hi hc
      have := (g1.conj k1 k2).len_ge
      omega
  obtain ⟨R, r1, r2, r3, r4⟩ := cropLoop_spec ho hM (M + 1) h0 (by omega)
  refine ⟨M + 2, R, fun fuel hf => ?_, r2, fun z => ?_, r4⟩
  · rw [fpfInvolutions?, if_neg (by omega), minfpf?_eq hn, Option.bind_some]
    obtain ⟨k, rfl⟩ := Nat.exists_eq_add_of_le hf
    clear hf
    induction k with
    | zero => exact r1
    | succ k ih => exact cropLoop_mono _ ih
  · rw [r3]
    refine and_iff_left_of_imp (fun g => ?_)
    have := g.len_ge
    omega

end Verif.Perm
