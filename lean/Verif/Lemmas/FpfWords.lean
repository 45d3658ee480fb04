import Verif.Lemmas.Fpf
import Verif.Spec.Fpf

/-! Facts about the lists of fpf-involution words and atoms. -/

attribute [-simp] List.getD_eq_getElem?_getD

namespace Verif.Perm

open Verif.PermSpec

theorem fpf_iff_spec {w : SPerm} : FpfInvolution w ↔ Fpf w.rank w := by
  constructor
  · intro h
    have ho := call_odd w
    refine ⟨?_, ho, fun a ha => ?_, fun a h1 h2 => (h a h1 h2).2.1⟩
    · have hp : ∀ a, 0 < a → w.call (w.call a) = a := by
        intro a ha
        by_cases h2 : a ≤ w.rank
        · exact (h a ha h2).2.2
        · rw [ho.out a (by omega), ho.out a (by omega)]
      intro a
      rcases lt_trichotomy a 0 with ha | ha | ha
      · have := hp (-a) (by omega)
        rw [ho.neg, ho.neg] at this
        omega
      · rw [ha, ho.zero, ho.zero]
      · exact hp a ha
    · by_cases h2 : a ≤ w.rank
      · exact (h a ha h2).1
      · rw [ho.out a (by omega)]
        exact ha
  · intro h x h1 h2
    exact ⟨h.pos x h1, h.ne x h1 h2, h.inv x⟩

/-! ### words of different sizes -/

/-- `FpfExtends` with the two ranks as parameters. -/
def FpfExt (m : Nat) (v : SPerm) (n : Nat) (w : SPerm) : Prop :=
  m ≤ n ∧ ∀ x : Int, 0 < x →
    w.call x = if x ≤ m then v.call x else if x ≤ n then (if x % 2 = 1 then x + 1 else x - 1) else x

theorem ext_pos {u v : SPerm} (h : ∀ x : Int, 0 < x → u.call x = v.call x) : u = v := by
  apply ext_call
  intro a
  rcases lt_trichotomy a 0 with ha | ha | ha
  · have := h (-a) (by omega)
    rw [(call_odd u).neg, (call_odd v).neg] at this
    omega
  · rw [ha, (call_odd u).zero, (call_odd v).zero]
  · exact h a ha

theorem fpfExt_succ {m n : Nat} (hn : n % 2 = 0) (hmn : m ≤ n) {v u : SPerm} (hu : Fpf n u) :
    FpfExt m v (n + 2) (mul u (s (n + 1))) ↔ FpfExt m v n u := by
  have hc := call_mul_tail hu.odd
  constructor
  · rintro ⟨h1, h2⟩
    refine ⟨hmn, fun x hx => ?_⟩
    by_cases hxn : x ≤ n
    · have := h2 x hx
      rw [hc, if_pos (by omega)] at this
      rw [this]
      have : x ≤ ((n + 2 : Nat) : Int) := by omega
      simp only [if_pos hxn, if_pos this]
    · rw [hu.odd.out x (by omega), if_neg (by omega), if_neg hxn]
  · rintro ⟨h1, h2⟩
    refine ⟨by omega, fun x hx => ?_⟩
    rw [hc]
    by_cases hxn : x ≤ n
    · have : x ≤ ((n + 2 : Nat) : Int) := by omega
      rw [if_pos (by omega), h2 x hx]
      simp only [if_pos hxn, if_pos this]
    · rw [if_neg (by omega), if_neg (by omega)]
      unfold sFun
      (repeat' split) <;> omega

theorem fpfRun_ext {m : Nat} (hm : m % 2 = 0) {a : List Nat} (hl : ∀ i ∈ a, 1 ≤ i ∧ i + 1 ≤ m) (k : Nat) (w : SPerm)
    (hw : Fpf (m + 2 * k) w) :
    fpfRun (m + 2 * k) a = some w ↔ ∃ v, fpfRun m a = some v ∧ FpfExt m v (m + 2 * k) w := by
  induction k generalizing w with
  | zero =>
    rw [Nat.mul_zero, Nat.add_zero] at hw ⊢
    constructor
    · intro h
      refine ⟨w, h, le_refl _, fun x hx => ?_⟩
      split
      · rfl
      · rw [hw.odd.out x (by omega)]
    · rintro ⟨v, h1, -, h2⟩
      rw [h1, Option.some.injEq]
      apply ext_pos
      intro x hx
      rw [h2 x hx]
      split
      · rfl
      · exact (fpfRun_fpf hm hl h1).odd.out x (by omega)
  | succ k ih =>
    rw [show m + 2 * (k + 1) = m + 2 * k + 2 by omega] at hw ⊢
    rw [fpfRun_succ (by omega) (fun i hi => by have := hl i hi; omega)]
    constructor
    · intro h
      rw [Option.map_eq_some_iff] at h
      obtain ⟨u, h1, h2⟩ := h
      have hu : Fpf (m + 2 * k) u := fpfRun_fpf (by omega) (fun i hi => by have := hl i hi; omega) h1
      obtain ⟨v, h3, h4⟩ := (ih u hu).1 h1
      refine ⟨v, h3, ?_⟩
      rw [← h2]
      exact (fpfExt_succ (by omega) (by omega) hu).2 h4
    · rintro ⟨v, h1, h2⟩
      have ht : w.call ((m + 2 * k + 1 : Nat) : Int) = ((m + 2 * k + 2 : Nat) : Int) := by
        rw [h2.2 _ (by omega), if_neg (by omega), if_pos (by omega), if_pos (by omega)]
        push_cast
        omega
      have hu := hw.of_tail ht
      have h3 : FpfExt m v (m + 2 * k) (mul w (s (m + 2 * k + 1))) := by
        rw [← fpfExt_succ (by omega) (by omega) hu, mul_s_s]
        exact h2
      rw [(ih _ hu).2 ⟨v, h1, h3⟩, Option.map_some, mul_s_s]

theorem le_foldl_max {l : List Nat} {x : Nat} (k : Nat) (h : x ∈ l ∨ x ≤ k) : x ≤ l.foldl max k := by
  induction l generalizing k with
  | nil =>
    rcases h with h | h
    · cases h
    · exact h
  | cons y l ih =>
    rw [List.foldl_cons]
    apply ih
    rcases h with h | h
    · rcases List.mem_cons.1 h with h | h
      · right; omega
      · left; exact h
    · right; omega

theorem foldl_max_le {l : List Nat} {k n : Nat} (h : ∀ x ∈ l, x ≤ n) (hk : k ≤ n) : l.foldl max k ≤ n := by
  induction l generalizing k with
  | nil => exact hk
  | cons y l ih =>
    rw [List.foldl_cons]
    have := h y (by simp)
    exact ih (fun x hx => h x (by simp [hx])) (by omega)

theorem fpfSize_even (a : List Nat) : fpfSize a % 2 = 0 := by
  unfold fpfSize
  dsimp only
  (repeat' split) <;> omega

theorem lt_fpfSize {a : List Nat} {i : Nat} (h : i ∈ a) : i + 1 ≤ fpfSize a := by
  have hne : a ≠ [] := List.ne_nil_of_mem h
  have := le_foldl_max 0 (Or.inl h)
  unfold fpfSize
  dsimp only
  rw [if_neg hne]
  split <;> omega

theorem fpfSize_le {a : List Nat} {n : Nat} (hn : n % 2 = 0) (h : ∀ i ∈ a, i + 1 ≤ n) : fpfSize a ≤ n := by
  unfold fpfSize
  by_cases ha : a = []
  · simp [ha]
  · rw [if_neg ha]
    obtain ⟨i, hi⟩ := List.exists_mem_of_ne_nil a ha
    have h1 := h i hi
    have := foldl_max_le (l := a) (k := 0) (n := n - 1) (fun x hx => by have := h x hx; omega) (by omega)
    dsimp only
    split <;> omega

/-- The words of the strict loop started at `1..n`, in terms of `from_fpf_involution_word`. -/
theorem fpfRun_iff {n : Nat} {w : SPerm} (hw : Fpf n w) (a : List Nat) :
    fpfRun n a = some w ↔ (∀ i ∈ a, 1 ≤ i) ∧ ∃ v, fromFpfInvolutionWord true a = some v ∧ FpfExtends v w := by
  have hn : n % 2 = 0 := by have := hw.even.2; omega
  have key : ∀ (h1 : ∀ i ∈ a, 1 ≤ i) (h2 : fpfSize a ≤ n), fpfRun n a = some w ↔
      ∃ v, fromFpfInvolutionWord true a = some v ∧ FpfExtends v w := by
    intro h1 h2
    have he := fpfSize_even a
    have hl : ∀ i ∈ a, 1 ≤ i ∧ i + 1 ≤ fpfSize a := fun i hi => ⟨h1 i hi, lt_fpfSize hi⟩
    obtain ⟨k, rfl⟩ : ∃ k, n = fpfSize a + 2 * k := ⟨(n - fpfSize a) / 2, by omega⟩
    rw [fpfRun_ext he hl k w hw]
    refine exists_congr (fun v => and_congr_right (fun hv => ?_))
    have := (fpfRun_fpf he hl hv).rank
    rw [FpfExtends, FpfExt, this, hw.rank]
  constructor
  · intro h
    have hl := fpfRun_letters hw h
    have h1 : ∀ i ∈ a, 1 ≤ i := fun i hi => (hl i hi).1
    exact ⟨h1, (key h1 (fpfSize_le hn (fun i hi => (hl i hi).2))).1 h⟩
  · rintro ⟨h1, v, hv, h2⟩
    refine (key h1 ?_).2 ⟨v, hv, h2⟩
    have := (fpfRun_fpf (fpfSize_even a) (fun i hi => ⟨h1 i hi, lt_fpfSize hi⟩) hv).rank
    have := h2.1
    rw [hw.rank] at this
    omega

/-! ### trimming -/

theorem oneline_eq (w : SPerm) : w.oneline = line w.call w.rank := by
  refine List.ext_getElem (by rw [length_line]; rfl) (fun k h1 h2 => ?_)
  rw [getElem_line, call_eq, lineCall, if_pos (by omega), List.getD_eq_getElem _ _ (by omega)]
  simp

theorem construct_oneline (w : SPerm) : construct w.oneline = some w := by
  obtain ⟨v, h1, h2⟩ := construct_spec w.ok
  rw [h1, ext_call (u := v) (v := w) h2]

theorem take_line (f : Int → Int) {m n : Nat} (h : m ≤ n) : (line f n).take m = line f m := by
  refine List.ext_getElem (by simp; omega) (fun k h1 h2 => ?_)
  rw [List.getElem_take, getElem_line, getElem_line]

theorem fpfTrim_spec (k : Nat) : ∀ {n : Nat} {w : SPerm}, Fpf n w → n ≤ 2 * k →
    ∃ m v, fpfTrim k w.oneline = .ok v.oneline ∧ Fpf m v ∧ (∀ a, fpfRun n a = some w ↔ fpfRun m a = some v) ∧
      (m ≠ 0 → v.call ((m - 1 : Nat) : Int) ≠ m) ∧ len w + m / 2 = len v + n / 2 := by
  induction k with
  | zero =>
    intro n w h hn
    exact ⟨n, w, rfl, h, fun _ => Iff.rfl, fun h' => by omega, rfl⟩
  | succ k ih =>
    intro n w h hn
    have he := h.even.2
    have hlen : w.oneline.length = n := h.rank
    by_cases h0 : n = 0
    · refine ⟨n, w, ?_, h, fun _ => Iff.rfl, fun h' => by omega, rfl⟩
      have : w.oneline = [] := List.length_eq_zero_iff.1 (by omega)
      rw [fpfTrim, if_pos this]
    · obtain ⟨m, rfl⟩ : ∃ m, n = m + 2 := ⟨n - 2, by omega⟩
      have hne : w.oneline ≠ [] := by
        intro h'
        rw [h'] at hlen
        simp at hlen
      rw [fpfTrim, if_neg hne, if_neg (by omega), hlen]
      have hline : w.oneline = line w.call (m + 2) := by rw [oneline_eq, h.rank]
      have e1 : w.oneline.getD (m + 2 - 2) 0 = w.call ((m + 1 : Nat) : Int) := by
        rw [List.getD_eq_getElem _ _ (by omega)]
        simp only [hline, getElem_line]
        congr 1
      have e2 : w.oneline.getD (m + 2 - 1) 0 = w.call ((m + 2 : Nat) : Int) := by
        rw [List.getD_eq_getElem _ _ (by omega)]
        simp only [hline, getElem_line]
        congr 1
      rw [e1, e2]
      by_cases hc : w.call ((m + 1 : Nat) : Int) = ((m + 2 : Nat) : Int)
      · have hc2 : w.call ((m + 2 : Nat) : Int) = ((m + 1 : Nat) : Int) := by rw [← hc, h.inv]
        rw [if_pos ⟨hc, by rw [hc2]; push_cast; omega⟩]
        have hu := h.of_tail hc
        have hul : w.oneline.take (m + 2 - 2) = (mul w (s (m + 1))).oneline := by
          rw [hline, take_line _ (by omega), oneline_eq (mul w (s (m + 1))), hu.rank, show m + 2 - 2 = m by omega]
          refine List.ext_getElem (by simp) (fun k h1 h2 => ?_)
          rw [length_line] at h1
          rw [getElem_line, getElem_line, call_mul, call_s]
          congr 1
          unfold sFun
          (repeat' split) <;> omega
        rw [hul]
        obtain ⟨p, v, h1, h2, h3, h4, h5⟩ := ih hu (by omega)
        refine ⟨p, v, h1, h2, fun a => (fpfRun_tail h hc a).trans (h3 a), h4, ?_⟩
        have hd : Desc w.call (m + 1) := by
          rw [Desc, lo, if_neg (by omega), hc]
          rw [show ((m + 1 : Nat) : Int) + 1 = ((m + 2 : Nat) : Int) by push_cast; omega, hc2]
          omega
        have := len_mul_s_of_desc hd
        omega
      · rw [if_neg (fun h' => hc h'.1)]
        refine ⟨m + 2, w, rfl, h, fun _ => Iff.rfl, fun _ => ?_, rfl⟩
        rw [show m + 2 - 1 = m + 1 by omega]
        exact hc

/-! ### lists -/

theorem mapM_ok {α β : Type} {f : α → Except Raised (List β)} {l : List α} (h : ∀ i ∈ l, ∃ r, f i = .ok r) :
    ∃ rs, l.mapM f = .ok rs ∧ ∀ x, x ∈ rs.flatten ↔ ∃ i ∈ l, ∃ r, f i = .ok r ∧ x ∈ r := by
  induction l with
  | nil => exact ⟨[], rfl, by simp⟩
  | cons i l ih =>
    obtain ⟨r, hr⟩ := h i (by simp)
    obtain ⟨rs, h1, h2⟩ := ih (fun j hj => h j (by simp [hj]))
    refine ⟨r :: rs, ?_, fun x => ?_⟩
    · rw [List.mapM_cons, hr, h1]
      rfl
    · rw [List.flatten_cons, List.mem_append, h2]
      constructor
      · rintro (hx | ⟨j, hj, r', h3, h4⟩)
        · exact ⟨i, by simp, r, hr, hx⟩
        · exact ⟨j, by simp [hj], r', h3, h4⟩
      · rintro ⟨j, hj, r', h3, h4⟩
        rcases List.mem_cons.1 hj with rfl | hj
        · rw [hr, Except.ok.injEq] at h3
          left
          rw [h3]
          exact h4
        · exact Or.inr ⟨j, hj, r', h3, h4⟩

theorem Fpf.len_ge {n : Nat} {w : SPerm} (h : Fpf n w) : n / 2 ≤ Verif.Perm.len w := by
  obtain ⟨a, -, h3⟩ := h.len
  omega

theorem fpf_mem_des {w : SPerm} {i : Nat} :
    i ∈ (rightDescents w).filter (fun i : Nat => w.call i ≠ (i : Int) + 1) ↔ Desc w.call i ∧ w.call i ≠ (i : Int) + 1 := by
  rw [List.mem_filter, mem_rightDescents]
  simp

theorem conj_fold (w : SPerm) (i : Nat) : mul (mul (s i) w) (s i) = conj w i := rfl

theorem getFpfInvolutionWords?_spec (fuel : Nat) : ∀ {n : Nat} {w : SPerm}, Fpf n w → len w < n / 2 + 2 * fuel →
    ∃ L, getFpfInvolutionWords? fuel w = .ok L ∧ ∀ a, a ∈ L ↔ fpfRun n a = some w := by
  induction fuel with
  | zero =>
    intro n w h hf
    have := h.len_ge
    omega
  | succ fuel ih =>
    intro n w h hf
    rw [getFpfInvolutionWords?, if_pos h.checks.1]
    obtain ⟨m, v, h1, h2, h3, h4, h5⟩ := fpfTrim_spec w.rank h (by rw [h.rank]; omega)
    have hb : ∀ {β : Type} (f : List Int → Except Raised β), (fpfTrim w.rank w.oneline >>= f) = f v.oneline := by
      intro β f
      rw [h1]
      rfl
    rw [hb]
    have hm : v.oneline.length = m := h2.rank
    by_cases h0 : m = 0
    · have : v.oneline = [] := List.length_eq_zero_iff.1 (by omega)
      rw [if_pos this]
      refine ⟨[[]], rfl, fun a => ?_⟩
      rw [h3 a, List.mem_singleton]
      have hv : v = fpfStart m := h2.eq_start (fun i hi => by have := h2.desc_lt hi; omega)
      constructor
      · rintro rfl
        rw [hv]
        rfl
      · intro ha
        have hl := fpfRun_letters h2 ha
        cases a with
        | nil => rfl
        | cons i a =>
          have := hl i (by simp)
          omega
    · have hne : v.oneline ≠ [] := by
        intro h'
        rw [h'] at hm
        simp at hm
        omega
      rw [if_neg hne, construct_oneline]
      simp only
      have hdes : ∀ i ∈ (rightDescents v).filter (fun i : Nat => v.call i ≠ (i : Int) + 1),
          ∃ r, getFpfInvolutionWords? fuel (conj v i) = .ok r ∧ ∀ a, a ∈ r ↔ fpfRun m a = some (conj v i) := by
        intro i hi
        rw [fpf_mem_des] at hi
        have e1 := h2.desc_lt hi.1
        have e2 := h2.len_conj_of_desc hi.1 hi.2
        exact ih (h2.conj e1.1 e1.2) (by omega)
      obtain ⟨rs, h6, h7⟩ := mapM_ok (f := fun i => (do
            let r ← getFpfInvolutionWords? fuel (mul (mul (s i) v) (s i))
            pure (r.map (fun a => a ++ [i])) : Except Raised (List (List Nat))))
          (l := (rightDescents v).filter (fun i : Nat => v.call i ≠ (i : Int) + 1)) (by
        intro i hi
        obtain ⟨r, hr, -⟩ := hdes i hi
        rw [conj_fold, hr]
        exact ⟨_, rfl⟩)
      rw [h6]
      refine ⟨rs.flatten, rfl, fun a => ?_⟩
      rw [h3 a, h7]
      constructor
      · rintro ⟨i, hi, r', hr', ha⟩
        obtain ⟨r, hr, hr2⟩ := hdes i hi
        rw [conj_fold, hr] at hr'
        have hr' : r.map (fun a => a ++ [i]) = r' := Except.ok.inj hr'
        rw [← hr', List.mem_map] at ha
        obtain ⟨b, hb, rfl⟩ := ha
        rw [fpf_mem_des] at hi
        exact (fpfRun_concat h2).2 ⟨hi.1, hi.2, (hr2 b).1 hb⟩
      · intro ha
        induction a using List.reverseRecOn with
        | nil =>
          exfalso
          rw [fpfRun, fromFpfLoop, Option.some.injEq] at ha
          have he := h2.even.2
          have := h4 h0
          rw [← ha, fpfStart_call (by omega) _ (by omega), if_pos (by omega), if_pos (by omega)] at this
          omega
        | append_singleton b i _ =>
          obtain ⟨e1, e2, e3⟩ := (fpfRun_concat h2).1 ha
          have hi := fpf_mem_des.2 ⟨e1, e2⟩
          obtain ⟨r, hr, hr2⟩ := hdes i hi
          refine ⟨i, hi, r.map (fun a => a ++ [i]), ?_, List.mem_map.2 ⟨b, (hr2 b).2 e3, rfl⟩⟩
          rw [conj_fold, hr]
          rfl

theorem getFpfAtoms?_spec (fuel : Nat) : ∀ {n : Nat} {w : SPerm}, Fpf n w → len w < n / 2 + 2 * fuel →
    ∃ L, getFpfAtoms? fuel w = .ok L ∧ ∀ x, x ∈ L ↔ ∃ a, fpfRun n a = some w ∧ x = fromWord a := by
  induction fuel with
  | zero =>
    intro n w h hf
    have := h.len_ge
    omega
  | succ fuel ih =>
    intro n w h hf
    rw [getFpfAtoms?, if_pos h.checks]
    have hdes : ∀ i ∈ (rightDescents w).filter (fun i : Nat => w.call i ≠ (i : Int) + 1),
        ∃ r, getFpfAtoms? fuel (conj w i) = .ok r ∧ ∀ x, x ∈ r ↔ ∃ a, fpfRun n a = some (conj w i) ∧ x = fromWord a := by
      intro i hi
      rw [fpf_mem_des] at hi
      have e1 := h.desc_lt hi.1
      have e2 := h.len_conj_of_desc hi.1 hi.2
      exact ih (h.conj e1.1 e1.2) (by omega)
    by_cases hnil : (rightDescents w).filter (fun i : Nat => w.call i ≠ (i : Int) + 1) = []
    · simp only [hnil]
      refine ⟨[identity], rfl, fun x => ?_⟩
      rw [List.mem_singleton]
      have hno : ∀ i, Desc w.call i → w.call i = (i : Int) + 1 := by
        intro i hi
        by_contra hc
        have := fpf_mem_des.2 ⟨hi, hc⟩
        rw [hnil] at this
        cases this
      have hs := h.eq_start hno
      constructor
      · rintro rfl
        exact ⟨[], by rw [hs]; rfl, rfl⟩
      · rintro ⟨a, ha, rfl⟩
        induction a using List.reverseRecOn with
        | nil => rfl
        | append_singleton b i _ =>
          obtain ⟨e1, e2, e3⟩ := (fpfRun_concat h).1 ha
          exact absurd (hno i e1) e2
    · simp only
      rw [if_pos hnil]
      obtain ⟨rs, h6, h7⟩ := mapM_ok (f := fun i => (do
            let r ← getFpfAtoms? fuel (mul (mul (s i) w) (s i))
            pure (r.map (fun x => mul x (s i))) : Except Raised (List SPerm)))
          (l := (rightDescents w).filter (fun i : Nat => w.call i ≠ (i : Int) + 1)) (by
        intro i hi
        obtain ⟨r, hr, -⟩ := hdes i hi
        rw [conj_fold, hr]
        exact ⟨_, rfl⟩)
      rw [h6]
      refine ⟨rs.flatten, rfl, fun x => ?_⟩
      rw [h7]
      constructor
      · rintro ⟨i, hi, r', hr', ha⟩
        obtain ⟨r, hr, hr2⟩ := hdes i hi
        rw [conj_fold, hr] at hr'
        have hr' : r.map (fun x => mul x (s i)) = r' := Except.ok.inj hr'
        rw [← hr', List.mem_map] at ha
        obtain ⟨y, hy, rfl⟩ := ha
        obtain ⟨b, hb, rfl⟩ := (hr2 y).1 hy
        rw [fpf_mem_des] at hi
        exact ⟨b ++ [i], (fpfRun_concat h).2 ⟨hi.1, hi.2, hb⟩, (fromWord_concat i b).symm⟩
      · rintro ⟨a, ha, rfl⟩
        induction a using List.reverseRecOn with
        | nil =>
          exfalso
          rw [fpfRun, fromFpfLoop, Option.some.injEq] at ha
          obtain ⟨i, hi⟩ := List.exists_mem_of_ne_nil _ hnil
          obtain ⟨a, ha', hl⟩ := h.len
          rw [fpf_mem_des] at hi
          have e2 := h.len_conj_of_desc hi.1 hi.2
          have e1 := h.desc_lt hi.1
          have e3 := (h.conj e1.1 e1.2).len_ge
          have he := h.even.2
          have := len_fpfStart (n := n) (by omega)
          rw [ha] at this
          omega
        | append_singleton b i _ =>
          obtain ⟨e1, e2, e3⟩ := (fpfRun_concat h).1 ha
          have hi := fpf_mem_des.2 ⟨e1, e2⟩
          obtain ⟨r, hr, hr2⟩ := hdes i hi
          refine ⟨i, hi, r.map (fun x => mul x (s i)), ?_, List.mem_map.2 ⟨fromWord b, (hr2 _).2 ⟨b, e3, rfl⟩, (fromWord_concat i b).symm⟩⟩
          rw [conj_fold, hr]
          rfl

/-- Atoms without words. -/
theorem fpf_atom_iff {n : Nat} {w : SPerm} (h : Fpf n w) (x : SPerm) :
    (∃ a, fpfRun n a = some w ∧ x = fromWord a) ↔
      mul (mul (inverse x) (fpfStart n)) x = w ∧ len x = fpfInvolutionLength w := by
  have hn : n % 2 = 0 := by have := h.even.2; omega
  have hM := fpf_fpfStart hn
  have hlM := len_fpfStart hn
  have hfl := h.fpfLength
  constructor
  · rintro ⟨a, ha, rfl⟩
    have h1 := fromFpfLoop_value ha
    have h2 := fromFpfLoop_true_len hM.inv ha
    have h3 := len_fromWord_le a
    refine ⟨h1.symm, ?_⟩
    obtain ⟨b, hb1, hb2⟩ := exists_reduced (fromWord a)
    obtain ⟨v, g1, g2, g3, g4, g5⟩ := fromFpfLoop_len hM.inv b
    rw [fromFpfLoop_false, hb1, ← h1, Option.some.injEq] at g1
    rw [← g1] at g3
    omega
  · rintro ⟨h1, h2⟩
    obtain ⟨b, hb1, hb2⟩ := exists_reduced x
    obtain ⟨v, g1, g2, g3, g4, g5⟩ := fromFpfLoop_len hM.inv b
    rw [fromFpfLoop_false, hb1, h1, Option.some.injEq] at g1
    rw [← g1] at g4
    exact ⟨b, g4.2 (by omega), hb1.symm⟩

end Verif.Perm
