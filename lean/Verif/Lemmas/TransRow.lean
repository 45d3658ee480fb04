import Verif.Lemmas.TransSteps
import Verif.Lemmas.DoublebarPoly
import Verif.Lemmas.SymTab

/-! The sums over semistandard tableaux behind the transposed dual functions: row by row, symmetry. -/

attribute [-simp] List.getD_eq_getElem?_getD

namespace Verif.Tableaux

open Tab Verif.Part Partition Symm

/-- The rules for semistandard tableaux. -/
def ssRules : Rules := { svRules with sv := false }

theorem ssRules_inj : Function.Injective ssRules.val := svRules_inj

theorem isTab_ssRules {n : Nat} {mu lam : List Nat} (hm : IsPartition mu) (hl : IsPartition lam) {T : Tab} :
    IsTab ssRules lam n mu T ↔ (∀ i, lam.getD i 0 ≤ mu.getD i 0) ∧ SV false n mu lam T := by
  have h1 : IsTab ssRules lam n mu T ↔ IsTab svRules lam n mu T ∧ ∀ b, ∀ x ∈ T.ent b, ∀ y ∈ T.ent b, x = y := by
    constructor
    · intro h
      exact ⟨⟨h.canon, h.sub, h.dom, h.range, fun hc => by simp [svRules] at hc, h.row, h.col, h.diag⟩, h.single rfl⟩
    · rintro ⟨h, hs⟩
      exact ⟨h.canon, h.sub, h.dom, h.range, fun _ => hs, h.row, h.col, h.diag⟩
  rw [h1, isTab_svRules hm hl]
  constructor
  · rintro ⟨⟨h0, h⟩, hs⟩
    refine ⟨h0, h.ne, h.dom, h.sorted, h.range, fun _ b => ?_, h.row, h.col⟩
    by_contra hc
    have hso := h.sorted b
    match hT : T.ent b, hc, hso with
    | [], hc, _ => exact hc (by simp)
    | [a], hc, _ => exact hc (by simp)
    | a :: c :: t, _, hso =>
      have h2 := hs b a (by rw [hT]; simp) c (by rw [hT]; simp)
      rw [List.pairwise_cons] at hso
      have := hso.1 c (by simp)
      omega
  · rintro ⟨h0, h⟩
    refine ⟨⟨h0, h.ne, h.dom, h.sorted, h.range, fun hc => by simp at hc, h.row, h.col⟩, ?_⟩
    intro b x hx y hy
    have hlen := h.single rfl b
    match hT : T.ent b, hlen with
    | [], _ => rw [hT] at hx; simp at hx
    | [a], _ =>
      rw [hT] at hx hy
      simp only [List.mem_singleton] at hx hy
      rw [hx, hy]

section Ring
variable {A : Type*} [CommRing A]

/-- A row of `d` equal letters. -/
def rowWt (x : A) : Nat → A
  | 0 => 1
  | d + 1 => x * (x + 1) ^ d

/-- The part of `rowWt` that depends on the middle shape. -/
def rowPart (p : Bool) (x : A) (e : Nat) : A := if p then (x + 1) ^ e else rowWt x e

theorem rowWt_add (x : A) (d e : Nat) : rowWt x (d + e) = rowWt x d * rowPart (decide (0 < d)) x e := by
  cases d with
  | zero => simp [rowWt, rowPart]
  | succ d =>
    rw [show d + 1 + e = d + e + 1 by ring, rowWt, rowWt, rowPart, if_pos (by simp), pow_add]
    ring

/-- The symmetric part of a row. -/
def rowCore (D : Nat) (p q : Bool) (x y : A) : A := ∑ j ∈ Finset.range (D + 1), rowPart p x (D - j) * rowPart q y j

theorem rowCore_flip (D : Nat) (p q : Bool) (x y : A) : rowCore D p q x y = rowCore D q p y x := by
  unfold rowCore
  rw [← Finset.sum_range_reflect]
  refine Finset.sum_congr rfl (fun j hj => ?_)
  rw [Finset.mem_range] at hj
  rw [show D - (D + 1 - 1 - j) = j by omega, show D + 1 - 1 - j = D - j by omega, mul_comm]

theorem rowCore_symm (D : Nat) (p q : Bool) (x y : A) : rowCore D p q x y = rowCore D p q y x := by
  have h : ∀ x y : A, rowCore D true false x y = hsum (D + 1) (x + 1) (y + 1) - hsum D (x + 1) (y + 1) := by
    intro x y
    unfold rowCore hsum
    rw [Finset.sum_range_succ', Finset.sum_range_succ' (fun k => (x + 1) ^ (D + 1 - 1 - k) * (y + 1) ^ k)]
    rw [add_sub_right_comm, ← Finset.sum_sub_distrib]
    congr 1
    · refine Finset.sum_congr rfl (fun k hk => ?_)
      rw [Finset.mem_range] at hk
      simp only [rowPart, if_true, Bool.false_eq_true, if_false, rowWt, Nat.add_sub_cancel]
      rw [show D - (k + 1) = D - 1 - k by omega]
      ring
    · simp [rowPart, rowWt]
  cases p <;> cases q
  · exact rowCore_flip D false false x y
  · rw [rowCore_flip, h, rowCore_flip D false true y x, h, hsum_symm (D + 1), hsum_symm D]
  · rw [h, h, hsum_symm (D + 1), hsum_symm D]
  · exact rowCore_flip D true true x y

theorem rowCore_lemma {m0 m1 r rp : Nat} (h3 : max m1 r ≤ min m0 rp) (x y : A) :
    ∑ k ∈ Finset.Icc (max m1 r) (min m0 rp), rowWt x (m0 - k) * rowWt y (k - r) =
      rowWt x (m0 - rp) * rowWt y (m1 - r) *
        rowCore (min m0 rp - max m1 r) (decide (0 < m0 - rp)) (decide (0 < m1 - r)) x y := by
  have hI : Finset.Icc (max m1 r) (min m0 rp) = Finset.Ico (max m1 r) (min m0 rp + 1) := by
    ext k; simp only [Finset.mem_Icc, Finset.mem_Ico]; omega
  rw [hI, Finset.sum_Ico_eq_sum_range, rowCore, Finset.mul_sum,
    show min m0 rp + 1 - max m1 r = min m0 rp - max m1 r + 1 by omega]
  refine Finset.sum_congr rfl (fun j hj => ?_)
  rw [Finset.mem_range] at hj
  rw [show m0 - (max m1 r + j) = (m0 - rp) + (min m0 rp - max m1 r - j) by omega,
    show max m1 r + j - r = (m1 - r) + j by omega, rowWt_add, rowWt_add]
  ring

theorem rows_symm (M : Nat) (m r : Nat → Nat) (hmM : m M = 0) (x y : A) :
    ∏ i ∈ Finset.range M, ∑ k ∈ Finset.Icc (max (m (i + 1)) (r i)) (min (m i) (prevRow r (m 0) i)),
        rowWt x (m i - k) * rowWt y (k - r i) =
    ∏ i ∈ Finset.range M, ∑ k ∈ Finset.Icc (max (m (i + 1)) (r i)) (min (m i) (prevRow r (m 0) i)),
        rowWt y (m i - k) * rowWt x (k - r i) := by
  by_cases hc : ∀ i ∈ Finset.range M, max (m (i + 1)) (r i) ≤ min (m i) (prevRow r (m 0) i)
  swap
  · push Not at hc
    obtain ⟨i, hi, hlt⟩ := hc
    rw [Finset.prod_eq_zero hi, Finset.prod_eq_zero hi]
    · rw [Finset.Icc_eq_empty (by omega)]; simp
    · rw [Finset.Icc_eq_empty (by omega)]; simp
  have key : ∀ x y : A, ∏ i ∈ Finset.range M,
      ∑ k ∈ Finset.Icc (max (m (i + 1)) (r i)) (min (m i) (prevRow r (m 0) i)),
        rowWt x (m i - k) * rowWt y (k - r i) =
      (∏ i ∈ Finset.range M, rowWt x (m i - prevRow r (m 0) i)) * (∏ i ∈ Finset.range M, rowWt y (m i - prevRow r (m 0) i)) *
      (∏ i ∈ Finset.range M, rowCore (min (m i) (prevRow r (m 0) i) - max (m (i + 1)) (r i))
          (decide (0 < m i - prevRow r (m 0) i)) (decide (0 < m (i + 1) - r i)) x y) := by
    intro x y
    rw [Finset.prod_congr rfl (fun i hi => rowCore_lemma (hc i hi) x y)]
    simp only [Finset.prod_mul_distrib]
    have e1 : ∏ i ∈ Finset.range M, rowWt y (m (i + 1) - r i) = ∏ i ∈ Finset.range M, rowWt y (m i - prevRow r (m 0) i) := by
      match M, hmM with
      | 0, _ => simp
      | M + 1, hmM =>
        rw [Finset.prod_range_succ, Finset.prod_range_succ' (fun i => rowWt y (m i - prevRow r (m 0) i)), hmM]
        simp [prevRow, rowWt]
    rw [e1]
  rw [key x y, key y x]
  rw [Finset.prod_congr rfl (fun i _ => rowCore_symm _ _ _ x y)]
  ring

/-! ### two strips -/

theorem mem_stripNil {mu nu : List Nat} (hm : IsPartition mu) : nu ∈ stripSet mu [] ↔ IsPartition nu ∧
    ∀ i, mu.getD (i + 1) 0 ≤ nu.getD i 0 ∧ nu.getD i 0 ≤ mu.getD i 0 := by
  rw [mem_stripSet hm ⟨List.Pairwise.nil, by simp⟩]
  simp [IsStrip, coreRow]

theorem sum_rows {mu rho : List Nat} (hm : IsPartition mu) (hr : IsPartition rho)
    (hrm : ∀ i, rho.getD i 0 ≤ mu.getD i 0) {M : Nat} (hM : mu.length + 1 = M) (F : Nat → Nat → A) :
    ∑ nu ∈ (stripSet mu []).filter (fun nu => rho ∈ stripSet nu []), ∏ i ∈ Finset.range M, F i (nu.getD i 0) =
    ∏ i ∈ Finset.range M, ∑ k ∈ Finset.Icc (max (mu.getD (i + 1) 0) (rho.getD i 0))
        (min (mu.getD i 0) (prevRow (fun i => rho.getD i 0) (mu.getD 0 0) i)), F i k := by
  classical
  have hmem : ∀ nu, nu ∈ (stripSet mu []).filter (fun nu => rho ∈ stripSet nu []) ↔ IsPartition nu ∧
      ∀ i, max (mu.getD (i + 1) 0) (rho.getD i 0) ≤ nu.getD i 0 ∧
        nu.getD i 0 ≤ min (mu.getD i 0) (prevRow (fun i => rho.getD i 0) (mu.getD 0 0) i) := by
    intro nu
    rw [Finset.mem_filter, mem_stripNil hm]
    constructor
    · rintro ⟨h1, h2⟩
      rw [mem_stripNil h1.1] at h2
      refine ⟨h1.1, fun i => ?_⟩
      have a1 := h1.2 i
      have a2 := h2.2 i
      have a3 := h2.2 (i - 1)
      refine ⟨by omega, ?_⟩
      unfold prevRow
      by_cases hi : i = 0
      · subst hi; rw [if_pos rfl]; omega
      · rw [if_neg hi]
        rw [show i - 1 + 1 = i by omega] at a3
        simp only
        omega
    · rintro ⟨h1, h2⟩
      refine ⟨⟨h1, fun i => ?_⟩, ?_⟩
      · have a1 := h2 i; omega
      · rw [mem_stripNil h1]
        refine ⟨hr, fun i => ?_⟩
        have a1 := h2 i
        have a3 := (h2 (i + 1)).2
        unfold prevRow at a3
        rw [if_neg (by omega), Nat.add_sub_cancel] at a3
        simp only at a3
        omega
  rw [Finset.sum_congr rfl (fun nu _ => (Fin.prod_univ_eq_prod_range (fun i => F i (nu.getD i 0)) M).symm)]
  rw [← Fin.prod_univ_eq_prod_range (fun i => ∑ k ∈ Finset.Icc (max (mu.getD (i + 1) 0) (rho.getD i 0))
        (min (mu.getD i 0) (prevRow (fun i => rho.getD i 0) (mu.getD 0 0) i)), F i k) M]
  rw [Finset.prod_univ_sum]
  have hfwd : ∀ nu ∈ (stripSet mu []).filter (fun nu => rho ∈ stripSet nu []),
      (fun i : Fin M => nu.getD i 0) ∈ Fintype.piFinset (fun i : Fin M =>
        Finset.Icc (max (mu.getD (i + 1) 0) (rho.getD i 0))
        (min (mu.getD i 0) (prevRow (fun i => rho.getD i 0) (mu.getD 0 0) i))) := by
    intro nu hnu
    rw [Fintype.mem_piFinset]
    intro i
    rw [Finset.mem_Icc]
    exact ((hmem nu).1 hnu).2 i
  have hback : ∀ f ∈ Fintype.piFinset (fun i : Fin M =>
        Finset.Icc (max (mu.getD (i + 1) 0) (rho.getD i 0))
        (min (mu.getD i 0) (prevRow (fun i => rho.getD i 0) (mu.getD 0 0) i))),
      trim (List.ofFn f) ∈ (stripSet mu []).filter (fun nu => rho ∈ stripSet nu []) := by
    intro f hf
    rw [Fintype.mem_piFinset] at hf
    have hg : ∀ i, (trim (List.ofFn f)).getD i 0 = (List.ofFn f).getD i 0 := fun i => getD_trim _ _
    have hgi : ∀ i (h : i < M), (List.ofFn f).getD i 0 = f ⟨i, h⟩ := by
      intro i h
      rw [List.getD_eq_getElem _ _ (by simpa using h)]; simp
    have hgo : ∀ i, M ≤ i → (List.ofFn f).getD i 0 = 0 := by
      intro i h
      exact List.getD_eq_default _ _ (by simpa using h)
    rw [hmem]
    refine ⟨trim_isPartition ?_, ?_⟩
    · rw [List.pairwise_iff_getElem]
      have hs : ∀ i, (List.ofFn f).getD (i + 1) 0 ≤ (List.ofFn f).getD i 0 := by
        intro i
        by_cases hi : i + 1 < M
        · rw [hgi (i + 1) hi, hgi i (by omega)]
          have a1 := hf ⟨i + 1, hi⟩
          have a2 := hf ⟨i, by omega⟩
          rw [Finset.mem_Icc] at a1 a2
          simp only at a1 a2
          omega
        · rw [hgo (i + 1) (by omega)]; omega
      intro i j hi hj hij
      have := antitone_nat_of_succ_le (f := fun i => (List.ofFn f).getD i 0) hs (le_of_lt hij)
      simp only at this
      rw [List.getD_eq_getElem _ _ hi, List.getD_eq_getElem _ _ hj] at this
      exact this
    · intro i
      rw [hg]
      by_cases hi : i < M
      · rw [hgi i hi]
        have := hf ⟨i, hi⟩
        rw [Finset.mem_Icc] at this
        exact this
      · rw [hgo i (by omega)]
        have := hrm i
        rw [List.getD_eq_default mu 0 (by omega)] at this
        rw [List.getD_eq_default mu 0 (show mu.length ≤ i + 1 by omega)]
        omega
  refine Finset.sum_nbij' (fun nu => (fun i : Fin M => nu.getD i 0)) (fun f => trim (List.ofFn f)) hfwd hback ?_ ?_ ?_
  · intro nu hnu
    have hnu' := (hmem nu).1 hnu
    refine row_ext ((hmem _).1 (hback _ (hfwd nu hnu))).1.2 hnu'.1.2 (fun i => ?_)
    rw [getD_trim]
    by_cases hi : i < M
    · rw [List.getD_eq_getElem _ _ (by simpa using hi)]; simp
    · rw [List.getD_eq_default _ _ (by simpa using hi)]
      have := (hnu'.2 i).2
      rw [List.getD_eq_default mu 0 (by omega)] at this
      omega
  · intro f hf
    funext i
    rw [getD_trim, List.getD_eq_getElem _ _ (by simp)]; simp
  · intro nu _
    rfl

/-- The weight of a horizontal strip. -/
def rowsWt (mu nu : List Nat) (x : A) : A := ∏ i ∈ Finset.range (mu.length + 1), rowWt x (mu.getD i 0 - nu.getD i 0)

theorem rowsWt_eq {mu : List Nat} (nu : List Nat) (x : A) {M : Nat} (hM : mu.length ≤ M) :
    rowsWt mu nu x = ∏ i ∈ Finset.range M, rowWt x (mu.getD i 0 - nu.getD i 0) := by
  have h : ∀ M, mu.length ≤ M → ∏ i ∈ Finset.range M, rowWt x (mu.getD i 0 - nu.getD i 0) =
      ∏ i ∈ Finset.range mu.length, rowWt x (mu.getD i 0 - nu.getD i 0) := by
    intro M hM
    induction M, hM using Nat.le_induction with
    | base => rfl
    | succ M hM ih => rw [Finset.prod_range_succ, ih, List.getD_eq_default mu 0 hM, Nat.zero_sub, rowWt, mul_one]
  rw [rowsWt, h _ (by omega), h M hM]

theorem stripNil_length {mu nu : List Nat} (hm : IsPartition mu) (h : nu ∈ stripSet mu []) : nu.length ≤ mu.length := by
  obtain ⟨h1, h2⟩ := (mem_stripNil hm).1 h
  by_contra hc
  have h3 := (getD_pos_iff h1.2 mu.length).2 (by omega)
  have h4 := (h2 mu.length).2
  rw [List.getD_eq_default mu 0 le_rfl] at h4
  omega

theorem rows_comm {mu rho : List Nat} (hm : IsPartition mu) (x y : A) :
    ∑ nu ∈ stripSet mu [], (if rho ∈ stripSet nu [] then rowsWt mu nu x * rowsWt nu rho y else 0) =
      ∑ nu ∈ stripSet mu [], (if rho ∈ stripSet nu [] then rowsWt mu nu y * rowsWt nu rho x else 0) := by
  classical
  by_cases hex : ∃ nu ∈ stripSet mu [], rho ∈ stripSet nu []
  swap
  · push Not at hex
    rw [Finset.sum_congr rfl (fun nu hnu => if_neg (hex nu hnu)), Finset.sum_congr rfl (fun nu hnu => if_neg (hex nu hnu))]
  obtain ⟨nu, hnu, hrho⟩ := hex
  have h1 := (mem_stripNil hm).1 hnu
  have h2 := (mem_stripNil h1.1).1 hrho
  have key : ∀ x y : A, ∑ nu ∈ stripSet mu [], (if rho ∈ stripSet nu [] then rowsWt mu nu x * rowsWt nu rho y else 0) =
      ∏ i ∈ Finset.range (mu.length + 1), ∑ k ∈ Finset.Icc (max (mu.getD (i + 1) 0) (rho.getD i 0))
        (min (mu.getD i 0) (prevRow (fun i => rho.getD i 0) (mu.getD 0 0) i)),
        rowWt x (mu.getD i 0 - k) * rowWt y (k - rho.getD i 0) := by
    intro x y
    rw [← sum_rows hm h2.1 (fun i => (h2.2 i).2.trans (h1.2 i).2) rfl
      (fun i k => rowWt x (mu.getD i 0 - k) * rowWt y (k - rho.getD i 0)), ← Finset.sum_filter]
    refine Finset.sum_congr rfl (fun nu hnu => ?_)
    have hl := stripNil_length hm (Finset.mem_filter.1 hnu).1
    rw [rowsWt_eq nu x (M := mu.length + 1) (by omega), rowsWt_eq rho y (M := mu.length + 1) (by omega),
      Finset.prod_mul_distrib]
  rw [key, key]
  exact rows_symm (mu.length + 1) (fun i => mu.getD i 0) (fun i => rho.getD i 0)
    (List.getD_eq_default mu 0 (by omega)) x y

/-! ### the sums over tableaux -/

/-- The weight of a letter. -/
def rowOm (y : Nat → A) (k : Nat) (S : Finset (Nat × Nat)) : A :=
  y (k - 1) ^ (S.image Prod.fst).card * (y (k - 1) + 1) ^ (S.card - (S.image Prod.fst).card)

/-- The sum over all semistandard tableaux behind the transposed dual functions, in `n` variables. -/
noncomputable def rowGen (n : Nat) (mu lam : List Nat) (y : Nat → A) : A := omGen ssRules (rowOm y) n mu lam

theorem isMove_ss {lam mu nu : List Nat} (hm : IsPartition mu) {k : Nat} (S : Finset (Nat × Nat)) :
    IsMove ssRules lam k mu nu (· ∈ S) ↔ nu ∈ stripSet mu [] ∧ shapeSet false lam ⊆ shapeSet false nu ∧
      S = (skew mu nu false).toFinset := by
  have hsk : ∀ b, b ∈ (skew mu nu false).toFinset ↔ b ∈ shapeSet false mu ∧ b ∉ shapeSet false nu := by
    intro b
    rw [List.mem_toFinset, mem_skew_shape]
  have hget : ∀ mu : List Nat, ∀ i j, (i, j) ∈ shapeSet false mu ↔ 1 ≤ i ∧ 1 ≤ j ∧ j ≤ mu.getD (i - 1) 0 := by
    intro mu i j
    rw [mem_shapeSet]
    simp [off]
    omega
  rw [mem_stripNil hm]
  constructor
  · intro h
    have hs : IsPartition nu := h.shape
    have hle : ∀ i, nu.getD i 0 ≤ mu.getD i 0 := shapeSet_subset.1 h.sub2
    have hS : S = (skew mu nu false).toFinset := by
      ext b
      rw [hsk]
      constructor
      · intro hb
        refine ⟨(h.inside b hb).1, fun hb' => ?_⟩
        have := (h.corner b.1 b.2 hb hb').1
        simp [ssRules] at this
      · rintro ⟨h1, h2⟩
        exact h.diff b h1 h2
    refine ⟨⟨hs, fun i => ⟨?_, hle i⟩⟩, h.sub1, hS⟩
    subst hS
    by_contra hc
    have ha := pairwise_ge_iff.1 hm.1 i
    have hb := pairwise_ge_iff.1 hs.1 i
    have h1 : (i + 1, nu.getD i 0 + 1) ∈ (skew mu nu false).toFinset := by
      rw [hsk, hget, hget]
      simp only [Nat.add_sub_cancel]
      omega
    have h2 := h.col (i + 1) (nu.getD i 0 + 1) h1
      ((hget _ _ _).2 (by simp only [Nat.add_sub_cancel]; omega))
      (by
        intro h3
        have h3 := (hget nu _ _).1 h3
        simp only [Nat.add_sub_cancel] at h3
        omega)
    exact h2
  · rintro ⟨⟨hs, h1⟩, h2, rfl⟩
    refine ⟨hs, h2, shapeSet_subset.2 (fun i => (h1 i).2), fun b hb hb' => (hsk b).2 ⟨hb, hb'⟩,
      fun b hb => ⟨((hsk b).1 hb).1, fun hb' => ((hsk b).1 hb).2 (h2 hb')⟩,
      fun i j hb hb' => absurd hb' ((hsk _).1 hb).2, fun _ _ _ _ _ => trivial, ?_, fun _ _ => trivial⟩
    intro i j hb hm1 hm2
    exfalso
    rw [hsk, hget, hget] at hb
    have hm1 := (hget mu _ _).1 hm1
    have := (h1 (i - 1)).1
    rw [show i - 1 + 1 = i by omega] at this
    simp only [Nat.add_sub_cancel] at hm1
    omega

theorem rowOm_skew {mu nu : List Nat} (y : Nat → A) (k : Nat) :
    rowOm y k (skew mu nu false).toFinset = rowsWt mu nu (y (k - 1)) := by
  classical
  have hS : (skew mu nu false).toFinset = ((Finset.range mu.length).sigma (fun i => Finset.Ioc (nu.getD i 0) (mu.getD i 0))).image
      (fun p => (p.1 + 1, p.2)) := by
    ext ⟨a, b⟩
    rw [List.mem_toFinset, mem_skew_shape, mem_shapeSet, mem_shapeSet, Finset.mem_image]
    simp only [off, Bool.false_eq_true, if_false]
    constructor
    · rintro ⟨h1, h4⟩
      refine ⟨⟨a - 1, b⟩, ?_, by simp; omega⟩
      rw [Finset.mem_sigma, Finset.mem_range, Finset.mem_Ioc]
      refine ⟨?_, ?_, ?_⟩
      · by_contra hc
        rw [List.getD_eq_default mu 0 (by simp only at hc; omega)] at h1
        omega
      · simp only; omega
      · simp only; omega
    · rintro ⟨⟨i, j⟩, hij, he⟩
      rw [Finset.mem_sigma, Finset.mem_range, Finset.mem_Ioc] at hij
      simp only [Prod.mk.injEq] at he hij
      obtain ⟨rfl, rfl⟩ := he
      simp only [Nat.add_sub_cancel]
      omega
  have hinj : Function.Injective (fun p : (_ : Nat) × Nat => (p.1 + 1, p.2)) := by
    rintro ⟨a, b⟩ ⟨c, d⟩ he
    simp only [Prod.mk.injEq, Nat.add_right_cancel_iff] at he
    obtain ⟨rfl, rfl⟩ := he
    rfl
  have hcard : (skew mu nu false).toFinset.card = ∑ i ∈ Finset.range mu.length, (mu.getD i 0 - nu.getD i 0) := by
    rw [hS, Finset.card_image_of_injective _ hinj, Finset.card_sigma]
    simp
  have hrows : ((skew mu nu false).toFinset.image Prod.fst).card =
      ∑ i ∈ Finset.range mu.length, (if nu.getD i 0 < mu.getD i 0 then 1 else 0) := by
    have : (skew mu nu false).toFinset.image Prod.fst =
        ((Finset.range mu.length).filter (fun i => nu.getD i 0 < mu.getD i 0)).image (· + 1) := by
      rw [hS, Finset.image_image]
      ext a
      simp only [Finset.mem_image, Finset.mem_sigma, Finset.mem_range, Finset.mem_Ioc, Finset.mem_filter, Function.comp_apply]
      constructor
      · rintro ⟨⟨i, j⟩, ⟨h1, h2⟩, rfl⟩
        exact ⟨i, ⟨h1, by simp only at h2; omega⟩, rfl⟩
      · rintro ⟨i, ⟨h1, h2⟩, rfl⟩
        exact ⟨⟨i, mu.getD i 0⟩, ⟨h1, h2, le_rfl⟩, rfl⟩
    rw [this, Finset.card_image_of_injective _ (fun a b h => by simpa using h), Finset.card_filter]
  have hsub : ∑ i ∈ Finset.range mu.length, (mu.getD i 0 - nu.getD i 0) -
      ∑ i ∈ Finset.range mu.length, (if nu.getD i 0 < mu.getD i 0 then 1 else 0) =
      ∑ i ∈ Finset.range mu.length, (mu.getD i 0 - nu.getD i 0 - (if nu.getD i 0 < mu.getD i 0 then 1 else 0)) := by
    refine (Finset.sum_tsub_distrib _ ?_).symm
    intro i _
    split_ifs <;> omega
  rw [rowOm, hrows, hcard, hsub, rowsWt_eq nu _ (M := mu.length) le_rfl, ← Finset.prod_pow_eq_pow_sum,
    ← Finset.prod_pow_eq_pow_sum, ← Finset.prod_mul_distrib]
  refine Finset.prod_congr rfl (fun i _ => ?_)
  by_cases hlt : nu.getD i 0 < mu.getD i 0
  · rw [if_pos hlt]
    obtain ⟨d, hd⟩ : ∃ d, mu.getD i 0 - nu.getD i 0 = d + 1 := ⟨mu.getD i 0 - nu.getD i 0 - 1, by omega⟩
    rw [hd, rowWt, Nat.add_sub_cancel, pow_one]
  · rw [if_neg hlt, show mu.getD i 0 - nu.getD i 0 = 0 by omega, rowWt]
    simp

theorem rowGen_succ {lam mu : List Nat} (hl : IsPartition lam) (hm : IsPartition mu) (n : Nat) (y : Nat → A) :
    rowGen (n + 1) mu lam y = ∑ nu ∈ stripSet mu [], rowsWt mu nu (y n) * rowGen n nu lam y := by
  classical
  rw [rowGen, omGen_succ ssRules_inj (R := ssRules) hl (rowOm y) n hm]
  have : ∑ nu ∈ stripSet mu [], rowsWt mu nu (y n) * rowGen n nu lam y =
      ∑ nu ∈ (stripSet mu []).filter (fun nu => shapeSet false lam ⊆ shapeSet false nu),
        rowsWt mu nu (y n) * rowGen n nu lam y := by
    refine (Finset.sum_subset (Finset.filter_subset _ _) ?_).symm
    intro nu h1 h2
    rw [Finset.mem_filter] at h2
    rw [rowGen, omGen_eq_zero ssRules_inj (R := ssRules) hl ((mem_stripNil hm).1 h1).1 (fun h => h2 ⟨h1, h⟩), mul_zero]
  rw [this]
  refine Finset.sum_bij (fun m _ => m.1) ?_ ?_ ?_ ?_
  · intro m h
    obtain ⟨h1, h2, h3⟩ := (isMove_ss hm m.2).1 (mem_moveFin.1 h)
    exact Finset.mem_filter.2 ⟨h1, h2⟩
  · intro m h m' h' he
    obtain ⟨_, _, h5⟩ := (isMove_ss hm m.2).1 (mem_moveFin.1 h)
    obtain ⟨_, _, h5'⟩ := (isMove_ss hm m'.2).1 (mem_moveFin.1 h')
    refine Prod.ext he ?_
    rw [h5, h5', he]
  · intro nu h
    rw [Finset.mem_filter] at h
    exact ⟨(nu, (skew mu nu false).toFinset), mem_moveFin.2 ((isMove_ss hm _).2 ⟨h.1, h.2, rfl⟩), rfl⟩
  · intro m h
    obtain ⟨_, _, h5⟩ := (isMove_ss hm m.2).1 (mem_moveFin.1 h)
    rw [h5, rowOm_skew y (n + 1), Nat.add_sub_cancel]
    rfl

/-- Neighbouring variables may be exchanged. -/
theorem rowGen_swap {lam mu : List Nat} (hl : IsPartition lam) (hm : IsPartition mu) (n j : Nat) (hj : j + 2 ≤ n)
    (y : Nat → A) : rowGen n mu lam y = rowGen n mu lam (y ∘ Equiv.swap j (j + 1)) := by
  classical
  refine swap_of_transfer (A := A) IsPartition (fun mu => stripSet mu []) rowsWt (fun n mu y => rowGen n mu lam y)
    (fun mu hm nu hnu => ((mem_stripNil hm).1 hnu).1) (fun k mu hm y => rowGen_succ hl hm k y) ?_
    (fun mu => (stripSet mu []).biUnion (fun nu => stripSet nu [])) (fun mu _ nu hnu => ?_)
    (fun mu hm rho x y => rows_comm hm x y) j n hj mu hm y
  · intro k mu y y' h
    rw [rowGen, rowGen]
    refine omGen_congr (fun i hi => ?_)
    funext S
    simp only [rowOm, Nat.add_sub_cancel]
    rw [h i hi]
  · exact Finset.subset_biUnion_of_mem (fun nu => stripSet nu []) hnu

end Ring

end Verif.Tableaux
