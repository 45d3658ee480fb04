import Verif.Model.Rref
import Verif.Spec.LinAlg
import Verif.Lemmas.Vector
import Mathlib.Data.List.GetD
import Mathlib.Tactic.Ring
import Mathlib.Tactic.FieldSimp
import Mathlib.Data.Rat.Cast.CharZero
import Mathlib.Data.Int.Cast.Lemmas
import Mathlib.Algebra.Order.Ring.Rat

/-! Gaussian elimination. -/

attribute [-simp] List.getD_eq_getElem?_getD

namespace Verif.Rref

open Verif.LinAlg

/-! ### gcd -/

theorem gcdLoop_spec : ∀ (fuel : Nat) (a b : Int), b.natAbs ≤ fuel → (a ≠ 0 ∨ b ≠ 0) →
    gcdLoop fuel a b ≠ 0 ∧ gcdLoop fuel a b ∣ a ∧ gcdLoop fuel a b ∣ b
  | 0, a, b, hf, h => by
    have hb : b = 0 := by omega
    subst hb
    exact ⟨by simpa [gcdLoop] using h, dvd_refl _, dvd_zero _⟩
  | fuel + 1, a, b, hf, h => by
    rw [gcdLoop]
    by_cases hb : b = 0
    · subst hb
      simp only [ne_eq, not_true_eq_false, if_false]
      exact ⟨by simpa using h, dvd_refl _, dvd_zero _⟩
    · rw [if_pos hb]
      have hlt : (a.fmod b).natAbs < b.natAbs := by
        rcases lt_or_gt_of_ne hb with h0 | h0
        · have h1 := Int.fmod_nonneg_of_pos (-a) (b := -b) (by omega)
          have h2 := Int.fmod_lt_of_pos (-a) (b := -b) (by omega)
          rw [Int.neg_fmod_neg] at h1 h2
          omega
        · have h1 := Int.fmod_nonneg_of_pos a h0
          have h2 := Int.fmod_lt_of_pos a h0
          omega
      obtain ⟨h1, h2, h3⟩ := gcdLoop_spec fuel b (a.fmod b) (by omega) (Or.inl hb)
      refine ⟨h1, ?_, h2⟩
      have h4 := dvd_add h3 (Dvd.dvd.mul_right h2 (a.fdiv b))
      rwa [Int.fmod_add_mul_fdiv a b] at h4

theorem gcd2_spec {a b : Int} (h : a ≠ 0 ∨ b ≠ 0) : gcd2 a b ≠ 0 ∧ gcd2 a b ∣ a ∧ gcd2 a b ∣ b :=
  gcdLoop_spec _ a b (le_refl _) h

theorem gcdLoop_zero : ∀ (fuel : Nat), gcdLoop fuel 0 0 = 0
  | 0 => rfl
  | fuel + 1 => by simp [gcdLoop]

theorem gcdAll_spec : ∀ (l : List Int), l ≠ [] → ∃ g, gcdAll l = some g ∧ (∀ x ∈ l, g ∣ x) ∧ (g = 0 → ∀ x ∈ l, x = 0)
  | [], h => absurd rfl h
  | [a], _ => ⟨a, rfl, by simp, by simp⟩
  | a :: b :: l, _ => by
    obtain ⟨g, h1, h2, h3⟩ := gcdAll_spec (b :: l) (by simp)
    refine ⟨gcd2 a g, by rw [gcdAll, h1]; rfl; simp, ?_, ?_⟩
    · by_cases h : a ≠ 0 ∨ g ≠ 0
      · obtain ⟨_, h5, h6⟩ := gcd2_spec h
        intro x hx
        rcases List.mem_cons.1 hx with rfl | hx
        · exact h5
        · exact dvd_trans h6 (h2 x hx)
      · push Not at h
        intro x hx
        rcases List.mem_cons.1 hx with rfl | hx
        · rw [h.1]; exact dvd_zero _
        · rw [h3 h.2 x hx]; exact dvd_zero _
    · intro h0
      by_cases h : a ≠ 0 ∨ g ≠ 0
      · exact absurd h0 (gcd2_spec h).1
      · push Not at h
        intro x hx
        rcases List.mem_cons.1 hx with rfl | hx
        · exact h.1
        · exact h3 h.2 x hx

/-! ### entries -/

theorem getD_set_row (mat : List (List Int)) (i t : Nat) (r : List Int) (hi : i < mat.length) :
    (mat.set i r).getD t [] = if t = i then r else mat.getD t [] := by
  rw [List.getD_eq_getElem?_getD, List.getElem?_set, List.getD_eq_getElem?_getD]
  by_cases h : t = i
  · subst h; simp [hi]
  · rw [if_neg (fun h' => h h'.symm), if_neg h]

theorem at'_set (mat : List (List Int)) (i t j : Nat) (r : List Int) (hi : i < mat.length) :
    at' (mat.set i r) t j = if t = i then r.getD j 0 else at' mat t j := by
  rw [at', getD_set_row _ _ _ _ hi]
  split <;> rfl

theorem at'_of_le {mat : List (List Int)} {t : Nat} (h : mat.length ≤ t) (j : Nat) : at' mat t j = 0 := by
  rw [at', List.getD_eq_default _ _ h]; rfl

/-- All rows have length `n`. -/
def Rect (n : Nat) (mat : List (List Int)) : Prop := ∀ t, t < mat.length → (mat.getD t []).length = n

theorem Rect.set {n : Nat} {mat : List (List Int)} (h : Rect n mat) {i : Nat} {r : List Int} (hr : r.length = n) :
    Rect n (mat.set i r) := by
  intro t ht
  rw [List.length_set] at ht
  by_cases hi : i < mat.length
  · rw [getD_set_row _ _ _ _ hi]
    split
    · exact hr
    · exact h t ht
  · rw [List.set_eq_of_length_le (by omega)]; exact h t ht

theorem getD_map_mul (l : List Int) (f : Int → Int) (hf : f 0 = 0) (j : Nat) : (l.map f).getD j 0 = f (l.getD j 0) := by
  have := List.getD_map (l := l) (d := (0 : Int)) (n := j) (f := f)
  rw [hf] at this
  exact this

theorem getD_zipWith (l l' : List Int) (h : l.length = l'.length) (v : Int) (j : Nat) :
    (List.zipWith (fun x y => x + v * y) l l').getD j 0 = l.getD j 0 + v * l'.getD j 0 := by
  induction l generalizing l' j with
  | nil =>
    cases l' with
    | nil => simp [List.getD_nil]
    | cons => simp at h
  | cons a l ih =>
    cases l' with
    | nil => simp at h
    | cons b l' =>
      cases j with
      | zero => simp [List.getD_cons_zero]
      | succ j =>
        simp only [List.zipWith_cons_cons, List.getD_cons_succ]
        exact ih l' (by simpa using h) j

/-! ### the operations -/

theorem scale_at {mat : List (List Int)} {i : Nat} (hi : i < mat.length) (v : Int) (t j : Nat) :
    at' (scale mat i v) t j = if t = i then at' mat i j * v else at' mat t j := by
  rw [scale, at'_set _ _ _ _ _ hi, getD_map_mul _ _ (by simp)]
  rfl

theorem scale_rect {n : Nat} {mat : List (List Int)} (h : Rect n mat) {i : Nat} (hi : i < mat.length) (v : Int) :
    Rect n (scale mat i v) := h.set (by rw [List.length_map]; exact h i hi)

theorem scale_length (mat : List (List Int)) (i : Nat) (v : Int) : (scale mat i v).length = mat.length := by
  rw [scale, List.length_set]

theorem replace_at {n : Nat} {mat : List (List Int)} (h : Rect n mat) {i j : Nat} (hi : i < mat.length)
    (hj : j < mat.length) (v : Int) (t c : Nat) :
    at' (replace mat i j v) t c = if t = j then at' mat j c + v * at' mat i c else at' mat t c := by
  rw [replace, at'_set _ _ _ _ _ hj, getD_zipWith _ _ (by rw [h i hi, h j hj])]
  rfl

theorem replace_rect {n : Nat} {mat : List (List Int)} (h : Rect n mat) {i j : Nat} (hi : i < mat.length)
    (hj : j < mat.length) (v : Int) : Rect n (replace mat i j v) :=
  h.set (by rw [List.length_zipWith, h i hi, h j hj]; simp)

theorem swap_at {mat : List (List Int)} {i j : Nat} (hi : i < mat.length) (hj : j < mat.length) (t c : Nat) :
    at' (swap mat i j) t c = at' mat (Equiv.swap i j t) c := by
  rw [swap, at'_set _ _ _ _ _ (by rwa [List.length_set]), at'_set _ _ _ _ _ hi, Equiv.swap_apply_def]
  by_cases h1 : t = j
  · subst h1
    rw [if_pos rfl]
    by_cases h2 : t = i
    · subst h2; rw [if_pos rfl]; rfl
    · rw [if_neg h2, if_pos rfl]; rfl
  · rw [if_neg h1]
    by_cases h2 : t = i
    · subst h2; rw [if_pos rfl, if_pos rfl]; rfl
    · rw [if_neg h2, if_neg h2, if_neg h1]

theorem swap_rect {n : Nat} {mat : List (List Int)} (h : Rect n mat) {i j : Nat} (hi : i < mat.length)
    (hj : j < mat.length) : Rect n (swap mat i j) := (h.set (h j hj)).set (h i hi)

/-! ### spans -/

theorem rowSpan_le {M N : ℕ → ℕ → ℤ} (h : ∀ t, (fun j => (M t j : ℚ)) ∈ rowSpan N) : rowSpan M ≤ rowSpan N := by
  rw [rowSpan, Submodule.span_le]
  rintro _ ⟨t, rfl⟩
  exact h t

theorem mem_rowSpan (M : ℕ → ℕ → ℤ) (t : ℕ) : (fun j => (M t j : ℚ)) ∈ rowSpan M :=
  Submodule.subset_span ⟨t, rfl⟩

/-- Changing row `j` by a multiple of row `i`, after scaling. -/
theorem rowSpan_update {M N : ℕ → ℕ → ℤ} {i j : ℕ} (hij : i ≠ j) {a b : ℚ} (ha : a ≠ 0)
    (hN : ∀ t, t ≠ j → N t = M t) (hj : ∀ c, (N j c : ℚ) = a * M j c + b * M i c) : rowSpan N = rowSpan M := by
  have hi : N i = M i := hN i hij
  have e1 : (fun c => (N j c : ℚ)) = a • (fun c => (M j c : ℚ)) + b • (fun c => (M i c : ℚ)) := by
    funext c; simp [hj c]
  refine le_antisymm (rowSpan_le ?_) (rowSpan_le ?_)
  · intro t
    by_cases h : t = j
    · subst h
      rw [e1]
      exact add_mem (Submodule.smul_mem _ _ (mem_rowSpan M t)) (Submodule.smul_mem _ _ (mem_rowSpan M i))
    · rw [hN t h]; exact mem_rowSpan M t
  · intro t
    by_cases h : t = j
    · subst h
      have e2 : (fun c => (M t c : ℚ)) = a⁻¹ • (fun c => (N t c : ℚ)) + (-(a⁻¹ * b)) • (fun c => (N i c : ℚ)) := by
        funext c
        simp only [Pi.add_apply, Pi.smul_apply, smul_eq_mul, hj c, hi]
        field_simp
        ring
      rw [e2]
      exact add_mem (Submodule.smul_mem _ _ (mem_rowSpan N t)) (Submodule.smul_mem _ _ (mem_rowSpan N i))
    · rw [← hN t h]; exact mem_rowSpan N t

/-- Scaling a row. -/
theorem rowSpan_scale {M N : ℕ → ℕ → ℤ} {j : ℕ} {a : ℚ} (ha : a ≠ 0)
    (hN : ∀ t, t ≠ j → N t = M t) (hj : ∀ c, (N j c : ℚ) = a * M j c) : rowSpan N = rowSpan M :=
  rowSpan_update (i := j + 1) (j := j) (a := a) (b := 0) (by omega) ha hN (by intro c; rw [hj c]; ring)

theorem rowSpan_perm {M N : ℕ → ℕ → ℤ} (e : Equiv.Perm ℕ) (h : ∀ t c, N t c = M (e t) c) : rowSpan N = rowSpan M := by
  refine le_antisymm (rowSpan_le ?_) (rowSpan_le ?_)
  · intro t
    have : (fun c => (N t c : ℚ)) = (fun c => (M (e t) c : ℚ)) := by funext c; rw [h]
    rw [this]; exact mem_rowSpan M _
  · intro t
    have : (fun c => (M t c : ℚ)) = (fun c => (N (e.symm t) c : ℚ)) := by funext c; rw [h]; simp
    rw [this]; exact mem_rowSpan N _

/-! ### steps -/

theorem iscale_spec {n : Nat} {mat : List (List Int)} (h : Rect n mat) {i : Nat} (hi : i < mat.length) {v : Int}
    (hv : v ≠ 0) (hd : ∀ x ∈ mat.getD i [], v ∣ x) :
    ∃ mat', iscale mat i v = some mat' ∧ mat'.length = mat.length ∧ Rect n mat' ∧
      (∀ t, t ≠ i → ∀ c, at' mat' t c = at' mat t c) ∧ ∀ c, at' mat i c = v * at' mat' i c := by
  have hall : (mat.getD i []).all (fun e => decide (e.fmod v = 0)) = true := by
    rw [List.all_eq_true]
    intro x hx
    exact decide_eq_true (Int.fmod_eq_zero_of_dvd (hd x hx))
  refine ⟨_, if_pos ⟨hv, hall⟩, by rw [List.length_set], h.set (by rw [List.length_map]; exact h i hi), ?_, ?_⟩
  · intro t ht c
    rw [at'_set _ _ _ _ _ hi, if_neg ht]
  · intro c
    rw [at'_set _ _ _ _ _ hi, if_pos rfl, getD_map_mul _ _ (by simp)]
    by_cases hc : c < (mat.getD i []).length
    · have hm : (mat.getD i []).getD c 0 ∈ mat.getD i [] := by
        rw [List.getD_eq_getElem _ _ hc]; exact List.getElem_mem hc
      exact (Int.mul_fdiv_cancel' (hd _ hm)).symm
    · rw [at', List.getD_eq_default _ _ (by omega)]; simp

theorem normalize_spec {n : Nat} {mat : List (List Int)} (h : Rect n mat) {i col : Nat} (hi : i < mat.length)
    (hc : at' mat i col ≠ 0) :
    ∃ mat', normalize mat i col = some mat' ∧ mat'.length = mat.length ∧ Rect n mat' ∧
      (∀ t, t ≠ i → ∀ c, at' mat' t c = at' mat t c) ∧ 0 < at' mat' i col ∧
      ∃ v : Int, v ≠ 0 ∧ ∀ c, at' mat i c = v * at' mat' i c := by
  have hcl : col < (mat.getD i []).length := by
    by_contra hn
    exact hc (by rw [at', List.getD_eq_default _ _ (by omega)])
  have hmem : at' mat i col ∈ mat.getD i [] := by
    rw [at', List.getD_eq_getElem _ _ hcl]; exact List.getElem_mem hcl
  obtain ⟨g, hg, hg1, hg2⟩ := gcdAll_spec (mat.getD i []) (List.ne_nil_of_mem hmem)
  have hg0 : g ≠ 0 := fun h0 => hc (hg2 h0 _ hmem)
  obtain ⟨m1, e1, l1, r1, o1, p1⟩ := iscale_spec h hi hg0 hg1
  have hc1 : at' m1 i col ≠ 0 := by
    intro h0; apply hc; rw [p1, h0, mul_zero]
  have hn : normalize mat i col = if at' m1 i col < 0 then iscale m1 i (-1) else some m1 := by
    rw [normalize, hg, Option.bind_some, e1]
  rw [hn]
  by_cases hneg : at' m1 i col < 0
  · rw [if_pos hneg]
    obtain ⟨m2, e2, l2, r2, o2, p2⟩ := iscale_spec r1 (by omega : i < m1.length) (v := -1) (by decide) (by simp)
    refine ⟨m2, e2, by omega, r2, ?_, ?_, -g, by simpa using hg0, ?_⟩
    · intro t ht c; rw [o2 t ht, o1 t ht]
    · have := p2 col; omega
    · intro c; rw [p1, p2]; ring
  · rw [if_neg hneg]
    exact ⟨m1, rfl, l1, r1, o1, by omega, g, hg0, p1⟩

theorem eliminate_spec {n : Nat} {mat : List (List Int)} (h : Rect n mat) {i j col : Nat} (hi : i < mat.length)
    (hj : j < mat.length) (hij : i ≠ j) (ha : at' mat i col ≠ 0) :
    (eliminate i col mat j).length = mat.length ∧ Rect n (eliminate i col mat j) ∧
      (∀ t, t ≠ j → ∀ c, at' (eliminate i col mat j) t c = at' mat t c) ∧ at' (eliminate i col mat j) j col = 0 ∧
      ∃ u v : Int, u ≠ 0 ∧ ∀ c, at' (eliminate i col mat j) j c = u * at' mat j c + v * at' mat i c := by
  obtain ⟨hd, hda, hdb⟩ := gcd2_spec (a := at' mat i col) (b := at' mat j col) (Or.inl ha)
  obtain ⟨d, hde⟩ : ∃ d, gcd2 (at' mat i col) (at' mat j col) = d := ⟨_, rfl⟩
  rw [hde] at hd hda hdb
  have hr := scale_rect h hj ((at' mat i col).fdiv d)
  have hl := scale_length mat j ((at' mat i col).fdiv d)
  have he : eliminate i col mat j =
      replace (scale mat j ((at' mat i col).fdiv d)) i j ((-(at' mat j col)).fdiv d) := by
    rw [eliminate, hde]
  have hat : ∀ t c, at' (eliminate i col mat j) t c = if t = j then
      at' mat j c * (at' mat i col).fdiv d + (-(at' mat j col)).fdiv d * at' mat i c else at' mat t c := by
    intro t c
    rw [he, replace_at hr (by omega) (by omega)]
    simp only [scale_at hj, if_true, if_neg hij]
    split
    · rfl
    · rfl
  have hb' : (-(at' mat j col)).fdiv d = -((at' mat j col).fdiv d) := by
    obtain ⟨q, hq⟩ := hdb
    rw [hq, ← mul_neg, Int.mul_fdiv_cancel_left _ hd, Int.mul_fdiv_cancel_left _ hd]
  refine ⟨?_, ?_, ?_, ?_, (at' mat i col).fdiv d, (-(at' mat j col)).fdiv d, ?_, ?_⟩
  · rw [he, replace, List.length_set, hl]
  · rw [he]; exact replace_rect hr (by omega) (by omega) _
  · intro t ht c; rw [hat, if_neg ht]
  · rw [hat, if_pos rfl, hb']
    obtain ⟨q, hq⟩ := hda
    obtain ⟨r, hr⟩ := hdb
    rw [hq, hr, Int.mul_fdiv_cancel_left _ hd, Int.mul_fdiv_cancel_left _ hd]
    ring
  · intro h0
    apply ha
    rw [← Int.mul_fdiv_cancel' hda, h0, mul_zero]
  · intro c; rw [hat, if_pos rfl]; ring

attribute [local irreducible] eliminate

theorem eliminates_spec {n : Nat} {i col : Nat} : ∀ (rest : List Nat) (mat : List (List Int)), Rect n mat →
    i < mat.length → at' mat i col ≠ 0 → (∀ j ∈ rest, j < mat.length ∧ i ≠ j) → rest.Nodup →
    (rest.foldl (eliminate i col) mat).length = mat.length ∧ Rect n (rest.foldl (eliminate i col) mat) ∧
      (∀ t, t ∉ rest → ∀ c, at' (rest.foldl (eliminate i col) mat) t c = at' mat t c) ∧
      (∀ t ∈ rest, at' (rest.foldl (eliminate i col) mat) t col = 0) ∧
      (∀ t ∈ rest, ∀ c, at' mat i c = 0 → at' mat t c = 0 → at' (rest.foldl (eliminate i col) mat) t c = 0) ∧
      rowSpan (at' (rest.foldl (eliminate i col) mat)) = rowSpan (at' mat)
  | [], mat, hr, _, _, _, _ => ⟨rfl, hr, fun _ _ _ => rfl, by simp, by simp, rfl⟩
  | j :: rest, mat, hr, hi, ha, hj, hnd => by
    obtain ⟨hjl, hij⟩ := hj j (by simp)
    obtain ⟨l1, r1, o1, z1, u, v, hu, p1⟩ := eliminate_spec hr hi hjl hij ha
    have hnd' := List.nodup_cons.1 hnd
    have hj' : ∀ t ∈ rest, t < (eliminate i col mat j).length ∧ i ≠ t := fun t ht => by rw [l1]; exact hj t (by simp [ht])
    obtain ⟨l2, r2, o2, z2, k2, s2⟩ := eliminates_spec rest (eliminate i col mat j) r1 (by omega)
      (by rw [o1 i hij]; exact ha) hj' hnd'.2
    rw [List.foldl_cons]
    refine ⟨by omega, r2, ?_, ?_, ?_, ?_⟩
    · intro t ht c
      rw [List.mem_cons, not_or] at ht
      rw [o2 t ht.2, o1 t ht.1]
    · intro t ht
      rcases List.mem_cons.1 ht with rfl | ht
      · rw [o2 t hnd'.1, z1]
      · exact z2 t ht
    · intro t ht c h1 h2
      rcases List.mem_cons.1 ht with rfl | ht
      · rw [o2 t hnd'.1, p1, h1, h2]; ring
      · have htj : t ≠ j := fun h => hnd'.1 (h ▸ ht)
        exact k2 t ht c (by rw [o1 i hij]; exact h1) (by rw [o1 t htj]; exact h2)
    · rw [s2]
      refine rowSpan_update (i := i) (j := j) (a := (u : ℚ)) (b := (v : ℚ)) hij (by exact_mod_cast hu) ?_ ?_
      · intro t ht; funext c; exact o1 t ht c
      · intro c; rw [p1]; push_cast; ring

theorem mem_nonzeros {mat : List (List Int)} {r c t : Nat} :
    t ∈ nonzeros mat r c ↔ r ≤ t ∧ t < mat.length ∧ at' mat t c ≠ 0 := by
  rw [nonzeros, List.mem_filter, List.mem_range'_1]
  simp only [decide_eq_true_eq]
  constructor
  · rintro ⟨⟨h1, h2⟩, h3⟩; exact ⟨h1, by omega, h3⟩
  · rintro ⟨h1, h2, h3⟩; exact ⟨⟨h1, by omega⟩, h3⟩

/-- The state of the loop over the columns before column `col`. -/
structure Inv (n : Nat) (M0 : List (List Int)) (col : Nat) (mat : List (List Int)) (row : Nat) (p : Nat → Nat) : Prop where
  length : mat.length = M0.length
  rect : Rect n mat
  span : rowSpan (at' mat) = rowSpan (at' M0)
  row_le : row ≤ mat.length
  mono : ∀ s t, s < t → t < row → p s < p t
  lt : ∀ t, t < row → p t < col
  lead : ∀ t, t < row → 0 < at' mat t (p t) ∧ ∀ c, c < p t → at' mat t c = 0
  zero : ∀ t, row ≤ t → ∀ c, c < col → at' mat t c = 0

theorem column_spec {n : Nat} {M0 : List (List Int)} {col row : Nat} {mat : List (List Int)} {p : Nat → Nat}
    (h : Inv n M0 col mat row p) :
    ∃ mat' row' p', column (mat, row) col = some (mat', row') ∧ Inv n M0 (col + 1) mat' row' p' := by
  rw [column]
  dsimp only
  cases hnz : nonzeros mat row col with
  | nil =>
    refine ⟨mat, row, p, rfl, ⟨h.length, h.rect, h.span, h.row_le, h.mono, fun t ht => by have := h.lt t ht; omega,
      h.lead, ?_⟩⟩
    intro t ht c hc
    by_cases hcc : c < col
    · exact h.zero t ht c hcc
    · have : c = col := by omega
      subst this
      by_contra hne
      have hlt : t < mat.length := by
        by_contra hge
        exact hne (at'_of_le (by omega) _)
      have := mem_nonzeros.2 ⟨ht, hlt, hne⟩
      rw [hnz] at this
      simp at this
  | cons i rest =>
    have hmem : ∀ t, t ∈ i :: rest ↔ row ≤ t ∧ t < mat.length ∧ at' mat t col ≠ 0 := by
      intro t; rw [← hnz]; exact mem_nonzeros
    have hnd : (i :: rest).Nodup := by
      rw [← hnz]
      exact (List.nodup_range' (h := by omega)).filter _
    have hnd' := List.nodup_cons.1 hnd
    obtain ⟨hi1, hi2, hi3⟩ := (hmem i).1 (by simp)
    obtain ⟨m1, e1, l1, r1, o1, pos1, v, hv, p1⟩ := normalize_spec h.rect hi2 hi3
    simp only [e1]
    have s1 : rowSpan (at' m1) = rowSpan (at' mat) := by
      symm
      refine rowSpan_scale (j := i) (a := (v : ℚ)) (by exact_mod_cast hv) ?_ ?_
      · intro t ht; funext c; exact (o1 t ht c).symm
      · intro c; rw [p1]; push_cast; ring
    obtain ⟨l2, r2, o2, z2, k2, s2⟩ := eliminates_spec (n := n) (i := i) (col := col) rest m1 r1 (by omega) (by omega)
      (by
        intro t ht
        have := (hmem t).1 (by simp [ht])
        exact ⟨by omega, fun hc => hnd'.1 (hc ▸ ht)⟩) hnd'.2
    obtain ⟨m2, hm2⟩ : ∃ m2, rest.foldl (eliminate i col) m1 = m2 := ⟨_, rfl⟩
    rw [hm2] at l2 r2 o2 z2 k2 s2 ⊢
    -- the matrix before the swap
    have zi1 : ∀ c, c < col → at' m1 i c = 0 := by
      intro c hc
      have := p1 c
      rw [h.zero i hi1 c hc] at this
      rcases mul_eq_zero.1 this.symm with h0 | h0
      · exact absurd h0 hv
      · exact h0
    have zt1 : ∀ t, row ≤ t → ∀ c, c < col → at' m1 t c = 0 := by
      intro t ht c hc
      by_cases hti : t = i
      · subst hti; exact zi1 c hc
      · rw [o1 t hti]; exact h.zero t ht c hc
    have zt2 : ∀ t, row ≤ t → ∀ c, c < col → at' m2 t c = 0 := by
      intro t ht c hc
      by_cases htr : t ∈ rest
      · exact k2 t htr c (zi1 c hc) (zt1 t ht c hc)
      · rw [o2 t htr]; exact zt1 t ht c hc
    have zc2 : ∀ t, row ≤ t → t ≠ i → at' m2 t col = 0 := by
      intro t ht hti
      by_cases htr : t ∈ rest
      · exact z2 t htr
      · rw [o2 t htr, o1 t hti]
        by_contra hne
        have hlt : t < mat.length := by
          by_contra hge
          exact hne (at'_of_le (by omega) _)
        rcases List.mem_cons.1 ((hmem t).2 ⟨ht, hlt, hne⟩) with h0 | h0
        · exact hti h0
        · exact htr h0
    have pi2 : 0 < at' m2 i col := by rw [o2 i hnd'.1]; exact pos1
    have old2 : ∀ t, t < row → ∀ c, at' m2 t c = at' mat t c := by
      intro t ht c
      have htr : t ∉ rest := fun hh => by have := ((hmem t).1 (by simp [hh])).1; omega
      rw [o2 t htr, o1 t (by omega)]
    obtain ⟨m3, hm3⟩ : ∃ m3, (if i ≠ row then swap m2 row i else m2) = m3 := ⟨_, rfl⟩
    rw [hm3]
    have at3 : ∀ t c, at' m3 t c = at' m2 (Equiv.swap row i t) c := by
      intro t c
      rw [← hm3]
      by_cases hir : i = row
      · subst hir; simp
      · rw [if_pos hir, swap_at (by omega) (by omega)]
    have l3 : m3.length = m2.length := by
      rw [← hm3]; split
      · rw [swap, List.length_set, List.length_set]
      · rfl
    have r3 : Rect n m3 := by
      rw [← hm3]; split
      · exact swap_rect r2 (by omega) (by omega)
      · exact r2
    have low3 : ∀ t, t < row → Equiv.swap row i t = t := fun t ht => Equiv.swap_apply_of_ne_of_ne (by omega) (by omega)
    refine ⟨m3, row + 1, fun t => if t < row then p t else col, rfl, ⟨by rw [l3, l2, l1, h.length], r3, ?_, ?_, ?_, ?_, ?_, ?_⟩⟩
    · rw [← h.span, ← s1, ← s2]
      exact rowSpan_perm (Equiv.swap row i) at3
    · omega
    · intro s t hst ht
      by_cases h1 : t < row
      · rw [if_pos h1, if_pos (by omega)]; exact h.mono s t hst h1
      · rw [if_neg h1, if_pos (by omega)]
        exact h.lt s (by omega)
    · intro t ht
      split
      · have := h.lt t (by assumption); omega
      · omega
    · intro t ht
      by_cases h1 : t < row
      · rw [if_pos h1]
        simp only [at3, low3 t h1, old2 t h1]
        exact h.lead t h1
      · have : t = row := by omega
        subst this
        rw [if_neg h1]
        simp only [at3, Equiv.swap_apply_left]
        exact ⟨pi2, zt2 i hi1⟩
    · intro t ht c hc
      rw [at3]
      obtain ⟨t', ht'⟩ : ∃ t', Equiv.swap row i t = t' := ⟨_, rfl⟩
      have hne : t' ≠ i := by
        intro h0
        rw [h0] at ht'
        have := congrArg (Equiv.swap row i) ht'
        rw [Equiv.swap_apply_self, Equiv.swap_apply_right] at this
        omega
      have hge : row ≤ t' := by
        rw [← ht', Equiv.swap_apply_def]; split
        · omega
        · split <;> omega
      rw [ht']
      by_cases hcc : c < col
      · exact zt2 t' hge c hcc
      · have : c = col := by omega
        subst this
        exact zc2 t' hge hne

theorem columns_spec {n : Nat} (M0 : List (List Int)) (h0 : Rect n M0) : ∀ k, ∃ mat row p,
    (List.range k).foldlM column (M0, 0) = some (mat, row) ∧ Inv n M0 k mat row p
  | 0 => ⟨M0, 0, fun _ => 0, rfl, ⟨rfl, h0, rfl, Nat.zero_le _, by omega, by omega, by omega, by omega⟩⟩
  | k + 1 => by
    obtain ⟨mat, row, p, h1, h2⟩ := columns_spec M0 h0 k
    obtain ⟨mat', row', p', h3, h4⟩ := column_spec h2
    refine ⟨mat', row', p', ?_, h4⟩
    rw [List.range_succ, List.foldlM_append, h1]
    simp only [Option.bind_eq_bind, Option.bind_some, List.foldlM_cons, h3, List.foldlM_nil]
    rfl

theorem at'_of_rect {n : Nat} {mat : List (List Int)} (h : Rect n mat) {t c : Nat} (hc : n ≤ c) : at' mat t c = 0 := by
  by_cases ht : t < mat.length
  · rw [at', List.getD_eq_default _ _ (by rw [h t ht]; exact hc)]
  · exact at'_of_le (by omega) c

/-- The result of `rref`, with its leading columns. -/
theorem rref_spec {n : Nat} {M0 : List (List Int)} (h0 : Rect n M0) : ∃ (mat : List (List Int)) (row : Nat) (p : Nat → Nat), rref M0 = some mat ∧
    mat.length = M0.length ∧ Rect n mat ∧ rowSpan (at' mat) = rowSpan (at' M0) ∧
    row ≤ mat.length ∧ (∀ s t, s < t → t < row → p s < p t) ∧ (∀ t, t < row → p t < n) ∧
    (∀ t, t < row → 0 < at' mat t (p t) ∧ ∀ c, c < p t → at' mat t c = 0) ∧ ∀ t, row ≤ t → ∀ c, at' mat t c = 0 := by
  cases M0 with
  | nil =>
    refine ⟨[], 0, fun _ => 0, rfl, rfl, h0, rfl, Nat.zero_le _, by omega, by omega, by omega, ?_⟩
    intro t _ c; exact at'_of_le (by simp) c
  | cons r M =>
    have hr : r.length = n := h0 0 (by simp)
    obtain ⟨mat, row, p, h1, h2⟩ := columns_spec (r :: M) h0 n
    refine ⟨mat, row, p, ?_, h2.length, h2.rect, h2.span, h2.row_le, h2.mono, h2.lt, h2.lead, ?_⟩
    · rw [rref]
      simp only [List.headD_cons, hr, h1, Option.map_some]
    · intro t ht c
      by_cases hc : c < n
      · exact h2.zero t ht c hc
      · exact at'_of_rect h2.rect (by omega)

end Verif.Rref
