import Verif.Model.StableG
import Verif.Lemmas.HeckeLevels
import Verif.Lemmas.WordsZeta

/-!
# Ascents and peaks of words that are products of few factors
-/

attribute [-simp] List.getD_eq_getElem?_getD

namespace Verif.Words

/-! ### ascents -/

theorem ascents_le_append (u v : List Int) : ascents (u ++ v) ≤ ascents u + ascents v + 1 := by
  induction u with
  | nil => rw [List.nil_append]; omega
  | cons a u ih =>
    cases u with
    | nil =>
      cases v with
      | nil => simp [ascents]
      | cons b v =>
        rw [List.singleton_append, Perm.ascents_cons]
        split <;> omega
    | cons b u =>
      rw [List.cons_append, List.cons_append, Perm.ascents_cons, Perm.ascents_cons]
      rw [List.cons_append] at ih
      omega

theorem ascents_of_dec {u : List Int} (h : u.Pairwise (· > ·)) : ascents u = 0 := by
  induction u with
  | nil => rfl
  | cons a u ih =>
    cases u with
    | nil => rfl
    | cons b u =>
      rw [Perm.ascents_cons, ih h.of_cons, if_neg]
      have := (List.pairwise_cons.1 h).1 b (by simp)
      omega

theorem ascents_flatten (fs : List (List Int)) (h : ∀ f ∈ fs, f.Pairwise (· > ·)) {v : List Int} (hv : v <+: fs.flatten)
    (hne : v ≠ []) : ascents v + 1 ≤ fs.length := by
  induction fs generalizing v with
  | nil => exact absurd (List.prefix_nil.1 hv) hne
  | cons f fs ih =>
    rw [List.flatten_cons] at hv
    have hf := h f (by simp)
    have hv' : v <+: f ∨ ∃ t, v = f ++ t ∧ t <+: fs.flatten := by
      rcases List.prefix_or_prefix_of_prefix hv (List.prefix_append f fs.flatten) with h1 | ⟨t, rfl⟩
      · exact Or.inl h1
      · exact Or.inr ⟨t, rfl, (List.prefix_append_right_inj f).1 hv⟩
    rcases hv' with hv | ⟨t, rfl, ht⟩
    · rw [ascents_of_dec (hf.sublist hv.sublist), List.length_cons]; omega
    · by_cases h0 : t = []
      · subst h0; rw [List.append_nil, ascents_of_dec hf, List.length_cons]; omega
      · have := ih (fun g hg => h g (by simp [hg])) ht h0
        have h2 := ascents_le_append f t
        rw [ascents_of_dec hf] at h2
        rw [List.length_cons]; omega

theorem length_le_of_ascents {N : Nat} (v : List Int) (h : ∀ a ∈ v, 0 ≤ a ∧ a < N) (hne : v ≠ []) :
    (v.length : Int) ≤ ascents v * N + (v.headD 0) + 1 := by
  induction v with
  | nil => exact absurd rfl hne
  | cons a v ih =>
    cases v with
    | nil =>
      have := (h a (by simp)).1
      simp [ascents, List.headD]
      omega
    | cons b v =>
      have h1 := ih (fun x hx => h x (by simp [hx])) (by simp)
      have ha := h a (by simp)
      have hb := h b (by simp)
      rw [Perm.ascents_cons, List.length_cons]
      simp only [List.headD_cons] at h1 ⊢
      by_cases hab : a ≤ b
      · rw [if_pos hab]; push_cast at h1 ⊢; linarith
      · rw [if_neg hab]; push_cast at h1 ⊢; linarith

/-! ### peaks -/

/-- A decreasing word followed by an increasing word. -/
def IsV (v : List Int) : Prop := ∃ d e : List Int, v = d ++ e ∧ d.Pairwise (· > ·) ∧ e.Pairwise (· < ·)

/-- A product of at most `k` words as in `IsV`. -/
def IsVs (k : Nat) (v : List Int) : Prop := ∃ fs : List (List Int), fs.length ≤ k ∧ (∀ f ∈ fs, IsV f) ∧ fs.flatten = v

theorem IsV.take {v : List Int} (h : IsV v) (k : Nat) : IsV (v.take k) := by
  obtain ⟨d, e, rfl, hd, he⟩ := h
  exact ⟨d.take k, e.take (k - d.length), List.take_append, hd.sublist (List.take_sublist _ _), he.sublist (List.take_sublist _ _)⟩

theorem IsV.drop {v : List Int} (h : IsV v) (k : Nat) : IsV (v.drop k) := by
  obtain ⟨d, e, rfl, hd, he⟩ := h
  exact ⟨d.drop k, e.drop (k - d.length), List.drop_append, hd.sublist (List.drop_sublist _ _), he.sublist (List.drop_sublist _ _)⟩

theorem isVs_cons {k : Nat} {f v : List Int} (hf : IsV f) (hv : IsVs k v) : IsVs (k + 1) (f ++ v) := by
  obtain ⟨fs, h1, h2, rfl⟩ := hv
  refine ⟨f :: fs, by simp [h1], ?_, rfl⟩
  intro g hg
  rcases List.mem_cons.1 hg with rfl | hg
  · exact hf
  · exact h2 g hg

theorem isVs_nil (k : Nat) : IsVs k [] := ⟨[], by simp, by simp, rfl⟩

theorem IsVs.take {k : Nat} {v : List Int} (h : IsVs k v) (j : Nat) : IsVs k (v.take j) := by
  induction k generalizing v j with
  | zero =>
    obtain ⟨fs, h1, h2, rfl⟩ := h
    have : fs = [] := List.eq_nil_of_length_eq_zero (by omega)
    subst this
    simpa using isVs_nil 0
  | succ k ih =>
    obtain ⟨fs, h1, h2, rfl⟩ := h
    cases fs with
    | nil => simpa using isVs_nil _
    | cons f fs =>
      rw [List.flatten_cons, List.take_append]
      exact isVs_cons ((h2 f (by simp)).take j) (ih ⟨fs, by simpa using h1, fun g hg => h2 g (by simp [hg]), rfl⟩ _)

theorem IsVs.drop {k : Nat} {v : List Int} (h : IsVs k v) (j : Nat) : IsVs k (v.drop j) := by
  induction k generalizing v j with
  | zero =>
    obtain ⟨fs, h1, h2, rfl⟩ := h
    have : fs = [] := List.eq_nil_of_length_eq_zero (by omega)
    subst this
    simpa using isVs_nil 0
  | succ k ih =>
    obtain ⟨fs, h1, h2, rfl⟩ := h
    cases fs with
    | nil => simpa using isVs_nil _
    | cons f fs =>
      rw [List.flatten_cons, List.drop_append]
      exact isVs_cons ((h2 f (by simp)).drop j) (ih ⟨fs, by simpa using h1, fun g hg => h2 g (by simp [hg]), rfl⟩ _)

/-- The condition tested in `peaks`. -/
def PeakAt (v : List Int) (i : Nat) : Prop := v.getD (i - 1) 0 ≤ v.getD i 0 ∧ v.getD (i + 1) 0 ≤ v.getD i 0

theorem firstPeak_none {v : List Int} : firstPeak v = none ↔ ∀ i, 1 ≤ i → i + 1 < v.length → ¬ PeakAt v i := by
  rw [firstPeak, List.find?_eq_none]
  constructor
  · intro h i h1 h2 h3
    exact h i (List.mem_map.2 ⟨i - 1, List.mem_range.2 (by omega), by omega⟩) (decide_eq_true h3)
  · intro h i hi
    rw [List.mem_map] at hi
    obtain ⟨a, ha, rfl⟩ := hi
    rw [List.mem_range] at ha
    have := h (a + 1) (by omega) (by omega)
    simpa [PeakAt] using this

theorem firstPeak_some {v : List Int} {k : Nat} (h : firstPeak v = some k) :
    1 ≤ k ∧ k + 1 < v.length ∧ PeakAt v k ∧ ∀ i, 1 ≤ i → i < k → ¬ PeakAt v i := by
  rw [firstPeak] at h
  rw [List.find?_eq_some_iff_getElem] at h
  obtain ⟨hp, i, hi, hik, hmin⟩ := h
  simp only [List.length_map, List.length_range] at hi
  simp only [List.getElem_map, List.getElem_range] at hik
  subst hik
  refine ⟨by omega, by omega, by simpa [PeakAt] using hp, fun j h1 h2 hpj => ?_⟩
  have := hmin (j - 1) (by omega)
  simp only [List.getElem_map, List.getElem_range, show j - 1 + 1 = j by omega] at this
  revert this
  simpa [PeakAt] using hpj

theorem isV_of_noPeak (v : List Int) (h : ∀ i, 1 ≤ i → i + 1 < v.length → ¬ PeakAt v i) : IsV v := by
  induction v with
  | nil => exact ⟨[], [], rfl, by simp, by simp⟩
  | cons a v ih =>
    cases v with
    | nil => exact ⟨[a], [], rfl, by simp, by simp⟩
    | cons b v =>
      obtain ⟨d, e, hde, hd, he⟩ := ih (by
        intro i h1 h2 h3
        refine h (i + 1) (by omega) (by simp at h2 ⊢; omega) ?_
        obtain ⟨i, rfl⟩ : ∃ j, i = j + 1 := ⟨i - 1, by omega⟩
        exact h3)
      have hlt : ∀ {c : Int} {l : List Int}, b < c → (c :: l).Pairwise (· < ·) → (b :: c :: l).Pairwise (· < ·) := by
        intro c l hbc hl
        refine List.pairwise_cons.2 ⟨fun x hx => ?_, hl⟩
        rcases List.mem_cons.1 hx with rfl | hx
        · exact hbc
        · exact lt_trans hbc ((List.pairwise_cons.1 hl).1 x hx)
      cases d with
      | nil =>
        simp only [List.nil_append] at hde
        exact ⟨[a], e, by rw [hde]; rfl, by simp, he⟩
      | cons b' d =>
        rw [List.cons_append, List.cons.injEq] at hde
        obtain ⟨rfl, rfl⟩ := hde
        by_cases hab : a > b
        · refine ⟨a :: b :: d, e, rfl, List.pairwise_cons.2 ⟨fun x hx => ?_, hd⟩, he⟩
          rcases List.mem_cons.1 hx with rfl | hx
          · exact hab
          · exact lt_trans ((List.pairwise_cons.1 hd).1 x hx) hab
        · have hpk : ∀ c l, d ++ e = c :: l → b < c := by
            intro c l hcl
            have := h 1 (by omega) (by rw [hcl]; simp)
            rw [hcl] at this
            by_contra hbc
            apply this
            refine ⟨?_, ?_⟩
            · show a ≤ b; omega
            · show c ≤ b; omega
          cases d with
          | nil =>
            refine ⟨[a], b :: e, rfl, by simp, ?_⟩
            cases e with
            | nil => simp
            | cons c e => exact hlt (hpk c e rfl) he
          | cons c d =>
            have h1 := hpk c (d ++ e) rfl
            have h2 := (List.pairwise_cons.1 hd).1 c (by simp)
            omega

theorem noPeak_of_isV {v : List Int} (hv : IsV v) (i : Nat) (h1 : 1 ≤ i) (h2 : i + 1 < v.length) : ¬ PeakAt v i := by
  obtain ⟨d, e, rfl, hd, he⟩ := hv
  rintro ⟨p1, p2⟩
  rw [List.pairwise_iff_getElem] at hd he
  have hlen : (d ++ e).length = d.length + e.length := List.length_append
  by_cases hi : i < d.length
  · have := hd (i - 1) i (by omega) hi (by omega)
    rw [List.getD_eq_getElem _ _ (by omega), List.getD_eq_getElem _ _ (by omega), List.getElem_append_left (by omega),
      List.getElem_append_left (by omega)] at p1
    omega
  · have := he (i - d.length) (i + 1 - d.length) (by omega) (by omega) (by omega)
    rw [List.getD_eq_getElem _ _ (by omega), List.getD_eq_getElem _ _ (by omega), List.getElem_append_right (by omega),
      List.getElem_append_right (by omega)] at p2
    omega

theorem peaks_le {k : Nat} {v : List Int} (h : IsVs k v) : peaks v ≤ k := by
  induction k generalizing v with
  | zero =>
    obtain ⟨fs, h1, h2, rfl⟩ := h
    have : fs = [] := List.eq_nil_of_length_eq_zero (by omega)
    subst this
    rw [List.flatten_nil, peaks]
    split
    · rename_i hk; cases hk
    · simp
  | succ k ih =>
    rw [peaks]
    split
    · rename_i j hj
      obtain ⟨g1, g2, g3, -⟩ := firstPeak_some hj
      obtain ⟨fs, h1, h2, rfl⟩ := h
      cases fs with
      | nil => simp at g2
      | cons f fs =>
        have hfs : IsVs k fs.flatten := ⟨fs, by simpa using h1, fun g hg => h2 g (by simp [hg]), rfl⟩
        have hlen : f.length ≤ j + 1 := by
          by_contra hlt
          refine noPeak_of_isV (h2 f (by simp)) j g1 (by omega) ?_
          rw [List.flatten_cons] at g3
          unfold PeakAt at g3 ⊢
          rw [List.getD_append _ _ _ _ (by omega), List.getD_append _ _ _ _ (by omega), List.getD_append _ _ _ _ (by omega)] at g3
          exact g3
        have := ih (hfs.drop (j + 1 - f.length))
        rw [List.flatten_cons, List.drop_append, List.drop_eq_nil_of_le hlen, List.nil_append]
        omega
    · split <;> omega

theorem isV_take_firstPeak {v : List Int} {k : Nat} (h : firstPeak v = some k) : IsV (v.take (k + 1)) := by
  obtain ⟨h1, h2, h3, h4⟩ := firstPeak_some h
  apply isV_of_noPeak
  intro i hi1 hi2 hp
  rw [List.length_take] at hi2
  refine h4 i hi1 (by omega) ?_
  unfold PeakAt at hp ⊢
  rw [List.getD_eq_getElem _ _ (by rw [List.length_take]; omega), List.getD_eq_getElem _ _ (by rw [List.length_take]; omega),
    List.getD_eq_getElem _ _ (by rw [List.length_take]; omega), List.getElem_take, List.getElem_take, List.getElem_take] at hp
  rw [List.getD_eq_getElem _ _ (by omega), List.getD_eq_getElem _ _ (by omega), List.getD_eq_getElem _ _ (by omega)]
  exact hp

/-- `peaks` is the least number of factors. -/
theorem isVs_peaks (v : List Int) : IsVs (peaks v) v := by
  induction hn : v.length using Nat.strong_induction_on generalizing v with
  | _ n ih =>
    subst hn
    rw [peaks]
    split
    · rename_i k hk
      have h1 := ih (v.drop (k + 1)).length (by have := firstPeak_lt hk; simp; omega) (v.drop (k + 1)) rfl
      have h2 := isVs_cons (isV_take_firstPeak hk) h1
      rw [List.take_append_drop, Nat.add_comm] at h2
      exact h2
    · rename_i hk
      have h1 := isV_of_noPeak v (firstPeak_none.1 hk)
      split
      · rename_i h0; rw [h0]; exact isVs_nil _
      · have := isVs_cons h1 (isVs_nil 0)
        rwa [List.append_nil] at this

theorem length_le_of_nodup {N : Nat} {d : List Int} (h : d.Nodup) (hN : ∀ a ∈ d, 0 ≤ a ∧ a < N) : d.length ≤ N := by
  classical
  have h1 : d.toFinset ⊆ Finset.Ico (0 : Int) N := by
    intro a ha
    rw [List.mem_toFinset] at ha
    rw [Finset.mem_Ico]; exact hN a ha
  have h2 := Finset.card_le_card h1
  rw [List.toFinset_card_of_nodup h] at h2
  simpa using h2

theorem IsV.length_le {N : Nat} {v : List Int} (h : IsV v) (hN : ∀ a ∈ v, 0 ≤ a ∧ a < N) : v.length ≤ 2 * N := by
  obtain ⟨d, e, rfl, hd, he⟩ := h
  have h1 := length_le_of_nodup (hd.imp (fun h => (ne_of_gt h : _ ≠ _))) (fun a ha => hN a (by simp [ha]))
  have h2 := length_le_of_nodup (he.imp (fun h => (ne_of_lt h : _ ≠ _))) (fun a ha => hN a (by simp [ha]))
  rw [List.length_append]; omega

theorem IsVs.length_le {N k : Nat} {v : List Int} (h : IsVs k v) (hN : ∀ a ∈ v, 0 ≤ a ∧ a < N) : v.length ≤ k * (2 * N) := by
  obtain ⟨fs, h1, h2, rfl⟩ := h
  have : fs.flatten.length ≤ fs.length * (2 * N) := by
    clear h1
    induction fs with
    | nil => simp
    | cons f fs ih =>
      have h3 := (h2 f (by simp)).length_le (N := N) (fun a ha => hN a (by simp [ha]))
      have h4 := ih (fun g hg => h2 g (by simp [hg])) (fun a ha => hN a (by rw [List.flatten_cons]; simp only [List.mem_append]; exact Or.inr ha))
      rw [List.flatten_cons, List.length_append, List.length_cons, Nat.succ_mul]; omega
  exact this.trans (Nat.mul_le_mul_right _ h1)

theorem isV_of_unimodal {v : List Int} (h : unimodalZeta v ≠ 0) : IsV v := by
  rw [unimodalZeta_eq_card] at h
  have h' : 0 < ((Finset.range (v.length + 1)).filter
      (fun k => (v.take k).Pairwise (· > ·) ∧ (v.drop k).Pairwise (· < ·))).card := by
    apply Nat.pos_of_ne_zero
    intro h0
    rw [h0] at h; exact absurd rfl h
  obtain ⟨k, hk⟩ := Finset.card_pos.1 h'
  rw [Finset.mem_filter] at hk
  exact ⟨v.take k, v.drop k, (List.take_append_drop k v).symm, hk.2.1, hk.2.2⟩

theorem dec_of_zeta {v : List Int} (h : decreasingZeta v ≠ 0) : v.Pairwise (· > ·) := by
  rw [decreasingZeta] at h
  by_contra h'
  apply h
  rw [if_neg (fun hh => h' ((dec_iff v).1 hh))]

end Verif.Words
